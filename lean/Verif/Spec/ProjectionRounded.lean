import Verif.Spec.Projection
import Verif.Py.Binary64

/-! Specification of the similarities computed with rounded weights. -/
namespace Pelote
variable {V K : Type} [DecidableEq V] [Field K] [LinearOrder K]

/-- The sum of products added one after the other, each product and each sum being rounded. -/
def roundedDot (num : K → K) (l : List V) (a b : V → K) : K :=
  l.foldl (fun s t => num (s + num (a t * b t))) 0

/-- The neighbors of `u` that are neighbors of `v`, in the order in which `u` lists them. -/
def Graph.sharedList {A : Type} (g : Graph V A) (u v : V) : List V := (g.neighbors u).filter (fun t => g.hasEdge v t)

/-- The norm of a node for the cosine metric. -/
def roundedNorm [PyMath K] (num : K → K) (g : Graph V (Val K)) (w : V → V → K) (u : V) : K :=
  PyMath.sqrt (roundedDot num (g.neighbors u) (w u) (w u))

/-- The dot product and the cosine of two nodes, with rounded weights. -/
def roundedSimilarity [PyMath K] (num : K → K) (g : Graph V (Val K)) (kind : Metric) (w : V → V → K) (u v : V) : K :=
  match kind with
  | .cosine => PyMath.rnd (roundedDot num (g.sharedList u v) (w u) (w v) /
      PyMath.rnd (roundedNorm num g w u * roundedNorm num g w v))
  | _ => roundedDot num (g.sharedList u v) (w u) (w v)

end Pelote
