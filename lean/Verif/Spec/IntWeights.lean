import Verif.Spec.Disparity
import Verif.Spec.Projection

/-! Specification of scores and similarities computed from integer weights: the sums are exact. -/
namespace Pelote
variable {V K : Type}

/-- The score of an edge with the exact strengths of its ends: only the quotients, the differences from 1 and the powers are rounded. -/
def Graph.quotientDisparity [DecidableEq V] [Field K] [LinearOrder K] {A : Type} (rnd : K → K) (pow : K → Nat → K) (reverse : Bool)
    (g : Graph V A) (w : V → V → K) (u v : V) : K :=
  let s := sideScore rnd pow (w u v) (g.nodeStrength w u) (g.degree u)
  let t := sideScore rnd pow (w u v) (g.nodeStrength w v) (g.degree v)
  if reverse then max (rnd (1 - s)) (rnd (1 - t)) else min s t

/-- The sum of the squares of the weights of a node. -/
def Graph.squareSum [DecidableEq V] {A : Type} (g : Graph V A) (z : V → V → ℤ) (u : V) : ℤ := ∑ t ∈ g.nbhd u, z u t ^ 2

/-- The sum of the products of the weights of two nodes with their common neighbors. -/
def Graph.productSum [DecidableEq V] {A : Type} (g : Graph V A) (z : V → V → ℤ) (u v : V) : ℤ :=
  ∑ t ∈ g.nbhd u ∩ g.nbhd v, z u t * z v t

/-- The least integer that is too large for a float. -/
def tooLarge : ℤ := 2 ^ 1024 - 2 ^ 970

end Pelote
