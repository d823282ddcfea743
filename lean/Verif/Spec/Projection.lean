import Verif.Model.Projection
import Verif.Spec.Weight
import Verif.Spec.Graph
import Mathlib.Algebra.BigOperators.Group.Finset.Basic

/-! Specification of the monopartite projection: parts, neighborhoods and similarity of neighborhoods. -/
namespace Pelote
variable {V K : Type} [Field K] [LinearOrder K]

/-- Two attribute values are equal: the same value, or the same number. -/
def SameValue (x y : Val K) : Prop := x = y ∨ ∃ k, x.toNum = .ok k ∧ y.toNum = .ok k

/-- The node belongs to the designated part: its part attribute (`None` if absent) is the value, or the
collection holds it. -/
def InPart [DecidableEq V] (g : Graph V (Val K)) (partAttr : String) : Part V K → V → Prop
  | .value x, n => ∃ a, g.node.get? n = some a ∧ SameValue ((a.get? (.str partAttr)).getD .none) x
  | .frozen ns _, n => n ∈ g.nodes ∧ n ∈ ns
  | .collection ns, n => n ∈ g.nodes ∧ n ∈ ns

/-- Every edge joins a node of the part to a node outside of it. -/
def Bipartite [DecidableEq V] (g : Graph V (Val K)) (part : V → Prop) : Prop :=
  ∀ u v, g.hasEdge u v = true → (part u ↔ ¬ part v)

/-- The weights of the edges: the number in the weight attribute, 1 when there is none. -/
def EdgeWeights [DecidableEq V] (g : Graph V (Val K)) (weightAttr : String) (w : V → V → K) : Prop :=
  ∀ u v a, g.edge? u v (.int 0) = some a → HasWeight weightAttr a (w u v)

/-- The nodes adjacent to a node. -/
def Graph.nbhd {A : Type} [DecidableEq V] (g : Graph V A) (n : V) : Finset V :=
  (g.nodes.filter (fun m => g.hasEdge n m)).toFinset

/-- The documented metrics, on two neighborhoods and the weights of the edges leading to them, rounded by `PyMath.rnd`; the
cosines also round the product of the norms. -/
def similarity [DecidableEq V] [PyMath K] (kind : Metric) (A B : Finset V) (a b : V → K) : K :=
  match kind with
  | .intersection => ((A ∩ B).card : K)
  | .jaccard => PyMath.rnd (((A ∩ B).card : K) / ((A ∪ B).card : K))
  | .overlap => PyMath.rnd (((A ∩ B).card : K) / ((min A.card B.card : Nat) : K))
  | .dice => PyMath.rnd (2 * ((A ∩ B).card : K) / ((A.card + B.card : Nat) : K))
  | .binaryCosine => PyMath.rnd (((A ∩ B).card : K) / PyMath.rnd (PyMath.sqrt (A.card : K) * PyMath.sqrt (B.card : K)))
  | .dotProduct => ∑ t ∈ A ∩ B, a t * b t
  | .cosine => PyMath.rnd ((∑ t ∈ A ∩ B, a t * b t) /
      PyMath.rnd (PyMath.sqrt (∑ t ∈ A, a t * a t) * PyMath.sqrt (∑ t ∈ B, b t * b t)))
  | .pmi => PyMath.log (PyMath.rnd (((A ∩ B).card : K) / ((A.card : K) * (B.card : K))))

/-- No denominator, and no argument of the logarithm, is rounded to 0. -/
def NoUnderflow [DecidableEq V] [PyMath K] (kind : Metric) (A B : Finset V) (a b : V → K) : Prop :=
  match kind with
  | .binaryCosine => PyMath.rnd (PyMath.sqrt (A.card : K) * PyMath.sqrt (B.card : K)) ≠ 0
  | .cosine => PyMath.rnd (PyMath.sqrt (∑ t ∈ A, a t * a t) * PyMath.sqrt (∑ t ∈ B, b t * b t)) ≠ 0
  | .pmi => 0 < PyMath.rnd (((A ∩ B).card : K) / ((A.card : K) * (B.card : K)))
  | _ => True

/-- The documented names of the metrics. -/
def metricNames : List (Option String × Metric) :=
  [(none, .intersection), (some "jaccard", .jaccard), (some "overlap", .overlap), (some "cosine", .cosine),
   (some "dice", .dice), (some "binary_cosine", .binaryCosine), (some "dot_product", .dotProduct),
   (some "pmi", .pmi)]

/-- The similarity is not below the threshold, if there is one. -/
def ReachesThreshold (threshold : Option (Val K)) (x : K) : Prop :=
  ∀ v t, threshold = some v → v.toNum = .ok t → t ≤ x

/-- What a projection is expected to work on: a simple undirected graph, bipartite with respect to a
part that is not empty, whose kept nodes can be compared with each other and have usable attribute names;
no edge attribute is named like the part attribute with the value of the part; for the metrics using
weights (cosine, dot product) the weights are the numbers `w`, and for cosine no kept node has only edges of
weight 0. -/
structure Projectable [LinearOrder V] [PyOrd V] (g : Graph V (Val K)) (part : Part V K)
    (partAttr weightAttr : String) (kind : Metric) (check : Bool) (w : V → V → K) : Prop where
  wf : g.WF
  undirected : g.directed = false
  simple : g.multi = false
  notFrozen : ∀ ns r, part ≠ .frozen ns r
  nonempty : ∃ n, InPart g partAttr part n
  bipartite : Bipartite g (InPart g partAttr part)
  comparable : ∀ u v, InPart g partAttr part u → InPart g partAttr part v →
    PyOrd.gt u v = .ok (decide (v < u))
  names : ∀ n a, g.node.get? n = some a → InPart g partAttr part n → Graph.NodeKwSafe (a.erase (.str partAttr))
  edgeAttr : check = true → ∀ x, part = .value x → ∀ u v a, g.edge? u v (.int 0) = some a →
    ¬ SameValue ((a.get? (.str partAttr)).getD .none) x
  weights : kind = .cosine ∨ kind = .dotProduct → EdgeWeights g weightAttr w
  cosine : kind = .cosine → ∀ n, InPart g partAttr part n → (g.nbhd n).Nonempty → ∃ t ∈ g.nbhd n, w n t ≠ 0

/-- For the cosine similarity, some edge of the node has a weight other than 0. -/
def Weighty [DecidableEq V] (kind : Metric) (g : Graph V (Val K)) (w : V → V → K) (n : V) : Prop :=
  kind = .cosine → ∃ t ∈ g.nbhd n, w n t ≠ 0

/-- What the bipartition check looks for on an edge from a node of the part: for a part given as a collection its other
end in the collection, for a part given by value that very value in the attributes of the edge. -/
def Clash [DecidableEq V] (g : Graph V (Val K)) (partAttr : String) : Part V K → V → V → Prop
  | .collection ns, _, v => v ∈ ns
  | .value x, u, v => ∃ a, g.edge? u v (.int 0) = some a ∧ SameValue ((a.get? (.str partAttr)).getD .none) x
  | .frozen _ _, _, _ => False

end Pelote
