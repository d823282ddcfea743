import Verif.Model.ProjectionX
import Verif.Spec.ProjectionRounded

/-! Specification of the projections by cosine similarity and by dot product for numbers of any kind. -/
namespace Pelote
variable {V N : Type} [LinearOrder V] [Zero N] [One N]

/-- The products of two vectors, added up in order. -/
def dotN (ops : MetricOps N) (l : List V) (a b : V → N) : N := l.foldl (fun s t => ops.add s (ops.mul (a t) (b t))) 0

/-- The squared norm of the vector of weights of a node. -/
def squareN {A : Type} (ops : MetricOps N) (g : Graph V A) (w : V → V → N) (u : V) : N := dotN ops (g.neighbors u) (w u) (w u)

/-- The dot product of the vectors of weights of two nodes. -/
def productN {A : Type} (ops : MetricOps N) (g : Graph V A) (w : V → V → N) (u v : V) : N := dotN ops (g.sharedList u v) (w u) (w v)

/-- The similarity of two nodes, the one with the least label first. -/
def similarityN {A : Type} (ops : MetricOps N) (cosine : Bool) (g : Graph V A) (w : V → V → N) (u v : V) : Py N :=
  if cosine then
    (ops.sqrt (squareN ops g w u)).bind fun a =>
      (ops.sqrt (squareN ops g w v)).bind fun b => ops.div (productN ops g w u v) (ops.times a b)
  else .ok (productN ops g w u v)

/-- The node has a norm: it has a neighbor and, for cosine, the squared norm is above 0. -/
def HasNorm {A : Type} (ops : MetricOps N) (cosine : Bool) (g : Graph V A) (w : V → V → N) (u : V) : Prop :=
  g.neighbors u ≠ [] ∧ (cosine = true → ops.lt 0 (squareN ops g w u) = true)

/-- The square root of the squared norm of a node can be taken, if the metric takes it. -/
def HasRoot {A : Type} (ops : MetricOps N) (cosine : Bool) (g : Graph V A) (w : V → V → N) (u : V) : Prop :=
  cosine = true → ops.lt 0 (squareN ops g w u) = true → ∃ x, ops.sqrt (squareN ops g w u) = .ok x

/-- Two nodes share a neighbor. -/
def Graph.Sharing {A : Type} (g : Graph V A) (u v : V) : Prop := ∃ t, g.hasEdge u t = true ∧ g.hasEdge v t = true

/-- The similarity is not below the threshold. -/
def NotBelow (ops : MetricOps N) (threshold : Option N) (x : N) : Prop := ∀ t, threshold = some t → ops.lt x t = false

/-- What the projection is expected to work on: a simple undirected graph, bipartite with respect to the given nodes, which can be
compared with each other and have usable attribute names; the weights are the numbers `w`, 1 by default. -/
structure ProjectableN [PyOrd V] (g : Graph V (Val N)) (ns : List V) (partAttr weightAttr : String) (w : V → V → N) : Prop where
  wf : g.WF
  undirected : g.directed = false
  simple : g.multi = false
  nonempty : ∃ n ∈ g.nodes, n ∈ ns
  bipartite : ∀ u v, g.hasEdge u v = true → (u ∈ ns ↔ v ∉ ns)
  comparable : ∀ u ∈ ns, ∀ v ∈ ns, PyOrd.gt u v = .ok (decide (v < u))
  names : ∀ n a, g.node.get? n = some a → n ∈ ns → Graph.NodeKwSafe (a.erase (.str partAttr))
  weights : ∀ u v a, g.edge? u v (.int 0) = some a → ((a.get? (.str weightAttr)).getD (.num 1)).toNum = .ok (w u v)

end Pelote
