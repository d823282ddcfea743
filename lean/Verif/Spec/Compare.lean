import Verif.Spec.Graph

/-! Specification of graph comparison. -/
namespace Pelote
namespace Graph
variable {V A : Type} [DecidableEq V]

/-- Two dicts are equal: same keys, same values, order ignored. -/
def DictEq {κ ν : Type} [DecidableEq κ] (a b : Dict κ ν) : Prop := ∀ k, a.get? k = b.get? k

/-- Same node sets and same edge sets. -/
structure SameShape (g h : Graph V A) : Prop where
  nodes : ∀ n, n ∈ g.nodes ↔ n ∈ h.nodes
  edges : ∀ u v, g.hasEdge u v = h.hasEdge u v

/-- Same attributes on the nodes and on the edges of the first graph. -/
structure SameAttributes (g h : Graph V A) : Prop where
  node : ∀ n a, g.node.get? n = some a → ∃ b, h.node.get? n = some b ∧ DictEq a b
  edge : ∀ u v k a, g.edge? u v k = some a → ∃ b, h.edge? u v k = some b ∧ DictEq a b

end Graph
end Pelote
