import Verif.Spec.Graph

/-! Specification vocabulary: parts of a graph without edges between them. -/
namespace Pelote
variable {V A : Type} [DecidableEq V]

/-- No edge joins a node satisfying `p` to a node which does not. -/
def Graph.Closed (g : Graph V A) (p : V → Bool) : Prop := ∀ u v, g.hasEdge u v = true → p u = p v

end Pelote
