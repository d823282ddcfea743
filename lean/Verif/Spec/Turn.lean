import Verif.Spec.Reorder

/-! Specification vocabulary: graphs which differ by the direction of their edges. -/
namespace Pelote
variable {V A : Type} [DecidableEq V]

/-- Two graphs, of any kinds, with the same nodes, listed in the same order with the same data, and the same edges with the same
data, but for the direction of each edge and the order of the edges. -/
structure Graph.Turned (g g' : Graph V A) : Prop where
  node : g.node = g'.node
  edges : SameEdges false g.edgesData g'.edgesData

/-- Two directed graphs with the same nodes, each edge of the one going the other way in the other. -/
structure Graph.Reversed (g g' : Graph V A) : Prop where
  node : g.node = g'.node
  from_directed : g.directed = true
  to_directed : g'.directed = true
  edges : (g.edgesData.map (fun e => (e.2.1, e.1, e.2.2))).Perm g'.edgesData

end Pelote
