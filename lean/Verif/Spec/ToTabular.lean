import Verif.Model.ToTabular
import Verif.Spec.Graph

/-! Specification of the DataFrames made from a graph. -/
namespace Pelote

/-- The data of a node with attributes `a` requested under the column `c`, if it was: `None` if the node lacks it. -/
def requested (spec : Option NodeDataSpec) (a : Attrs Data) (c : PyKey) : Option Data :=
  match spec with
  | some (.mapping m) =>
    ((m.filter (fun p => decide (p.2 = c))).getLast?).map (fun p => (a.get? p.1).getD .none)
  | some (.iterable l) => if c ∈ l then some ((a.get? c).getD .none) else none
  | _ => none

/-- What is known of the edge `e` under the column `c`: data requested on the target, on the source, attribute of the
edge, end. -/
def edgeCell (sourceCol targetCol : PyKey) (sourceData targetData : Option NodeDataSpec) (g : Graph PyKey Data)
    (e : PyKey × PyKey × Attrs Data) (c : PyKey) : Option Data :=
  (requested targetData ((g.node.get? e.2.1).getD []) c).or
    ((requested sourceData ((g.node.get? e.1).getD []) c).or
      ((e.2.2.get? c).or
        (if c = targetCol then some (Data.ofKey e.2.1)
          else if c = sourceCol then some (Data.ofKey e.1) else none)))

/-- Same class, graph attributes, nodes and edges, and equal attributes: Python dicts are equal when they have the same
values for the same keys, in any order. -/
structure SameData (g h : Graph PyKey Data) : Prop where
  directed : g.directed = h.directed
  multi : g.multi = h.multi
  attrs : g.attrs = h.attrs
  nodes : ∀ n, n ∈ g.nodes ↔ n ∈ h.nodes
  nodeData : ∀ n a b, g.node.get? n = some a → h.node.get? n = some b → ∀ k, a.get? k = b.get? k
  edges : ∀ u v key, (g.edge? u v key).isSome = (h.edge? u v key).isSome
  edgeData : ∀ u v key a b, g.edge? u v key = some a → h.edge? u v key = some b → ∀ k, a.get? k = b.get? k

/-- The attribute names of the nodes are those listed by `A`, and likewise `B` for the edges; they are strings other than
the names of the key columns. -/
structure Tabular (g : Graph PyKey Data) (A B : List PyKey) (key source target : PyKey) : Prop where
  wf : g.WF
  multi : g.multi = false
  attrs : g.attrs = []
  nodes : g.node ≠ []
  edges : g.edgesData ≠ []
  nodeKeys : ∀ p ∈ g.node, ∀ k, k ∈ p.2.keys ↔ k ∈ A
  edgeKeys : ∀ e ∈ g.edgesData, ∀ k, k ∈ e.2.2.keys ↔ k ∈ B
  nodeStr : ∀ c ∈ A, ∃ s, c = .str s
  edgeStr : ∀ c ∈ B, ∃ s, c = .str s
  keyCol : key ∉ A
  sourceCol : source ∉ B
  targetCol : target ∉ B
  ends : source ≠ target

end Pelote
