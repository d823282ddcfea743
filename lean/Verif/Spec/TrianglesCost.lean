import Verif.Model.Triangles
import Verif.Spec.Triangles
import Mathlib.Data.Finset.Prod

/-! Cost of the triangle enumeration, counted in nodes met by the innermost loop,
`for dllist_node in neighbor_adjacency.iternodes()` (pelote/metrics/chiba_nishizeki.py:93-101). -/
namespace Pelote
variable {V A : Type} [DecidableEq V]

/-- `popMarked` with a counter of the nodes met: each pop goes through the whole adjacency of the node popped. -/
def popMarkedTraced (node : V) : List V → Dict V (List V) →
    (List (V × V × V) × Dict V (List V) × Option PyErr) × Nat
  | [], adjs => (([], adjs, none), 0)
  | neighbor :: marked, adjs =>
    match adjs.getItem neighbor with
    | .error e => (([], adjs, some e), 0)
    | .ok adjacency =>
      let found := (adjacency.filter (fun x => !decide (x = node) && decide (x ∈ marked))).map
        (fun x => (node, neighbor, x))
      if node ∈ adjacency then
        let r := popMarkedTraced node marked (adjs.set neighbor (adjacency.erase node))
        ((found ++ r.1.1, r.1.2), adjacency.length + r.2)
      else ((found, adjs, some (.typeError "remove: argument must be a dllistnode")), adjacency.length)

/-- `triangleLoop` with the counter. -/
def triangleLoopTraced : List V → Dict V (List V) → Gen (V × V × V) × Nat
  | [], _ => (⟨[], none⟩, 0)
  | node :: ns, adjs =>
    match adjs.getItem node with
    | .error e => (⟨[], some e⟩, 0)
    | .ok adjacency =>
      let marked := (adjacency.foldl (fun (m : Dict V Unit) x => m.set x ()) []).keys
      match popMarkedTraced node marked.reverse adjs with
      | ((ys, _, some e), n) => (⟨ys, some e⟩, n)
      | ((ys, adjs, none), n) =>
        let r := triangleLoopTraced ns adjs
        (⟨ys ++ r.1.yields, r.1.err⟩, n + r.2)

/-- `triangles(graph)` with the counter: what it yields (the same, `trianglesTraced_yields`) and the number of nodes met
when it is run to completion. -/
def trianglesTraced (g : Graph V A) : Gen (V × V × V) × Nat :=
  let ns := sortedNodes g.undirectedView
  triangleLoopTraced (ns.take (ns.length - 2)) (adjacenciesOf g.undirectedView ns)

/-- Nodes met by `triangles(graph)` run to completion. -/
def triangleReads (g : Graph V A) : Nat := (trianglesTraced g).2

/-- The pairs of different adjacent nodes, in both orders. -/
def Graph.neighborPairs (g : Graph V A) : Finset (V × V) :=
  (g.nodes.toFinset ×ˢ g.nodes.toFinset).filter (fun p => p.1 ≠ p.2 ∧ g.Adjacent p.1 p.2)

/-- Edges can be oriented so that every node has at most `k` outgoing ones: true of graphs whose edges can be partitioned
into `k` forests, i.e. of arboricity `k` (each edge going from child to parent). -/
def Graph.Orientable (g : Graph V A) (k : Nat) : Prop :=
  ∃ out : V → Finset V, (∀ u, (out u).card ≤ k) ∧
    ∀ u v, u ≠ v → g.Adjacent u v → v ∈ out u ∨ u ∈ out v

end Pelote
