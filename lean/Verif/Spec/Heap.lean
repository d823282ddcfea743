import Verif.Nx.Heap

/-! When a graph shares no attribute dict with another one. -/
namespace Pelote
variable {V A : Type} [DecidableEq V]

/-- The dicts of a graph: its own, those of its nodes, those of its edges. -/
def HGraph.locs (g : HGraph V) : List Loc :=
  g.attrs :: (g.node.map Prod.snd ++ g.links.flatMap (fun l => l.data.map Prod.snd))

/-- The dicts of the graph exist. -/
def HGraph.Valid (H : Heap A) (g : HGraph V) : Prop := ∀ l ∈ g.locs, l < H.length

/-- Modifications in place of some dicts, one after the other. -/
def Heap.writes (H : Heap A) (ws : List (Loc × Attrs A)) : Heap A := ws.foldl (fun H w => H.write w.1 w.2) H

/-- Whatever is done to the attributes of `h`, its nodes and its edges, the content of `g` does not change. -/
def HGraph.Untouched (H : Heap A) (g h : HGraph V) : Prop :=
  ∀ ws : List (Loc × Attrs A), (∀ w ∈ ws, w.1 ∈ h.locs) → g.deref (H.writes ws) = g.deref H

/-- `c`, returned by a function given `g`, is a copy: `g` was not modified, modifying one never modifies the other, and no two
nodes or edges of `c` have the same dict. -/
structure HGraph.IsCopy (H₀ : Heap A) (g : HGraph V) (H : Heap A) (c : HGraph V) : Prop where
  source : g.deref H = g.deref H₀
  valid : c.Valid H
  forth : HGraph.Untouched H g c
  back : HGraph.Untouched H c g
  distinct : c.locs.Nodup

end Pelote
