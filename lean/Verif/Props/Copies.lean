import Verif.Spec.Heap
import Verif.Lemmas.Copies

/-! C80: the graphs returned are copies: modifying the attributes of one never changes the other; views are not copies, and
flags are written in place. -/
namespace Pelote
variable {V A : Type} [DecidableEq V]

/-! ### Copies -/

omit [DecidableEq V] in
theorem Heap.read_writes {H : Heap A} {ws : List (Loc × Attrs A)} {l : Loc} (h : ∀ w ∈ ws, w.1 ≠ l) :
    (H.writes ws).read l = H.read l := by
  unfold Heap.writes
  induction ws generalizing H with
  | nil => rfl
  | cons w ws ih =>
    rw [List.foldl_cons, ih (fun w hw => h w (List.mem_cons_of_mem _ hw)),
      Heap.read_write_ne (h w (List.mem_cons_self ..))]

omit [DecidableEq V] in
theorem Copying.isCopy {H₀ H : Heap A} {g c : HGraph V} (hg : g.Valid H₀) (h : Copying H₀ H c) :
    HGraph.IsCopy H₀ g H c where
  source := h.source hg
  valid l hl := (h.bound l hl).2
  forth ws hws := HGraph.deref_congr (fun l hl => Heap.read_writes (fun w hw e =>
    absurd (hg l hl) (not_lt_of_ge (e ▸ (h.bound _ (hws w hw)).1))))
  back ws hws := HGraph.deref_congr (fun l hl => Heap.read_writes (fun w hw e =>
    absurd (hg _ (hws w hw)) (not_lt_of_ge (e ▸ (h.bound l hl).1))))
  distinct := h.nodup

theorem Refines.isCopy {H₀ : Heap A} {g : HGraph V} (hg : g.Valid H₀) {x : Py (Heap A × HGraph V)} {y : Py (Graph V A)}
    (h : Refines H₀ x y) :
    (∀ H c, x = .ok (H, c) → y = .ok (c.deref H) ∧ HGraph.IsCopy H₀ g H c) ∧ ∀ e, x = .error e ↔ y = .error e := by
  rcases h.elim with ⟨e, rfl, rfl⟩ | ⟨H, c, rfl, rfl, h'⟩
  · exact ⟨by simp, by simp⟩
  · refine ⟨fun H' c' e => ?_, by simp⟩
    cases e
    exact ⟨rfl, h'.isCopy hg⟩

/-- C80: `filter_edges` returns a copy, whose content is that described by the theorems on `filterEdges`. -/
theorem filterEdgesH_copy [AttrVal A] {H₀ : Heap A} {g : HGraph V} (hg : g.Valid H₀) (p : EdgePred V A) :
    (∀ H c, filterEdgesH H₀ g p = .ok (H, c) →
      filterEdges (g.deref H₀) p = .ok (c.deref H) ∧ HGraph.IsCopy H₀ g H c) ∧
    ∀ e, filterEdgesH H₀ g p = .error e ↔ filterEdges (g.deref H₀) p = .error e := by
  refine Refines.isCopy hg ?_
  obtain ⟨h1, h2⟩ := createEmptyCopy_copying hg
  have := filterEdgesLoopH_refines p g.edgesKeys (fun e he => hg _ (edgesFrom_locs he)) h1
  rw [h2, ← edgesKeys_deref] at this
  exact this

/-- C80: `filter_nodes` returns a copy. -/
theorem filterNodesH_copy [AttrVal A] [PyOrd V] {H₀ : Heap A} {g : HGraph V} (hg : g.Valid H₀) (p : NodePred V A) :
    (∀ H c, filterNodesH H₀ g p = .ok (H, c) →
      filterNodes (g.deref H₀) p = .ok (c.deref H) ∧ HGraph.IsCopy H₀ g H c) ∧
    ∀ e, filterNodesH H₀ g p = .error e ↔ filterNodes (g.deref H₀) p = .error e := by
  refine Refines.isCopy hg ?_
  unfold filterNodesH filterNodes createNullCopy
  have e0 : (g.deref H₀).attrs = H₀.read g.attrs := rfl
  rw [e0]
  cases Graph.checkKwargs ["self", "incoming_graph_data"] (H₀.read g.attrs) with
  | error e => exact rfl
  | ok _ =>
    obtain ⟨h1, h2⟩ := new_copying (V := V) H₀ g.directed g.multi (H₀.read g.attrs)
    have := filterNodesLoopH_refines hg p g.node hg.node h1
    rw [h2] at this
    exact this

/-- C80: `filter_leaves` returns a copy. -/
theorem filterLeavesH_copy [AttrVal A] [PyOrd V] {H₀ : Heap A} {g : HGraph V} (hg : g.Valid H₀) :
    (∀ H c, filterLeavesH H₀ g = .ok (H, c) →
      filterLeaves (g.deref H₀) = .ok (c.deref H) ∧ HGraph.IsCopy H₀ g H c) ∧
    ∀ e, filterLeavesH H₀ g = .error e ↔ filterLeaves (g.deref H₀) = .error e :=
  filterNodesH_copy hg _

/-- C80: `largest_connected_component_subgraph` returns a copy. -/
theorem largestComponentSubgraphH_copy [AttrVal A] {H₀ : Heap A} {g : HGraph V} (hg : g.Valid H₀) :
    (∀ H c, largestComponentSubgraphH H₀ g false = .ok (H, c) →
      largestComponentSubgraph (g.deref H₀) false = .ok (c.deref H) ∧ HGraph.IsCopy H₀ g H c) ∧
    ∀ e, largestComponentSubgraphH H₀ g false = .error e ↔ largestComponentSubgraph (g.deref H₀) false = .error e := by
  refine Refines.isCopy hg ?_
  unfold largestComponentSubgraphH largestComponentSubgraph
  cases largestConnectedComponent (g.deref H₀) with
  | error e => exact rfl
  | ok lc =>
    obtain ⟨h1, h2⟩ := createEmptyCopy_copying hg
    have r := addNodesH_refines g.node hg.node h1
    rw [h2] at r
    have e0 : (g.deref H₀).node = derefD H₀ g.node := rfl
    simp only [e0, Bool.false_eq_true, if_false]
    rcases r.elim with ⟨e, h1, h2⟩ | ⟨H', c', h1, h2, h'⟩ <;> simp only [h1, h2]
    · exact rfl
    · by_cases hc : (lc.getD []).isEmpty = true
      · rw [if_pos hc, if_pos hc]
        exact ⟨h', rfl⟩
      · rw [if_neg hc, if_neg hc]
        have := addComponentEdgesH_refines (lc.getD []) g.edgesKeys (fun e he => hg _ (edgesFrom_locs he)) h'
        rw [← edgesKeys_deref] at this
        exact this

/-- C80: `Sparsifier.filter`, for any generator of relevant edges which yields edges with dicts of the graph, returns a
copy. -/
theorem sparsifierFilterH_copy [AttrVal A] (s : Sparsifier V A) {H₀ : Heap A} {g : HGraph V} (hg : g.Valid H₀)
    {relevant : Gen (V × V × PyKey × Loc)} (hl : ∀ e ∈ relevant.yields, e.2.2.2 ∈ g.locs)
    (hy : (s.relevant (g.deref H₀)).yields = relevant.yields.map (derefEdge H₀))
    (he : (s.relevant (g.deref H₀)).err = relevant.err) :
    (∀ H c, sparsifierFilterH H₀ g relevant = .ok (H, c) →
      s.filter (g.deref H₀) = .ok (c.deref H) ∧ HGraph.IsCopy H₀ g H c) ∧
    ∀ e, sparsifierFilterH H₀ g relevant = .error e ↔ s.filter (g.deref H₀) = .error e := by
  refine Refines.isCopy hg ?_
  obtain ⟨h1, h2⟩ := createEmptyCopy_copying hg
  have := sparsifierFilterLoopH_refines relevant.yields relevant.err (fun e he => hg _ (hl e he)) h1
  rw [h2, ← hy] at this
  unfold Sparsifier.filter
  rw [he]
  exact this

/-- C80: the same for the sparsifiers given by a predicate, whose generator goes through the edges of the graph. -/
theorem sparsifierFilterH_predicate [AttrVal A] {s : Sparsifier V A} {factory : PredFactory V A}
    (hs : s.relevant = defaultGenerator true factory) {H₀ : Heap A} {g : HGraph V} (hg : g.Valid H₀) {p : EdgePred V A}
    (hp : factory (g.deref H₀) = .ok p) :
    (∀ H c, sparsifierFilterH H₀ g (yieldWhenH H₀ true p g.edgesKeys) = .ok (H, c) →
      s.filter (g.deref H₀) = .ok (c.deref H) ∧ HGraph.IsCopy H₀ g H c) ∧
    ∀ e, sparsifierFilterH H₀ g (yieldWhenH H₀ true p g.edgesKeys) = .error e ↔ s.filter (g.deref H₀) = .error e := by
  obtain ⟨h1, h2, h3⟩ := yieldWhenH_eq H₀ true p g.edgesKeys
  have e : s.relevant (g.deref H₀) = yieldWhen true p (g.edgesKeys.map (derefEdge H₀)) := by
    rw [hs, ← edgesKeys_deref]
    unfold defaultGenerator
    rw [hp]
  exact sparsifierFilterH_copy s hg (fun e he => edgesFrom_locs (h3 he)) (by rw [e, h1]) (by rw [e, h2])

/-- C80: a graph made by calls of `add_node` and `add_edge` on a new one, as projections, `parse_graphology_json` and the
functions on tables make them: its dicts are new and distinct, whatever other graph there is. -/
theorem buildH_copy [AttrVal A] (ops : List (BuildOp V A)) {H₀ : Heap A} {g : HGraph V} (hg : g.Valid H₀)
    (directed multi : Bool) (attrs : Attrs A) :
    let r : Heap A × HGraph V := HGraph.new H₀ directed multi attrs
    (∀ H c, buildH ops r.1 r.2 = .ok (H, c) →
      build ops (Graph.empty directed multi attrs) = .ok (c.deref H) ∧ HGraph.IsCopy H₀ g H c) ∧
    ∀ e, buildH ops r.1 r.2 = .error e ↔ build ops (Graph.empty directed multi attrs) = .error e := by
  intro r
  refine Refines.isCopy hg ?_
  obtain ⟨h1, h2⟩ := new_copying (V := V) H₀ directed multi attrs
  have := buildH_refines ops h1
  rw [h2] at this
  exact this

/-! ### Views -/

omit [DecidableEq V] in
theorem filter_derefD (H : Heap A) (d : Dict V Loc) (q : V → Bool) :
    (derefD H d).filter (fun p => q p.1) = derefD H (d.filter (fun p => q p.1)) := by
  unfold derefD
  rw [List.filter_map]
  rfl

theorem subgraph_deref (H : Heap A) (g : HGraph V) (ns : List V) : (g.subgraph ns).deref H = (g.deref H).subgraph ns := by
  unfold HGraph.subgraph Graph.subgraph HGraph.deref
  simp only [List.filter_map]
  rfl

theorem subgraph_locs (g : HGraph V) (ns : List V) : (g.subgraph ns).locs ⊆ g.locs := by
  intro l hl
  rw [HGraph.locs_eq] at hl ⊢
  rcases List.mem_cons.1 hl with h | h
  · exact List.mem_cons.2 (.inl h)
  · refine List.mem_cons_of_mem _ ?_
    rcases List.mem_append.1 h with h | h
    · obtain ⟨p, hp, rfl⟩ := List.mem_map.1 h
      exact List.mem_append_left _ (List.mem_map_of_mem (List.mem_of_mem_filter hp))
    · obtain ⟨x, hx, h⟩ := List.mem_flatMap.1 h
      exact List.mem_append_right _ (List.mem_flatMap.2 ⟨x, List.mem_of_mem_filter hx, h⟩)

/-- C80: with `as_view=True` the dicts are those of the graph: nothing is created, and at any time the view is the subgraph
of the graph as it is by then, whichever of the two its attributes were changed through. -/
theorem largestComponentSubgraphH_view [AttrVal A] {H₀ H : Heap A} {g c : HGraph V}
    (h : largestComponentSubgraphH H₀ g true = .ok (H, c)) :
    H = H₀ ∧ c.locs ⊆ g.locs ∧
      ∃ lc, largestConnectedComponent (g.deref H₀) = .ok lc ∧ ∀ H' : Heap A, c.deref H' = (g.deref H').subgraph (lc.getD []) := by
  unfold largestComponentSubgraphH at h
  cases hlc : largestConnectedComponent (g.deref H₀) with
  | error e => rw [hlc] at h; cases h
  | ok lc =>
    rw [hlc] at h
    cases h
    exact ⟨rfl, subgraph_locs g _, lc, rfl, fun H' => subgraph_deref H' g _⟩

/-! ### Flags -/

section flags
variable {K : Type} [Field K] [LinearOrder K] [IsStrictOrderedRing K]

omit [DecidableEq V] in
theorem Own.write {H : Heap A} {g : HGraph V} (o : HGraph.Own H g) (l : Loc) (a : Attrs A) : HGraph.Own (H.write l a) g :=
  ⟨o.nodup, fun m hm => by rw [Heap.length_write]; exact o.lt m hm⟩

theorem flagLazyH_aux {g : HGraph V} (attr : String) (want : Bool) (p : EdgePred V (Val K)) (H₀ : Heap (Val K))
    (es : List (V × V × PyKey × Loc)) (hes : es ⊆ g.edgesKeys) (hn : (es.map (fun e => e.2.2.2)).Nodup) {H : Heap (Val K)}
    (o : HGraph.Own H g) (wf : (g.deref H).WF) (hr : ∀ e ∈ es, H.read e.2.2.2 = H₀.read e.2.2.2) :
    ((g.deref (flagLazyH attr want (.bool true) p es H).1, (flagLazyH attr want (.bool true) p es H).2) :
        Graph V (Val K) × Py Unit) =
      Sparsifier.flagLoop attr (yieldWhen want p (es.map (derefEdge H₀))).yields
        (yieldWhen want p (es.map (derefEdge H₀))).err (g.deref H) := by
  induction es generalizing H with
  | nil => rfl
  | cons e es ih =>
    obtain ⟨u, v, k, l⟩ := e
    have hrl := hr _ (List.mem_cons_self ..)
    simp only [List.map_cons, List.nodup_cons] at hn hrl
    simp only [flagLazyH, List.map_cons, derefEdge, yieldWhen, hrl]
    cases p u v (H₀.read l) with
    | error e => rfl
    | ok b =>
      have hes' : es ⊆ g.edgesKeys := fun e he => hes (List.mem_cons_of_mem _ he)
      by_cases hb : b = want
      · have hw := write_deref o wf (hes (List.mem_cons_self ..)) attr (.bool true)
        simp only [hrl] at hw
        simp only [hb, if_true]
        rw [ih hes' hn.2 (Own.write o _ _) (by rw [hw]; exact WF.setEdgeAttr wf _ _ _ _ _) (fun e he => ?_), hw]
        · rfl
        · rw [Heap.read_write_ne, hr e (List.mem_cons_of_mem _ he)]
          rintro rfl
          exact hn.1 (List.mem_map_of_mem (f := fun e : V × V × PyKey × Loc => e.2.2.2) he)
      · simp only [hb, if_false]
        exact ih hes' hn.2 o wf (fun e he => hr e (List.mem_cons_of_mem _ he))

/-- C80: flagging writes in the dicts of the graph and in no other: with the default generators, which test an edge once
those before it are flagged, the graph becomes what `flagRelevant` and `flagRedundant` say. -/
theorem flagLazyH_exact {H : Heap (Val K)} {g : HGraph V} (hg : g.Valid H) (hd : g.locs.Nodup) (wf : (g.deref H).WF)
    {s : Sparsifier V (Val K)} {factory : PredFactory V (Val K)} (hs : s.relevant = defaultGenerator true factory)
    (hs' : s.redundant = defaultGenerator false factory) {p : EdgePred V (Val K)} (hp : factory (g.deref H) = .ok p)
    (attr : String) :
    s.flagRelevant (g.deref H) attr false =
      (g.deref (flagLazyH attr true (.bool true) p g.edgesKeys H).1, (flagLazyH attr true (.bool true) p g.edgesKeys H).2) ∧
    s.flagRedundant (g.deref H) attr false =
      (g.deref (flagLazyH attr false (.bool true) p g.edgesKeys H).1,
        (flagLazyH attr false (.bool true) p g.edgesKeys H).2) := by
  have o : HGraph.Own H g := ⟨hd, hg⟩
  have hn := edgesKeys_locs_nodup o wf
  constructor
  · rw [flagLazyH_aux attr true p H g.edgesKeys (List.Subset.refl _) hn o wf (fun _ _ => rfl), ← edgesKeys_deref]
    unfold Sparsifier.flagRelevant
    rw [hs]
    unfold defaultGenerator
    simp only [hp]
    rfl
  · rw [flagLazyH_aux attr false p H g.edgesKeys (List.Subset.refl _) hn o wf (fun _ _ => rfl), ← edgesKeys_deref]
    unfold Sparsifier.flagRedundant
    rw [hs']
    unfold defaultGenerator
    simp only [hp]
    rfl

theorem flagFullH_aux {g : HGraph V} (attr : String) (negate : Bool) (p : EdgePred V (Val K)) (H₀ : Heap (Val K))
    (es : List (V × V × PyKey × Loc)) (hes : es ⊆ g.edgesKeys) (hn : (es.map (fun e => e.2.2.2)).Nodup) {H : Heap (Val K)}
    (o : HGraph.Own H g) (wf : (g.deref H).WF) (hr : ∀ e ∈ es, H.read e.2.2.2 = H₀.read e.2.2.2) :
    ((g.deref (flagFullH attr .bool negate p es H).1, (flagFullH attr .bool negate p es H).2) :
        Graph V (Val K) × Py Unit) =
      Sparsifier.flagFullLoop attr negate p (es.map (derefEdge H₀)) (g.deref H) := by
  induction es generalizing H with
  | nil => rfl
  | cons e es ih =>
    obtain ⟨u, v, k, l⟩ := e
    have hrl := hr _ (List.mem_cons_self ..)
    simp only [List.map_cons, List.nodup_cons] at hn hrl
    simp only [flagFullH, List.map_cons, derefEdge, Sparsifier.flagFullLoop, hrl]
    cases p u v (H₀.read l) with
    | error e => rfl
    | ok b =>
      have hes' : es ⊆ g.edgesKeys := fun e he => hes (List.mem_cons_of_mem _ he)
      have hw := write_deref o wf (hes (List.mem_cons_self ..)) attr (.bool (b != negate))
      simp only [hrl] at hw
      simp only []
      rw [ih hes' hn.2 (Own.write o _ _) (by rw [hw]; exact WF.setEdgeAttr wf _ _ _ _ _) (fun e he => ?_), hw]
      rw [Heap.read_write_ne, hr e (List.mem_cons_of_mem _ he)]
      rintro rfl
      exact hn.1 (List.mem_map_of_mem (f := fun e : V × V × PyKey × Loc => e.2.2.2) he)

/-- C80: the same with `full=True`. -/
theorem flagFullH_exact {H : Heap (Val K)} {g : HGraph V} (hg : g.Valid H) (hd : g.locs.Nodup) (wf : (g.deref H).WF)
    {s : Sparsifier V (Val K)} {p : EdgePred V (Val K)} (hp : s.factory (g.deref H) = .ok p) (attr : String) :
    s.flagRelevant (g.deref H) attr true =
      (g.deref (flagFullH attr .bool false p g.edgesKeys H).1, (flagFullH attr .bool false p g.edgesKeys H).2) ∧
    s.flagRedundant (g.deref H) attr true =
      (g.deref (flagFullH attr .bool true p g.edgesKeys H).1, (flagFullH attr .bool true p g.edgesKeys H).2) := by
  have o : HGraph.Own H g := ⟨hd, hg⟩
  have hn := edgesKeys_locs_nodup o wf
  constructor
  · rw [flagFullH_aux attr false p H g.edgesKeys (List.Subset.refl _) hn o wf (fun _ _ => rfl), ← edgesKeys_deref]
    unfold Sparsifier.flagRelevant
    rw [hp]; rfl
  · rw [flagFullH_aux attr true p H g.edgesKeys (List.Subset.refl _) hn o wf (fun _ _ => rfl), ← edgesKeys_deref]
    unfold Sparsifier.flagRedundant
    rw [hp]; rfl

end flags

/-! ### A graph and its copies -/

/-- A graph with two nodes, an edge and a self loop: five dicts. -/
def heapSample : Heap (Val ℚ) :=
  [[(.str "name", .str "net")], [(.str "size", .num 1)], [], [(.str "weight", .num 3)], [(.str "weight", .num 1)]]

def graphSample : HGraph Nat := ⟨false, false, 0, [(1, 1), (2, 2)], [⟨1, 2, [(.int 0, 3)]⟩, ⟨2, 2, [(.int 0, 4)]⟩]⟩

example : graphSample.Valid heapSample ∧ graphSample.locs.Nodup := by
  unfold HGraph.Valid
  decide

example : (graphSample.deref heapSample).WF := by constructor <;> decide

/-- The copy made by `filter_edges`: four other dicts; with `as_view=True` the same ones. -/
example : (match filterEdgesH heapSample graphSample (fun u v _ => .ok (decide (u ≠ v))) with
      | .ok (H, c) => (H.length, c.locs)
      | .error _ => (0, [])) = (9, [5, 6, 7, 8]) ∧
    (match largestComponentSubgraphH heapSample graphSample true with
      | .ok (H, c) => (H.length, c.locs)
      | .error _ => (0, [])) = (5, [0, 1, 2, 3, 4]) := by
  decide +kernel

/-- A weight changed through the view is changed in the graph, one changed through the copy is not. -/
example : ((graphSample.deref (heapSample.write 3 [(.str "weight", .num 7)])).edgesKeys.map (fun e => e.2.2.2)) =
      [[(.str "weight", .num 7)], [(.str "weight", .num 1)]] ∧
    ((match filterEdgesH heapSample graphSample (fun u v _ => .ok (decide (u ≠ v))) with
      | .ok (H, _) => (graphSample.deref (H.write 8 [(.str "weight", .num 7)])).edgesKeys.map (fun e => e.2.2.2)
      | .error _ => [])) = [[(.str "weight", .num 3)], [(.str "weight", .num 1)]] := by
  decide +kernel

end Pelote
