import Verif.Model.Heap
import Verif.Lemmas.Heap
import Verif.Lemmas.Sparsification

/-! Lemmas for C80: building a graph with the identity of dicts refines building it without. -/
namespace Pelote
open scoped List
variable {V A : Type} [DecidableEq V]

/-- The graph `c` is being built while the dicts which existed at the start are left alone. -/
structure Copying (H₀ H : Heap A) (c : HGraph V) : Prop where
  len : H₀.length ≤ H.length
  keep : ∀ l < H₀.length, H.read l = H₀.read l
  nodup : c.locs.Nodup
  bound : ∀ l ∈ c.locs, H₀.length ≤ l ∧ l < H.length

namespace Copying
variable {H₀ H : Heap A} {c : HGraph V}

omit [DecidableEq V] in
theorem own (h : Copying H₀ H c) : HGraph.Own H c := ⟨h.nodup, fun l hl => (h.bound l hl).2⟩

omit [DecidableEq V] in
theorem grow (h : Copying H₀ H c) {H' : Heap A} {c' : HGraph V} (s : Grow H H' c.locs c'.locs) : Copying H₀ H' c' where
  len := h.len.trans s.len
  keep l hl := by
    rw [s.frame l (hl.trans_le h.len) (fun hm => absurd hl (not_lt_of_ge (h.bound l hm).1)), h.keep l hl]
  nodup := s.nodup h.nodup (fun l hl => (h.bound l hl).2)
  bound := s.bound h.len h.bound

omit [DecidableEq V] in
theorem source (h : Copying H₀ H c) {g : HGraph V} (hg : g.Valid H₀) : g.deref H = g.deref H₀ :=
  HGraph.deref_congr (fun l hl => h.keep l (hg l hl))

end Copying

/-- A call with the identity of dicts does what the call without it does. -/
def Refines (H₀ : Heap A) : Py (Heap A × HGraph V) → Py (Graph V A) → Prop
  | .ok (H, c), .ok v => Copying H₀ H c ∧ c.deref H = v
  | .error e, .error e' => e = e'
  | _, _ => False

section ops
variable {H₀ H : Heap A} {c : HGraph V} (h : Copying H₀ H c)
include h

theorem addNode_refines (n : V) (a : Attrs A) : Refines H₀ (c.addNode H n a) ((c.deref H).addNode n a) := by
  unfold HGraph.addNode Graph.addNode
  cases Graph.checkKwargs ["self", "node_for_adding"] a with
  | error e => exact rfl
  | ok _ =>
    have s := HGraph.addNodeCore_step h.own n a
    exact ⟨h.grow s.grow, s.eq⟩

theorem addEdgeCore_copying (u v : V) (k : Option PyKey) (a : Attrs A) :
    Refines H₀ (.ok (c.addEdgeCore H u v k a)) (.ok ((c.deref H).addEdgeCore u v k a)) := by
  have s := HGraph.addEdgeCore_step h.own u v k a
  exact ⟨h.grow s.grow, s.eq⟩

theorem addEdge_refines [AttrVal A] (u v : V) (a : Attrs A) :
    Refines H₀ (c.addEdge H u v a) ((c.deref H).addEdge u v a) := by
  unfold HGraph.addEdge Graph.addEdge
  show Refines H₀ _ (if c.multi then _ else _)
  by_cases hm : c.multi = true
  · rw [if_pos hm, if_pos hm]
    cases Graph.checkKwargs ["self", "u_for_edge", "v_for_edge"] a with
    | error e => exact rfl
    | ok _ =>
      cases Dict.get? a (.str "key") with
      | none => exact addEdgeCore_copying h u v none a
      | some k =>
        cases hk : AttrVal.asKey k with
        | error e => simp only [hk]; exact rfl
        | ok k => simp only [hk]; exact addEdgeCore_copying h u v k _
  · rw [if_neg hm, if_neg hm]
    cases Graph.checkKwargs ["self", "u_of_edge", "v_of_edge"] a with
    | error e => exact rfl
    | ok _ => exact addEdgeCore_copying h u v none a

theorem addEdgeKey_refines (u v : V) (k : PyKey) (a : Attrs A) :
    Refines H₀ (c.addEdgeKey H u v k a) ((c.deref H).addEdgeKey u v k a) := by
  unfold HGraph.addEdgeKey Graph.addEdgeKey
  cases Graph.checkKwargs ["self", "u_for_edge", "v_for_edge", "key"] a with
  | error e => exact rfl
  | ok _ => exact addEdgeCore_copying h u v (some k) a

end ops

/-- The two outcomes. -/
theorem Refines.elim {H₀ : Heap A} {x : Py (Heap A × HGraph V)} {y : Py (Graph V A)} (h : Refines H₀ x y) :
    (∃ e, x = .error e ∧ y = .error e) ∨ ∃ H c, x = .ok (H, c) ∧ y = .ok (c.deref H) ∧ Copying H₀ H c := by
  match x, y, h with
  | .ok (H, c), .ok v, h => obtain ⟨h1, rfl⟩ := h; exact .inr ⟨H, c, rfl, rfl, h1⟩
  | .error e, .error e', h => cases (show e = e' from h); exact .inl ⟨e, rfl, rfl⟩

/-! ### Starting a copy -/

omit [DecidableEq V] in
theorem copyNodes_spec {H : Heap A} (d : Dict V Loc) (hd : ∀ l ∈ d.map Prod.snd, l < H.length) :
    Grow H (HGraph.copyNodes H d).1 [] ((HGraph.copyNodes H d).2.map Prod.snd) ∧
      derefD (HGraph.copyNodes H d).1 (HGraph.copyNodes H d).2 = derefD H d := by
  induction d generalizing H with
  | nil => exact ⟨Grow.refl H [], rfl⟩
  | cons p d ih =>
    obtain ⟨n, l⟩ := p
    have hl : l < H.length := hd l (by simp)
    have hd' : ∀ m ∈ d.map Prod.snd, m < H.length := fun m hm => hd m (List.mem_cons_of_mem _ hm)
    obtain ⟨h1, h2⟩ := ih (H := (H.alloc (H.read l)).1) (fun m hm => by
      rw [Heap.length_alloc]; exact (hd' m hm).trans (Nat.lt_succ_self _))
    have e : HGraph.copyNodes H ((n, l) :: d) = ((HGraph.copyNodes (H.alloc (H.read l)).1 d).1,
      (n, H.length) :: (HGraph.copyNodes (H.alloc (H.read l)).1 d).2) := rfl
    rw [e]
    refine ⟨?_, ?_⟩
    · have g1 := Grow.alloc H [] (H.read l)
      have g2 := h1.context [H.length]
      rw [List.append_nil] at g2
      exact g1.trans g2
    · show (n, Heap.read _ H.length) :: derefD _ _ = (n, H.read l) :: derefD H d
      rw [h2, h1.frame H.length (by rw [Heap.length_alloc]; exact Nat.lt_succ_self _) (by simp), Heap.read_alloc_new,
        derefD_congr (fun m hm => Heap.read_alloc_old (hd' m hm) _)]

omit [DecidableEq V] in
theorem new_copying (H : Heap A) (directed multi : Bool) (attrs : Attrs A) :
    Copying H (HGraph.new (V := V) H directed multi attrs).1 (HGraph.new (V := V) H directed multi attrs).2 ∧
      (HGraph.new (V := V) H directed multi attrs).2.deref (HGraph.new (V := V) H directed multi attrs).1 =
        Graph.empty directed multi attrs := by
  refine ⟨⟨?_, ?_, ?_, ?_⟩, ?_⟩
  · show _ ≤ (H.alloc attrs).1.length
    rw [Heap.length_alloc]; exact Nat.le_succ _
  · exact fun l hl => Heap.read_alloc_old hl _
  · simp [HGraph.new, HGraph.locs]
  · show ∀ l ∈ [H.length], H.length ≤ l ∧ l < (H.alloc attrs).1.length
    simp
  · show (⟨directed, multi, (H.alloc attrs).1.read H.length, [], []⟩ : Graph V A) = _
    rw [Heap.read_alloc_new]; rfl

omit [DecidableEq V] in
theorem createEmptyCopy_copying {H : Heap A} {g : HGraph V} (hg : g.Valid H) :
    Copying H (g.createEmptyCopy H).1 (g.createEmptyCopy H).2 ∧
      (g.createEmptyCopy H).2.deref (g.createEmptyCopy H).1 = (g.deref H).createEmptyCopy := by
  have hd : ∀ l ∈ g.node.map Prod.snd, l < H.length := fun l hl => hg l (by
    simp only [HGraph.locs_eq, List.mem_cons, List.mem_append]; tauto)
  obtain ⟨h1, h2⟩ := new_copying (V := V) H g.directed g.multi (H.read g.attrs)
  obtain ⟨k1, k2⟩ := copyNodes_spec (H := (HGraph.new (V := V) H g.directed g.multi (H.read g.attrs)).1) g.node
    (fun l hl => (hd l hl).trans_le h1.len)
  refine ⟨h1.grow ?_, ?_⟩
  · have := (k1.context [H.length]).context_right []
    simpa [HGraph.createEmptyCopy, HGraph.locs, HGraph.new, Heap.alloc] using this
  · let H' := (HGraph.new (V := V) H g.directed g.multi (H.read g.attrs)).1
    show (⟨g.directed, g.multi, Heap.read (HGraph.copyNodes H' g.node).1 H.length,
      derefD (HGraph.copyNodes H' g.node).1 (HGraph.copyNodes H' g.node).2, []⟩ : Graph V A) = _
    rw [k2, k1.frame H.length (by
        show H.length < (H.alloc _).1.length
        rw [Heap.length_alloc]; exact Nat.lt_succ_self _) (by simp),
      derefD_congr (fun l hl => h1.keep l (hd l hl))]
    show (⟨g.directed, g.multi, (H.alloc _).1.read H.length, _, []⟩ : Graph V A) = _
    rw [Heap.read_alloc_new]
    rfl

/-! ### Listing edges -/

theorem adj_deref (H : Heap A) (g : HGraph V) (n : V) :
    (g.deref H).adj n = (g.adj n).map (fun p => (p.1, derefD H p.2)) := by
  unfold Graph.adj HGraph.adj
  rw [List.map_filterMap]
  show List.filterMap _ (g.links.map (HGraph.derefLink H)) = _
  rw [List.filterMap_map]
  congr 1
  funext l
  show Graph.Link.from? g.directed n ⟨l.u, l.v, derefD H l.data⟩ = _
  unfold Graph.Link.from?
  by_cases h1 : l.u = n
  · simp [h1]
  · by_cases h2 : (!g.directed && decide (l.v = n)) = true
    · simp [h1, h2]
    · simp [h1, h2]

/-- An edge with the content of its dict. -/
def derefEdge (H : Heap A) (e : V × V × PyKey × Loc) : V × V × PyKey × Attrs A := (e.1, e.2.1, e.2.2.1, H.read e.2.2.2)

theorem edgesFrom_deref (H : Heap A) (g : HGraph V) (seen ns : List V) :
    (g.deref H).edgesFrom seen ns = (g.edgesFrom seen ns).map (derefEdge H) := by
  induction ns generalizing seen with
  | nil => rfl
  | cons n ns ih =>
    show _ ++ _ = List.map _ (_ ++ _)
    rw [List.map_append, ih, adj_deref, List.filter_map, List.flatMap_map, List.map_flatMap]
    congr 1
    show List.flatMap _ ((g.adj n).filter (fun p => g.directed || !decide (p.1 ∈ seen))) = _
    congr 1
    funext p
    simp [derefD, derefEdge]

theorem edgesKeys_deref (H : Heap A) (g : HGraph V) : (g.deref H).edgesKeys = g.edgesKeys.map (derefEdge H) := by
  unfold Graph.edgesKeys HGraph.edgesKeys
  rw [← edgesFrom_deref]
  congr 1
  exact keys_derefD H g.node

theorem edgesOf_deref (H : Heap A) (g : HGraph V) (n : V) : (g.deref H).edgesOf n = (g.edgesOf n).map (derefEdge H) := by
  unfold Graph.edgesOf HGraph.edgesOf
  rw [adj_deref, List.flatMap_map, List.map_flatMap]
  congr 1
  funext p
  simp [derefD, derefEdge]

theorem adj_locs {g : HGraph V} {n : V} {p : V × Dict PyKey Loc} (hp : p ∈ g.adj n) {l : Loc} (hl : l ∈ p.2.map Prod.snd) :
    l ∈ g.locs := by
  unfold HGraph.adj at hp
  obtain ⟨x, hx, he⟩ := List.mem_filterMap.1 hp
  have : p.2 = x.data := by
    split at he
    · cases he; rfl
    · split at he
      · cases he; rfl
      · cases he
  rw [HGraph.locs_eq]
  refine List.mem_cons_of_mem _ (List.mem_append_right _ (List.mem_flatMap.2 ⟨x, hx, this ▸ hl⟩))

theorem edgesFrom_locs {g : HGraph V} {seen ns : List V} {e : V × V × PyKey × Loc} (he : e ∈ g.edgesFrom seen ns) :
    e.2.2.2 ∈ g.locs := by
  induction ns generalizing seen with
  | nil => cases he
  | cons n ns ih =>
    rcases List.mem_append.1 he with he | he
    · obtain ⟨p, hp, he⟩ := List.mem_flatMap.1 he
      obtain ⟨q, hq, rfl⟩ := List.mem_map.1 he
      exact adj_locs (List.mem_of_mem_filter hp) (List.mem_map_of_mem (f := Prod.snd) hq)
    · exact ih he

theorem edgesOf_locs {g : HGraph V} {n : V} {e : V × V × PyKey × Loc} (he : e ∈ g.edgesOf n) : e.2.2.2 ∈ g.locs := by
  obtain ⟨p, hp, he⟩ := List.mem_flatMap.1 he
  obtain ⟨q, hq, rfl⟩ := List.mem_map.1 he
  exact adj_locs hp (List.mem_map_of_mem (f := Prod.snd) hq)

/-! ### Loops -/

theorem filterEdgesLoopH_refines [AttrVal A] {H₀ : Heap A} (p : EdgePred V A) (es : List (V × V × PyKey × Loc))
    (hes : ∀ e ∈ es, e.2.2.2 < H₀.length) {H : Heap A} {c : HGraph V} (h : Copying H₀ H c) :
    Refines H₀ (filterEdgesLoopH p es H c)
      (filterEdgesLoop p ((es.map (derefEdge H₀)).map (fun e => (e.1, e.2.1, e.2.2.2))) (c.deref H)) := by
  induction es generalizing H c with
  | nil => exact ⟨h, rfl⟩
  | cons e es ih =>
    obtain ⟨u, v, k, l⟩ := e
    have hr : H.read l = H₀.read l := h.keep l (hes _ (List.mem_cons_self ..))
    have ih := fun {H : Heap A} {c : HGraph V} (h : Copying H₀ H c) => ih (fun e he => hes e (List.mem_cons_of_mem _ he)) h
    simp only [filterEdgesLoopH, List.map_cons, derefEdge, filterEdgesLoop, hr]
    cases p u v (H₀.read l) with
    | error e => exact rfl
    | ok b =>
      cases b with
      | false => exact ih h
      | true =>
      rcases (addEdge_refines h u v (H₀.read l)).elim with ⟨e, h1, h2⟩ | ⟨H', c', h1, h2, h'⟩ <;> simp only [h1, h2]
      · exact rfl
      · exact ih h'

theorem sparsifierFilterLoopH_refines [AttrVal A] {H₀ : Heap A} (es : List (V × V × PyKey × Loc)) (err : Option PyErr)
    (hes : ∀ e ∈ es, e.2.2.2 < H₀.length) {H : Heap A} {c : HGraph V} (h : Copying H₀ H c) :
    Refines H₀ (sparsifierFilterLoopH es err H c) (Sparsifier.filterLoop (es.map (derefEdge H₀)) err (c.deref H)) := by
  induction es generalizing H c with
  | nil => cases err <;> [exact ⟨h, rfl⟩; exact rfl]
  | cons e es ih =>
    obtain ⟨u, v, k, l⟩ := e
    have hr : H.read l = H₀.read l := h.keep l (hes _ (List.mem_cons_self ..))
    have ih := fun {H : Heap A} {c : HGraph V} (h : Copying H₀ H c) => ih (fun e he => hes e (List.mem_cons_of_mem _ he)) h
    simp only [sparsifierFilterLoopH, List.map_cons, derefEdge, Sparsifier.filterLoop, hr]
    rcases (addEdge_refines h u v (H₀.read l)).elim with ⟨e, h1, h2⟩ | ⟨H', c', h1, h2, h'⟩ <;> simp only [h1, h2]
    · exact rfl
    · exact ih h'

theorem addComponentEdgesH_refines [AttrVal A] {H₀ : Heap A} (cs : List V) (es : List (V × V × PyKey × Loc))
    (hes : ∀ e ∈ es, e.2.2.2 < H₀.length) {H : Heap A} {c : HGraph V} (h : Copying H₀ H c) :
    Refines H₀ (addComponentEdgesH cs es H c)
      (addComponentEdges cs ((es.map (derefEdge H₀)).map (fun e => (e.1, e.2.1, e.2.2.2))) (c.deref H)) := by
  induction es generalizing H c with
  | nil => exact ⟨h, rfl⟩
  | cons e es ih =>
    obtain ⟨u, v, k, l⟩ := e
    have hr : H.read l = H₀.read l := h.keep l (hes _ (List.mem_cons_self ..))
    have ih := fun {H : Heap A} {c : HGraph V} (h : Copying H₀ H c) => ih (fun e he => hes e (List.mem_cons_of_mem _ he)) h
    simp only [addComponentEdgesH, List.map_cons, derefEdge, addComponentEdges, hr]
    by_cases hu : (!decide (u ∈ cs)) = true
    · rw [if_pos hu, if_pos hu]; exact ih h
    · rw [if_neg hu, if_neg hu]
      rcases (addEdge_refines h u v (H₀.read l)).elim with ⟨e, h1, h2⟩ | ⟨H', c', h1, h2, h'⟩ <;> simp only [h1, h2]
      · exact rfl
      · exact ih h'

theorem addNodesH_refines {H₀ : Heap A} (ns : Dict V Loc) (hns : ∀ l ∈ ns.map Prod.snd, l < H₀.length) {H : Heap A}
    {c : HGraph V} (h : Copying H₀ H c) : Refines H₀ (addNodesH ns H c) (addNodes (derefD H₀ ns) (c.deref H)) := by
  induction ns generalizing H c with
  | nil => exact ⟨h, rfl⟩
  | cons p ns ih =>
    obtain ⟨n, l⟩ := p
    have hr : H.read l = H₀.read l := h.keep l (hns _ (List.mem_cons_self ..))
    have ih := fun {H : Heap A} {c : HGraph V} (h : Copying H₀ H c) => ih (fun e he => hns e (List.mem_cons_of_mem _ he)) h
    show Refines H₀ _ (addNodes ((n, H₀.read l) :: derefD H₀ ns) _)
    simp only [addNodesH, addNodes, hr]
    rcases (addNode_refines h n (H₀.read l)).elim with ⟨e, h1, h2⟩ | ⟨H', c', h1, h2, h'⟩ <;> simp only [h1, h2]
    · exact rfl
    · exact ih h'

theorem buildH_refines [AttrVal A] {H₀ : Heap A} (ops : List (BuildOp V A)) {H : Heap A} {c : HGraph V}
    (h : Copying H₀ H c) : Refines H₀ (buildH ops H c) (build ops (c.deref H)) := by
  induction ops generalizing H c with
  | nil => exact ⟨h, rfl⟩
  | cons op ops ih =>
    cases op with
    | node n a =>
      simp only [buildH, build]
      rcases (addNode_refines h n a).elim with ⟨e, h1, h2⟩ | ⟨H', c', h1, h2, h'⟩ <;> simp only [h1, h2]
      · exact rfl
      · exact ih h'
    | edge u v a =>
      simp only [buildH, build]
      rcases (addEdge_refines h u v a).elim with ⟨e, h1, h2⟩ | ⟨H', c', h1, h2, h'⟩ <;> simp only [h1, h2]
      · exact rfl
      · exact ih h'
    | edgeKey u v k a =>
      simp only [buildH, build]
      rcases (addEdgeKey_refines h u v k a).elim with ⟨e, h1, h2⟩ | ⟨H', c', h1, h2, h'⟩ <;> simp only [h1, h2]
      · exact rfl
      · exact ih h'

theorem getItem_derefD {H : Heap A} (d : Dict V Loc) (n : V) :
    (derefD H d).getItem n = (match d.getItem n with | .error e => .error e | .ok l => .ok (H.read l)) := by
  unfold Dict.getItem
  rw [get?_derefD]
  cases d.get? n <;> rfl

theorem getItem_mem {d : Dict V Loc} {n : V} {l : Loc} (h : d.getItem n = .ok l) : l ∈ d.map Prod.snd := by
  unfold Dict.getItem at h
  split at h
  · next heq =>
    cases h
    exact List.mem_map.2 ⟨(n, l), Dict.mem_of_get? heq, rfl⟩
  · cases h

omit [DecidableEq V] in
theorem HGraph.Valid.node {H₀ : Heap A} {g : HGraph V} (hg : g.Valid H₀) : ∀ l ∈ g.node.map Prod.snd, l < H₀.length := fun l hl => hg l (by
  simp only [HGraph.locs_eq, List.mem_cons, List.mem_append]; tauto)

section filterNodes
variable [AttrVal A] [PyOrd V] {H₀ : Heap A} {g : HGraph V}

theorem filterNodesEdgesH_refines (hg : g.Valid H₀) (p : NodePred V A) (es : List (V × V × PyKey × Loc))
    (hes : ∀ e ∈ es, e.2.2.2 < H₀.length) {H : Heap A} {c : HGraph V} (h : Copying H₀ H c) :
    Refines H₀ (filterNodesEdgesH g p es H c) (filterNodesEdges (g.deref H₀) p (es.map (derefEdge H₀)) (c.deref H)) := by
  induction es generalizing H c with
  | nil => exact ⟨h, rfl⟩
  | cons e es ih =>
    obtain ⟨u, v, k, l⟩ := e
    have hr : H.read l = H₀.read l := h.keep l (hes _ (List.mem_cons_self ..))
    have ih := fun {H : Heap A} {c : HGraph V} (h : Copying H₀ H c) => ih (fun e he => hes e (List.mem_cons_of_mem _ he)) h
    have e1 : (g.deref H₀).directed = g.directed := rfl
    have e2 : (g.deref H₀).multi = g.multi := rfl
    have e3 : (g.deref H₀).nodeData v = (derefD H₀ g.node).getItem v := rfl
    simp only [filterNodesEdgesH, List.map_cons, derefEdge, filterNodesEdges, hr, e1, e2, e3, getItem_derefD]
    cases (if g.directed = true then (Except.ok true : Py Bool) else PyOrd.gt u v) with
    | error e => exact rfl
    | ok b =>
      cases b with
      | false => exact ih h
      | true =>
        cases hv : g.node.getItem v with
        | error e => exact rfl
        | ok lv =>
          have hrv : H.read lv = H₀.read lv := h.keep lv (hg.node _ (getItem_mem hv))
          simp only [hrv]
          cases p v (H₀.read lv) with
          | error e => exact rfl
          | ok b =>
            cases b with
            | false => exact ih h
            | true =>
              have r : Refines H₀ (if g.multi then c.addEdgeKey H u v k (H₀.read l) else c.addEdge H u v (H₀.read l))
                  (if g.multi then (c.deref H).addEdgeKey u v k (H₀.read l) else (c.deref H).addEdge u v (H₀.read l)) := by
                by_cases hm : g.multi = true
                · rw [if_pos hm, if_pos hm]; exact addEdgeKey_refines h u v k _
                · rw [if_neg hm, if_neg hm]; exact addEdge_refines h u v _
              rcases r.elim with ⟨e, h1, h2⟩ | ⟨H', c', h1, h2, h'⟩ <;> simp only [h1, h2]
              · exact rfl
              · exact ih h'

theorem filterNodesLoopH_refines (hg : g.Valid H₀) (p : NodePred V A) (ns : Dict V Loc)
    (hns : ∀ l ∈ ns.map Prod.snd, l < H₀.length) {H : Heap A} {c : HGraph V} (h : Copying H₀ H c) :
    Refines H₀ (filterNodesLoopH g p ns H c) (filterNodesLoop (g.deref H₀) p (derefD H₀ ns) (c.deref H)) := by
  induction ns generalizing H c with
  | nil => exact ⟨h, rfl⟩
  | cons q ns ih =>
    obtain ⟨n, l⟩ := q
    have hr : H.read l = H₀.read l := h.keep l (hns _ (List.mem_cons_self ..))
    have ih := fun {H : Heap A} {c : HGraph V} (h : Copying H₀ H c) => ih (fun e he => hns e (List.mem_cons_of_mem _ he)) h
    show Refines H₀ _ (filterNodesLoop _ p ((n, H₀.read l) :: derefD H₀ ns) _)
    simp only [filterNodesLoopH, filterNodesLoop, hr]
    cases p n (H₀.read l) with
    | error e => exact rfl
    | ok b =>
      cases b with
      | false => exact ih h
      | true =>
        simp only []
        rcases (addNode_refines h n (H₀.read l)).elim with ⟨e, h1, h2⟩ | ⟨H', c', h1, h2, h'⟩ <;> simp only [h1, h2]
        · exact rfl
        · have r := filterNodesEdgesH_refines hg p (g.edgesOf n) (fun e he => hg _ (edgesOf_locs he)) h'
          rw [← edgesOf_deref] at r
          rcases r.elim with ⟨e, h1, h2⟩ | ⟨H', c', h1, h2, h'⟩ <;> simp only [h1, h2]
          · exact rfl
          · exact ih h'

end filterNodes

theorem yieldWhenH_eq (H : Heap A) (want : Bool) (p : EdgePred V A) (es : List (V × V × PyKey × Loc)) :
    (yieldWhen want p (es.map (derefEdge H))).yields = (yieldWhenH H want p es).yields.map (derefEdge H) ∧
      (yieldWhen want p (es.map (derefEdge H))).err = (yieldWhenH H want p es).err ∧
      (yieldWhenH H want p es).yields ⊆ es := by
  induction es with
  | nil => exact ⟨rfl, rfl, List.Subset.refl _⟩
  | cons e es ih =>
    obtain ⟨u, v, k, l⟩ := e
    simp only [yieldWhenH, List.map_cons, derefEdge, yieldWhen]
    cases p u v (H.read l) with
    | error e => exact ⟨rfl, rfl, by simp⟩
    | ok b =>
      obtain ⟨h1, h2, h3⟩ := ih
      refine ⟨?_, h2, ?_⟩
      · by_cases hb : b = want
        · simp only [hb, if_true, List.map_cons]
          exact congrArg _ h1
        · simp only [hb, if_false]
          exact h1
      · by_cases hb : b = want
        · simp only [hb, if_true]
          exact List.cons_subset_cons _ h3
        · simp only [hb, if_false]
          exact List.subset_cons_of_subset _ h3

/-! ### Writing in place -/

theorem adj_link {g : HGraph V} {n : V} {p : V × Dict PyKey Loc} (hp : p ∈ g.adj n) :
    ∃ x ∈ g.links, samePair g.directed n p.1 x.u x.v = true ∧ p.2 = x.data := by
  unfold HGraph.adj at hp
  obtain ⟨x, hx, he⟩ := List.mem_filterMap.1 hp
  refine ⟨x, hx, ?_⟩
  split at he
  · next h => cases he; rw [samePair_iff]; exact ⟨.inl ⟨h.symm, rfl⟩, rfl⟩
  · split at he
    · next h =>
      cases he
      simp only [Bool.and_eq_true, Bool.not_eq_true', decide_eq_true_eq] at h
      rw [samePair_iff]
      exact ⟨.inr ⟨h.1, h.2.symm, rfl⟩, rfl⟩
    · cases he

theorem edgesFrom_link {g : HGraph V} {seen ns : List V} {e : V × V × PyKey × Loc} (he : e ∈ g.edgesFrom seen ns) :
    ∃ x ∈ g.links, samePair g.directed e.1 e.2.1 x.u x.v = true ∧ (e.2.2.1, e.2.2.2) ∈ x.data := by
  induction ns generalizing seen with
  | nil => cases he
  | cons n ns ih =>
    rcases List.mem_append.1 he with he | he
    · obtain ⟨p, hp, he⟩ := List.mem_flatMap.1 he
      obtain ⟨q, hq, rfl⟩ := List.mem_map.1 he
      obtain ⟨x, hx, h1, h2⟩ := adj_link (List.mem_of_mem_filter hp)
      exact ⟨x, hx, h1, h2 ▸ hq⟩
    · exact ih he

/-- Two links of a list in which no location occurs twice, which have a location in common, are the same. -/
theorem link_of_loc {ls : List (HLink V)} (hn : (HGraph.linkLocs ls).Nodup) {x y : HLink V} (hx : x ∈ ls) (hy : y ∈ ls)
    {l : Loc} (hlx : l ∈ x.data.map Prod.snd) (hly : l ∈ y.data.map Prod.snd) : x = y := by
  induction ls with
  | nil => cases hx
  | cons z ls ih =>
    have hn' : (z.data.map Prod.snd ++ HGraph.linkLocs ls).Nodup := hn
    rw [List.nodup_append'] at hn'
    have hm : ∀ w ∈ ls, l ∈ w.data.map Prod.snd → l ∈ HGraph.linkLocs ls := fun w hw hl => List.mem_flatMap.2 ⟨w, hw, hl⟩
    rcases List.mem_cons.1 hx with rfl | hx' <;> rcases List.mem_cons.1 hy with rfl | hy'
    · rfl
    · exact absurd (hm y hy' hly) (hn'.2.2 hlx)
    · exact absurd (hm x hx' hlx) (hn'.2.2 hly)
    · exact ih hn'.2.1 hx' hy'

theorem link_of_pair {H : Heap A} {g : HGraph V} (wf : (g.deref H).WF) {x y : HLink V} (hx : x ∈ g.links)
    (hy : y ∈ g.links) (h : samePair g.directed x.u x.v y.u y.v = true) : x = y := by
  have hp : g.links.Pairwise (fun l m => samePair g.directed l.u l.v m.u m.v = false) := by
    have := wf.uniq
    exact List.pairwise_map.1 this
  by_contra hne
  have := hp.forall_of_forall_of_flip
  rcases List.mem_iff_getElem.1 hx with ⟨i, hi, rfl⟩
  rcases List.mem_iff_getElem.1 hy with ⟨j, hj, rfl⟩
  rw [List.pairwise_iff_getElem] at hp
  rcases lt_trichotomy i j with hij | rfl | hij
  · rw [hp i j hi hj hij] at h; cases h
  · exact hne rfl
  · rw [samePair_comm, hp j i hj hi hij] at h; cases h

/-- `a[attr] = value` where `a` is the dict of an edge listed by the graph. -/
theorem write_deref {H : Heap A} {g : HGraph V} (o : HGraph.Own H g) (wf : (g.deref H).WF) {e : V × V × PyKey × Loc}
    (he : e ∈ g.edgesKeys) (attr : String) (value : A) :
    g.deref (H.write e.2.2.2 ((H.read e.2.2.2).set (.str attr) value)) =
      (g.deref H).setEdgeAttr e.1 e.2.1 e.2.2.1 attr value := by
  obtain ⟨u, v, k, l⟩ := e
  obtain ⟨x, hx, hp, hk⟩ := edgesFrom_link he
  simp only at hp hk ⊢
  have hlx : l ∈ x.data.map Prod.snd := List.mem_map.2 ⟨_, hk, rfl⟩
  have hl : l ∈ HGraph.linkLocs g.links := List.mem_flatMap.2 ⟨x, hx, hlx⟩
  obtain ⟨a1, a2, a3⟩ := o.apart
  have hlt : l < H.length := o.links.2 l hl
  rw [HGraph.deref_eq, HGraph.deref_eq]
  unfold Graph.setEdgeAttr
  congr 1
  · exact Heap.read_write_ne (fun h : l = g.attrs => a2 (h ▸ hl)) _
  · exact derefD_congr (fun m hm => Heap.read_write_ne (fun h : l = m => a3 hm (h ▸ hl)) _)
  · rw [List.map_map]
    refine List.map_congr_left (fun y hy => ?_)
    show (⟨y.u, y.v, derefD _ y.data⟩ : Link V A) = if samePair g.directed u v y.u y.v then
        ⟨y.u, y.v, (derefD H y.data).map _⟩ else ⟨y.u, y.v, derefD H y.data⟩
    by_cases hs : samePair g.directed u v y.u y.v = true
    · have : x = y := link_of_pair wf hx hy (by rw [← samePair_trans hp]; exact hs)
      subst this
      rw [if_pos hs]
      congr 1
      unfold derefD
      rw [List.map_map]
      refine List.map_congr_left (fun q hq => ?_)
      simp only [Function.comp]
      have hkeys : (x.data.map Prod.fst).Nodup := by
        have := wf.keys (HGraph.derefLink H x) (List.mem_map_of_mem hx)
        rw [HGraph.derefLink_eq] at this
        have e : (derefD H x.data).keys = x.data.keys := keys_derefD H x.data
        exact (show x.data.keys.Nodup from e ▸ this)
      have hlocs : (x.data.map Prod.snd).Nodup := by
        have := o.links.1
        exact (List.nodup_flatMap.1 this).1 x hx
      by_cases hq1 : q.1 = k
      · have : q = (k, l) := List.inj_on_of_nodup_map hkeys hq hk hq1
        subst this
        rw [if_pos rfl, Heap.read_write_self hlt]
      · rw [if_neg hq1, Heap.read_write_ne]
        intro h
        have : q = (k, l) := List.inj_on_of_nodup_map hlocs hq hk h.symm
        exact hq1 (by rw [this])
    · rw [if_neg hs]
      congr 1
      refine derefD_congr (fun m hm => Heap.read_write_ne (fun h => ?_) _)
      subst h
      exact hs (link_of_loc o.links.1 hx hy hlx hm ▸ hp)

/-- The edges listed have distinct dicts. -/
theorem edgesKeys_locs_nodup {H : Heap A} {g : HGraph V} (o : HGraph.Own H g) (wf : (g.deref H).WF) :
    (g.edgesKeys.map (fun e => e.2.2.2)).Nodup := by
  have hd := edgesKeys_distinct wf
  rw [edgesKeys_deref, List.pairwise_map] at hd
  rw [List.Nodup, List.pairwise_map]
  refine List.Pairwise.imp_of_mem ?_ hd
  rintro ⟨u, v, k, l⟩ ⟨u', v', k', l'⟩ h1 h2 ⟨h3, _⟩ rfl
  obtain ⟨x, hx, hp, hk⟩ := edgesFrom_link h1
  obtain ⟨y, hy, hp', hk'⟩ := edgesFrom_link h2
  simp only at hp hk hp' hk'
  have hxy : x = y := link_of_loc o.links.1 hx hy (List.mem_map.2 ⟨_, hk, rfl⟩) (List.mem_map.2 ⟨_, hk', rfl⟩)
  subst hxy
  have hlocs : (x.data.map Prod.snd).Nodup := (List.nodup_flatMap.1 o.links.1).1 x hx
  have hkk : (k, l) = (k', l) := List.inj_on_of_nodup_map hlocs hk hk' rfl
  have hkk : k = k' := by injection hkk
  subst hkk
  have : samePair g.directed u v u' v' = true := by
    rw [samePair_trans hp]; rw [samePair_comm]; exact hp'
  unfold sameEdge derefEdge at h3
  simp only [decide_true, Bool.and_true] at h3
  exact absurd (this.symm.trans h3) (by simp)

end Pelote
