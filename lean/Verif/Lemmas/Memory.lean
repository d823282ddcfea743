import Verif.Model.Memory
import Verif.Spec.Memory
import Verif.Props.GraphEdit
import Mathlib.Data.List.Nodup

/-! Lemmas about predicates with memory. -/
set_option linter.unusedSectionVars false
namespace Pelote
variable {V A σ : Type} [DecidableEq V]
open Graph

/-! ### Consulting a function -/

theorem Consulted.length {α : Type} {f : α → σ → Py Bool × σ} {xs : List α} {s s' : σ} {bs : List Bool}
    (h : Consulted f xs s bs s') : bs.length = xs.length := by
  induction h with
  | nil => rfl
  | cons _ _ ih => simp [ih]

/-- Answers to distinct questions are those of a function. -/
theorem exists_answer {α κ : Type} [DecidableEq κ] (k : α → κ) {xs : List α} {bs : List Bool}
    (hl : bs.length = xs.length) (hn : (xs.map k).Nodup) : ∃ p : κ → Bool, bs = xs.map (fun x => p (k x)) := by
  induction xs generalizing bs with
  | nil => exact ⟨fun _ => true, by simpa using hl⟩
  | cons x xs ih =>
    cases bs with
    | nil => simp at hl
    | cons b bs =>
      simp only [List.map_cons, List.nodup_cons] at hn
      obtain ⟨p, hp⟩ := ih (by simpa using hl) hn.2
      refine ⟨fun y => if y = k x then b else p y, ?_⟩
      simp only [List.map_cons, if_true, List.cons.injEq, true_and]
      rw [hp]
      apply List.map_congr_left
      intro y hy
      rw [if_neg]
      intro e
      exact hn.1 (e ▸ List.mem_map_of_mem hy)

theorem kept_map {α : Type} (xs : List α) (p : α → Bool) : kept xs (xs.map p) = xs.filter p := by
  induction xs with
  | nil => rfl
  | cons x xs ih =>
    unfold kept at ih ⊢
    simp only [List.map_cons, List.zip_cons_cons, List.filter_cons]
    cases p x <;> simp [ih]

theorem kept_map_left {α β : Type} (f : α → β) (xs : List α) (bs : List Bool) :
    kept (xs.map f) bs = (kept xs bs).map f := by
  induction xs generalizing bs with
  | nil => rfl
  | cons x xs ih =>
    cases bs with
    | nil => rfl
    | cons b bs =>
      have := ih bs
      unfold kept at this ⊢
      simp only [List.map_cons, List.zip_cons_cons, List.filter_cons]
      cases b <;> simp [this]

theorem kept_cons {α : Type} (x : α) (xs : List α) (b : Bool) (bs : List Bool) :
    kept (x :: xs) (b :: bs) = if b then x :: kept xs bs else kept xs bs := by
  unfold kept
  cases b <;> simp

theorem kept_sublist {α : Type} (xs : List α) (bs : List Bool) : (kept xs bs).Sublist xs := by
  induction xs generalizing bs with
  | nil => simp [kept]
  | cons x xs ih =>
    cases bs with
    | nil => simp [kept]
    | cons b bs =>
      rw [kept_cons]
      cases b
      · exact (ih bs).cons _
      · exact (ih bs).cons_cons _

/-! ### Loops -/

theorem edgesToDropM_ok {f : EdgePredM σ V A} {es : List (V × V × Attrs A)} {s s' : σ} {bs : List Bool}
    (h : Consulted (fun e => f e.1 e.2.1 e.2.2) es s bs s') :
    edgesToDropM f es s = (.ok ((kept es (bs.map (!·))).map (fun e => (e.1, e.2.1))), s') := by
  induction h with
  | nil => rfl
  | @cons x xs s s₁ s₂ b bs h1 _ ih =>
    obtain ⟨u, v, a⟩ := x
    simp only at h1
    simp only [edgesToDropM, h1, ih, List.map_cons, kept_cons]
    cases b <;> rfl

theorem edgesToDropM_error {f : EdgePredM σ V A} {pre post : List (V × V × Attrs A)} {x : V × V × Attrs A}
    {s s₁ s₂ : σ} {bs : List Bool} {e : PyErr} (h : Consulted (fun e => f e.1 e.2.1 e.2.2) pre s bs s₁)
    (hx : f x.1 x.2.1 x.2.2 s₁ = (.error e, s₂)) : edgesToDropM f (pre ++ x :: post) s = (.error e, s₂) := by
  induction h with
  | nil =>
    obtain ⟨u, v, a⟩ := x
    simp only at hx
    simp only [List.nil_append, edgesToDropM, hx]
  | @cons y ys s s₁ s₂' b bs h1 _ ih =>
    obtain ⟨u, v, a⟩ := y
    simp only at h1
    simp only [List.cons_append, edgesToDropM, h1, ih hx]

theorem nodesToDropM_ok {f : NodePredM σ V A} {ns : Dict V (Attrs A)} {s s' : σ} {bs : List Bool}
    (h : Consulted (fun q => f q.1 q.2) ns s bs s') :
    nodesToDropM f ns s = (.ok ((kept ns (bs.map (!·))).map Prod.fst), s') := by
  induction h with
  | nil => rfl
  | @cons x xs s s₁ s₂ b bs h1 _ ih =>
    obtain ⟨n, a⟩ := x
    simp only at h1
    simp only [nodesToDropM, h1, ih, List.map_cons, kept_cons]
    cases b <;> rfl

theorem nodesToDropM_error {f : NodePredM σ V A} {pre post : Dict V (Attrs A)} {x : V × Attrs A}
    {s s₁ s₂ : σ} {bs : List Bool} {e : PyErr} (h : Consulted (fun q => f q.1 q.2) pre s bs s₁)
    (hx : f x.1 x.2 s₁ = (.error e, s₂)) : nodesToDropM f (pre ++ x :: post) s = (.error e, s₂) := by
  induction h with
  | nil =>
    obtain ⟨n, a⟩ := x
    simp only at hx
    simp only [List.nil_append, nodesToDropM, hx]
  | @cons y ys s s₁ s₂' b bs h1 _ ih =>
    obtain ⟨n, a⟩ := y
    simp only at h1
    simp only [List.cons_append, nodesToDropM, h1, ih hx]

theorem filterEdgesLoopM_ok [AttrVal A] {f : EdgePredM σ V A} {es : List (V × V × Attrs A)} {s s' : σ}
    {bs : List Bool} (h : Consulted (fun e => f e.1 e.2.1 e.2.2) es s bs s') {copy : Graph V A}
    (hkw : ∀ e ∈ kept es bs, EdgeKwSafe copy.multi e.2.2) :
    filterEdgesLoopM f es copy s = (.ok (addAll copy (kept es bs)), s') := by
  induction h generalizing copy with
  | nil => rfl
  | @cons x xs s s₁ s₂ b bs h1 _ ih =>
    obtain ⟨u, v, a⟩ := x
    simp only at h1
    rw [kept_cons] at hkw ⊢
    cases b with
    | false => simp only [filterEdgesLoopM, h1, Bool.false_eq_true, if_false]; exact ih hkw
    | true =>
      simp only [if_true] at hkw
      simp only [filterEdgesLoopM, h1, if_true]
      rw [addEdge_ok (hkw (u, v, a) (by simp))]
      simp only
      rw [ih (fun e he => by rw [addEdgeCore_multi]; exact hkw e (by simp [he]))]
      rfl

theorem filterEdgesLoopM_error [AttrVal A] {f : EdgePredM σ V A} {pre post : List (V × V × Attrs A)}
    {x : V × V × Attrs A} {s s₁ s₂ : σ} {bs : List Bool} {e : PyErr}
    (h : Consulted (fun e => f e.1 e.2.1 e.2.2) pre s bs s₁) {copy : Graph V A}
    (hkw : ∀ e ∈ kept pre bs, EdgeKwSafe copy.multi e.2.2)
    (hx : f x.1 x.2.1 x.2.2 s₁ = (.error e, s₂)) : filterEdgesLoopM f (pre ++ x :: post) copy s = (.error e, s₂) := by
  induction h generalizing copy with
  | nil =>
    obtain ⟨u, v, a⟩ := x
    simp only at hx
    simp only [List.nil_append, filterEdgesLoopM, hx]
  | @cons y ys s s₁ s₂' b bs h1 _ ih =>
    obtain ⟨u, v, a⟩ := y
    simp only at h1
    rw [kept_cons] at hkw
    cases b with
    | false =>
      simp only [List.cons_append, filterEdgesLoopM, h1]
      exact ih hkw hx
    | true =>
      simp only [if_true] at hkw
      simp only [List.cons_append, filterEdgesLoopM, h1]
      rw [addEdge_ok (hkw (u, v, a) (by simp))]
      exact ih (fun e he => by rw [addEdgeCore_multi]; exact hkw e (by simp [he])) hx

/-! ### Selecting edges by pair and key -/

/-- The link without the keys that are not selected. -/
def selectLink (g : Graph V A) (p : V × V × PyKey → Bool) (l : Link V A) : Option (Link V A) :=
  if (l.data.filter (fun ka => p ((g.orient l).u, (g.orient l).v, ka.1))) = [] then none
  else some { l with data := l.data.filter (fun ka => p ((g.orient l).u, (g.orient l).v, ka.1)) }

/-- The graph without the edges that are not selected. -/
def Graph.selectEdges (g : Graph V A) (p : V × V × PyKey → Bool) : Graph V A :=
  { g with links := g.links.filterMap (selectLink g p) }

theorem selectLink_shrinks (g : Graph V A) (p : V × V × PyKey → Bool) (l : Link V A) : Shrinks (selectLink g p) l := by
  refine ⟨fun m hm => ?_⟩
  unfold selectLink at hm
  split at hm
  · cases hm
  · rename_i hne
    cases hm
    exact ⟨rfl, rfl, List.filter_sublist, hne⟩

theorem orient_idem (g : Graph V A) (l : Link V A) : g.orient (g.orient l) = g.orient l := by
  by_cases hd : g.directed = true
  · simp [orient, hd]
  · have hd : g.directed = false := by simpa using hd
    have h1 := g.orient_le l hd
    generalize g.orient l = m at h1
    unfold orient
    rw [if_pos (by simp [h1])]

theorem orient_withData (g : Graph V A) (l : Link V A) (d : Dict PyKey (Attrs A)) :
    g.orient { l with data := d } = { g.orient l with data := d } := by
  unfold orient
  split <;> rfl

theorem selectLink_orient (g : Graph V A) (p : V × V × PyKey → Bool) (l : Link V A) :
    selectLink g p (g.orient l) = (selectLink g p l).map g.orient := by
  unfold selectLink
  rw [orient_idem, orient_data]
  split
  · rfl
  · simp only [Option.map_some, orient_withData]

theorem selectEdges_wf {g : Graph V A} (h : g.WF) (p : V × V × PyKey → Bool) : (g.selectEdges p).WF :=
  h.shrink (fun l _ => selectLink_shrinks g p l)

theorem selectEdges_edgesKeys {g : Graph V A} (h : g.WF) (p : V × V × PyKey → Bool) :
    (g.selectEdges p).edgesKeys = g.edgesKeys.filter (fun e => p (e.1, e.2.1, e.2.2.1)) := by
  rw [edgesKeys_eq _ (selectEdges_wf h p).nodup, edgesKeys_eq _ h.nodup]
  have hg : (g.selectEdges p).groups = g.groups.filterMap (selectLink g p) :=
    groups_shrink (fun l _ => selectLink_shrinks g p l) (fun l _ => selectLink_orient g p l)
  rw [hg]
  have ho : ∀ l ∈ g.groups, g.orient l = l := by
    intro l hl
    obtain ⟨m, _, rfl⟩ := (mem_groups h).1 hl
    exact orient_idem g m
  generalize g.groups = G at ho
  induction G with
  | nil => rfl
  | cons l G ih =>
    have hl := ho l (by simp)
    have ih := ih (fun m hm => ho m (by simp [hm]))
    rw [List.filterMap_cons, List.flatMap_cons, List.filter_append, ← ih]
    have hexp : (expand l).filter (fun e => p (e.1, e.2.1, e.2.2.1)) =
        (l.data.filter (fun ka => p (l.u, l.v, ka.1))).map (fun ka => (l.u, l.v, ka.1, ka.2)) := by
      unfold expand; rw [List.filter_map]; rfl
    rw [hexp]
    unfold selectLink
    rw [hl]
    by_cases hnil : l.data.filter (fun ka => p (l.u, l.v, ka.1)) = []
    · rw [if_pos hnil, hnil]; rfl
    · rw [if_neg hnil]; rfl

/-- Edges are listed once. -/
theorem edgesKeys_nodup {g : Graph V A} (h : g.WF) :
    (g.edgesKeys.map (fun e => (e.1, e.2.1, e.2.2.1))).Nodup := by
  rw [edgesKeys_eq g h.nodup, List.map_flatMap, List.nodup_flatMap]
  constructor
  · intro l hl
    obtain ⟨m, hm, rfl⟩ := (mem_groups h).1 hl
    have hk := h.keys m hm
    unfold expand
    rw [orient_data, List.map_map]
    have : ((fun e : V × V × PyKey × Attrs A => (e.1, e.2.1, e.2.2.1)) ∘
        fun ka => ((g.orient m).u, (g.orient m).v, ka.1, ka.2)) =
        (fun k => ((g.orient m).u, (g.orient m).v, k)) ∘ Prod.fst := rfl
    rw [this, ← List.map_map]
    exact List.Nodup.map (fun a b e => by simpa using e) hk
  · refine (groups_uniq h).imp ?_
    intro l m hs
    rw [Function.onFun, List.disjoint_left]
    intro x hx hx'
    obtain ⟨e, he, rfl⟩ := List.mem_map.1 hx
    obtain ⟨e', he', heq⟩ := List.mem_map.1 hx'
    obtain ⟨ka, _, rfl⟩ := List.mem_map.1 he
    obtain ⟨ka', _, rfl⟩ := List.mem_map.1 he'
    simp only [Prod.mk.injEq] at heq
    rw [← heq.1, ← heq.2.1, samePair_refl] at hs
    cases hs

theorem pairs_nodup {g : Graph V A} (h : g.WF) (hm : g.multi = false) :
    (g.edgesData.map (fun e => (e.1, e.2.1))).Nodup := by
  have h1 := edgesKeys_nodup h
  have h2 : g.edgesKeys.map (fun e => (e.1, e.2.1, e.2.2.1)) =
      (g.edgesData.map (fun e => (e.1, e.2.1))).map (fun p => (p.1, p.2, PyKey.int 0)) := by
    unfold edgesData
    rw [List.map_map, List.map_map]
    apply List.map_congr_left
    rintro ⟨u, v, k, a⟩ he
    obtain ⟨l, hl, _, _, hka⟩ := (mem_edgesKeys h).1 he
    have hk := h.simple hm l hl
    have : k ∈ l.data.keys := List.mem_map.2 ⟨_, hka, rfl⟩
    rw [hk] at this
    simp only [List.mem_singleton] at this
    subst this
    rfl
  rw [h2] at h1
  exact h1.of_map _

end Pelote
