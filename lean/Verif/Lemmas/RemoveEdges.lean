import Verif.Lemmas.Rebuild
import Verif.Model.Graph

/-! Lemmas about the edge removal and filtering functions. -/
set_option linter.unusedSectionVars false
set_option linter.unusedSimpArgs false
namespace Pelote
variable {V A : Type} [DecidableEq V]
namespace Graph

/-! ### Shrinking links -/

theorem bucketSort_filterMap {α : Type} {ns : List V} {key : α → V} {l : List α} (f : α → Option α)
    (hf : ∀ a ∈ l, ∀ b, f a = some b → key b = key a) :
    bucketSort ns key (l.filterMap f) = (bucketSort ns key l).filterMap f := by
  unfold bucketSort
  rw [List.filterMap_flatMap]
  apply List.flatMap_congr
  intro n _
  induction l with
  | nil => rfl
  | cons a l ih =>
    have ih := ih (fun a ha => hf a (by simp [ha]))
    rw [List.filterMap_cons, List.filter_cons]
    rcases h : f a with _ | b
    · simp only [h]
      rw [ih]
      split
      · rw [List.filterMap_cons, h]
      · rfl
    · simp only [h]
      rw [List.filter_cons, ih, hf a (by simp) b h]
      split
      · rw [List.filterMap_cons, h]
      · rfl

/-- `f` only removes keys. -/
structure Shrinks (f : Link V A → Option (Link V A)) (l : Link V A) : Prop where
  shrink : ∀ m, f l = some m → m.u = l.u ∧ m.v = l.v ∧ m.data.Sublist l.data ∧ m.data ≠ []

theorem WF.shrink {g : Graph V A} (h : g.WF) {f : Link V A → Option (Link V A)}
    (hf : ∀ l ∈ g.links, Shrinks f l) : ({ g with links := g.links.filterMap f } : Graph V A).WF where
  attrs := h.attrs
  nodup := h.nodup
  nodeAttrs := h.nodeAttrs
  ends := by
    intro m hm
    obtain ⟨l, hl, he⟩ := List.mem_filterMap.1 hm
    obtain ⟨h1, h2, _⟩ := (hf l hl).shrink m he
    rw [h1, h2]; exact h.ends l hl
  uniq := by
    simp only
    rw [List.pairwise_filterMap]
    refine h.uniq.imp_of_mem ?_
    intro l m hl hm hs l' hl' m' hm'
    obtain ⟨h1, h2, _⟩ := (hf l hl).shrink l' hl'
    obtain ⟨h3, h4, _⟩ := (hf m hm).shrink m' hm'
    rw [h1, h2, h3, h4]; exact hs
  nonempty := by
    intro m hm
    obtain ⟨l, hl, he⟩ := List.mem_filterMap.1 hm
    exact ((hf l hl).shrink m he).2.2.2
  keys := by
    intro m hm
    obtain ⟨l, hl, he⟩ := List.mem_filterMap.1 hm
    exact (h.keys l hl).sublist (((hf l hl).shrink m he).2.2.1.map _)
  edgeAttrs := by
    intro m hm p hp
    obtain ⟨l, hl, he⟩ := List.mem_filterMap.1 hm
    exact h.edgeAttrs l hl p (((hf l hl).shrink m he).2.2.1.subset hp)
  simple := by
    intro hs m hm
    obtain ⟨l, hl, he⟩ := List.mem_filterMap.1 hm
    obtain ⟨_, _, h1, h2⟩ := (hf l hl).shrink m he
    have h3 := h.simple hs l hl
    have h4 : m.data.keys.Sublist [.int 0] := by rw [← h3]; exact h1.map _
    rcases List.sublist_singleton.1 h4 with h5 | h5
    · exact absurd (List.map_eq_nil_iff.1 h5) h2
    · exact h5

/-- The listing after shrinking. -/
theorem groups_shrink {g : Graph V A} {f : Link V A → Option (Link V A)}
    (hf : ∀ l ∈ g.links, Shrinks f l) (hfo : ∀ l ∈ g.links, f (g.orient l) = (f l).map g.orient) :
    ({ g with links := g.links.filterMap f } : Graph V A).groups = g.groups.filterMap f := by
  unfold groups
  have e1 : (g.links.filterMap f).map ({ g with links := g.links.filterMap f } : Graph V A).orient =
      (g.links.map g.orient).filterMap f := by
    rw [List.map_filterMap, List.filterMap_map]
    apply List.filterMap_congr
    intro l hl
    rw [Function.comp, hfo l hl]
    rfl
  rw [e1, bucketSort_filterMap]
  · rfl
  · intro a ha b hb
    obtain ⟨l, hl, rfl⟩ := List.mem_map.1 ha
    rw [hfo l hl] at hb
    obtain ⟨m, hm, rfl⟩ := Option.map_eq_some_iff.1 hb
    obtain ⟨h1, h2, _⟩ := (hf l hl).shrink m hm
    unfold orient
    rw [h1, h2]
    split
    · exact h1
    · rfl

/-! ### `remove_edges_from` -/

/-- Drop the last `c` keys of a link. -/
def dropKeys (c : V → V → Nat) (l : Link V A) : Option (Link V A) :=
  if c l.u l.v < l.data.length then some { l with data := l.data.take (l.data.length - c l.u l.v) } else none

theorem dropKeys_shrinks (c : V → V → Nat) (l : Link V A) : Shrinks (dropKeys c) l := by
  refine ⟨?_⟩
  intro m hm
  unfold dropKeys at hm
  split at hm
  · rename_i hlt
    cases hm
    refine ⟨rfl, rfl, List.take_sublist _ _, ?_⟩
    intro h
    have := congrArg List.length h
    simp at this
    omega
  · cases hm

/-- Number of removals aimed at a pair. -/
def aimed (directed : Bool) (es : List (V × V)) (u v : V) : Nat :=
  es.countP (fun e => samePair directed e.1 e.2 u v)

theorem removeEdgesFrom_links (g : Graph V A) (es : List (V × V))
    (hs : g.multi = false → ∀ l ∈ g.links, l.data.length = 1) (hne : ∀ l ∈ g.links, l.data ≠ []) :
    g.removeEdgesFrom es = { g with links := g.links.filterMap (dropKeys (aimed g.directed es)) } := by
  induction es using List.reverseRecOn with
  | nil =>
    have : g.links.filterMap (dropKeys (aimed g.directed ([] : List (V × V)))) = g.links := by
      conv_rhs => rw [← List.filterMap_some (l := g.links)]
      apply List.filterMap_congr
      intro l hl
      have h0 : 0 < l.data.length := List.length_pos_iff.2 (hne l hl)
      simp [dropKeys, aimed, h0]
    rw [this]
    rfl
  | append_singleton es e ih =>
    unfold removeEdgesFrom at ih ⊢
    rw [List.foldl_append, ih]
    simp only [List.foldl_cons, List.foldl_nil, removeEdge]
    congr 1
    rw [List.filterMap_filterMap]
    apply List.filterMap_congr
    intro l hl
    have h0 : 0 < l.data.length := List.length_pos_iff.2 (hne l hl)
    have ha : aimed g.directed (es ++ [e]) l.u l.v =
        aimed g.directed es l.u l.v + (if samePair g.directed e.1 e.2 l.u l.v then 1 else 0) := by
      simp [aimed, List.countP_append, List.countP_cons]
    unfold dropKeys
    rw [ha]
    by_cases hlt : aimed g.directed es l.u l.v < l.data.length
    · rw [if_pos hlt]
      simp only [Option.bind_some]
      by_cases hp : samePair g.directed e.1 e.2 l.u l.v = true
      · rw [if_pos hp, if_pos hp]
        by_cases hm : g.multi = true
        · simp only [hm, Bool.true_and, List.length_take]
          by_cases h2 : aimed g.directed es l.u l.v + 1 < l.data.length
          · rw [if_pos h2, if_pos (by simp; omega), List.dropLast_eq_take, List.take_take, List.length_take]
            congr 3
            omega
          · rw [if_neg h2, if_neg (by simp; omega)]
        · simp only [Bool.not_eq_true] at hm
          have := hs hm l hl
          simp only [hm, Bool.false_and, Bool.false_eq_true, if_false]
          rw [if_neg (by omega)]
      · rw [if_neg hp, if_neg hp, Nat.add_zero, if_pos hlt]
    · rw [if_neg hlt, if_neg (by split <;> omega)]
      rfl

theorem aimed_symm {g : Graph V A} (es : List (V × V)) {u v x y : V}
    (h : samePair g.directed u v x y = true) : aimed g.directed es u v = aimed g.directed es x y := by
  unfold aimed
  apply List.countP_congr
  intro e _
  rw [samePair_comm, samePair_trans h, samePair_comm]

theorem dropKeys_orient (g : Graph V A) (es : List (V × V)) (l : Link V A) :
    dropKeys (aimed g.directed es) (g.orient l) = (dropKeys (aimed g.directed es) l).map g.orient := by
  have h1 := aimed_symm (g := g) es (g.orient_samePair l)
  unfold dropKeys
  rw [h1, orient_data]
  split
  · simp only [Option.map_some, Option.some.injEq]
    unfold orient
    split <;> rfl
  · rfl

/-- Number of removals aimed at a listed pair: its rejected edges. -/
theorem aimed_rejected {d : Bool} {G : List (Link V A)} (p : V → V → Attrs A → Bool)
    (hu : G.Pairwise (fun l m => samePair d l.u l.v m.u m.v = false)) {l : Link V A} (hl : l ∈ G) :
    aimed d (((linkEdges G).filter (fun e => !p e.1 e.2.1 e.2.2)).map (fun e => (e.1, e.2.1))) l.u l.v =
      (l.data.filter (fun ka => !p l.u l.v ka.2)).length := by
  have key : ∀ (m : Link V A) (u v : V), aimed d (((m.data.map (fun ka => (m.u, m.v, ka.2))).filter
      (fun e => !p e.1 e.2.1 e.2.2)).map (fun e => (e.1, e.2.1))) u v =
      if samePair d m.u m.v u v then (m.data.filter (fun ka => !p m.u m.v ka.2)).length else 0 := by
    intro m u v
    rw [List.filter_map, List.map_map]
    unfold aimed
    rw [List.countP_map]
    by_cases h : samePair d m.u m.v u v = true
    · rw [if_pos h, List.countP_eq_length.2]
      · rfl
      · intro a _; exact h
    · rw [if_neg h, List.countP_eq_zero]
      intro a _; exact h
  have split : ∀ (a b : List (V × V × Attrs A)) (u v : V),
      aimed d (((a ++ b).filter (fun e => !p e.1 e.2.1 e.2.2)).map (fun e => (e.1, e.2.1))) u v =
      aimed d ((a.filter (fun e => !p e.1 e.2.1 e.2.2)).map (fun e => (e.1, e.2.1))) u v +
      aimed d ((b.filter (fun e => !p e.1 e.2.1 e.2.2)).map (fun e => (e.1, e.2.1))) u v := by
    intro a b u v
    simp [aimed, List.countP_append]
  have zero : ∀ (G : List (Link V A)) (u v : V), (∀ m ∈ G, samePair d m.u m.v u v = false) →
      aimed d (((linkEdges G).filter (fun e => !p e.1 e.2.1 e.2.2)).map (fun e => (e.1, e.2.1))) u v = 0 := by
    intro G u v hG
    unfold aimed
    rw [List.countP_eq_zero]
    intro e he
    obtain ⟨e', he', rfl⟩ := List.mem_map.1 he
    have he' := List.mem_of_mem_filter he'
    unfold linkEdges at he'
    obtain ⟨m, hm, he'⟩ := List.mem_flatMap.1 he'
    obtain ⟨ka, _, rfl⟩ := List.mem_map.1 he'
    simp [hG m hm]
  induction G with
  | nil => cases hl
  | cons m G ih =>
    rw [List.pairwise_cons] at hu
    have e1 : linkEdges (m :: G) = m.data.map (fun ka => (m.u, m.v, ka.2)) ++ linkEdges G := rfl
    rw [e1, split, key]
    rcases List.mem_cons.1 hl with rfl | hl
    · rw [if_pos (samePair_refl _ _ _), zero G l.u l.v (fun m' hm' => by rw [samePair_comm]; exact hu.1 m' hm')]
      rfl
    · rw [ih hu.2 hl, if_neg (by rw [hu.1 l hl]; simp), Nat.zero_add]

/-- The pairs dropped by `remove_edges`. -/
def rejected (g : Graph V A) (p : V → V → Attrs A → Bool) : List (V × V) :=
  (g.edgesData.filter (fun e => !p e.1 e.2.1 e.2.2)).map (fun e => (e.1, e.2.1))

theorem length_filter_not {α : Type} (l : List α) (q : α → Bool) :
    (l.filter q).length + (l.filter (fun a => !q a)).length = l.length := by
  induction l with
  | nil => rfl
  | cons a l ih =>
    rw [List.filter_cons, List.filter_cons, List.length_cons, ← ih]
    cases h : q a <;> simp <;> omega

/-- Effect of `remove_edges_from` with the rejected pairs: of each group of parallel edges, as many as
were accepted are left. -/
theorem removeRejected {g : Graph V A} (h : g.WF) (p : V → V → Attrs A → Bool) :
    (g.removeEdgesFrom (rejected g p)).WF ∧
    (g.removeEdgesFrom (rejected g p)).directed = g.directed ∧
    (g.removeEdgesFrom (rejected g p)).multi = g.multi ∧
    (g.removeEdgesFrom (rejected g p)).attrs = g.attrs ∧
    (g.removeEdgesFrom (rejected g p)).node = g.node ∧
    (g.removeEdgesFrom (rejected g p)).groups =
      g.groups.filterMap (fun l =>
        let n := (l.data.filter (fun ka => p l.u l.v ka.2)).length
        if 0 < n then some { l with data := l.data.take n } else none) := by
  have hs : g.multi = false → ∀ l ∈ g.links, l.data.length = 1 := by
    intro hm l hl
    have := congrArg List.length (h.simple hm l hl)
    simpa [Dict.keys] using this
  rw [removeEdgesFrom_links g _ hs h.nonempty]
  refine ⟨h.shrink (fun l _ => dropKeys_shrinks _ l), rfl, rfl, rfl, rfl, ?_⟩
  rw [groups_shrink (fun l _ => dropKeys_shrinks _ l) (fun l _ => dropKeys_orient g _ l)]
  apply List.filterMap_congr
  intro l hl
  have h1 := aimed_rejected p (groups_uniq h) hl
  rw [← edgesData_eq h] at h1
  have h2 := length_filter_not l.data (fun ka => p l.u l.v ka.2)
  unfold dropKeys
  unfold rejected
  rw [h1]
  simp only
  split
  · rw [if_pos (by omega)]
    congr 3
    omega
  · rw [if_neg (by omega)]

end Graph

open Graph

theorem edgesToDrop_ok {pred : EdgePred V A} {p : V → V → Attrs A → Bool} {es : List (V × V × Attrs A)}
    (h : ∀ e ∈ es, pred e.1 e.2.1 e.2.2 = .ok (p e.1 e.2.1 e.2.2)) :
    edgesToDrop pred es = .ok ((es.filter (fun e => !p e.1 e.2.1 e.2.2)).map (fun e => (e.1, e.2.1))) := by
  induction es with
  | nil => rfl
  | cons e es ih =>
    obtain ⟨u, v, a⟩ := e
    have h1 := h (u, v, a) (by simp)
    simp only at h1
    simp only [edgesToDrop, h1, ih (fun e he => h e (by simp [he]))]
    cases hp : p u v a <;> simp [List.filter_cons, hp]

theorem edgesToDrop_error {pred : EdgePred V A} {pre post : List (V × V × Attrs A)} {e : V × V × Attrs A}
    {err : PyErr} (h : ∀ e ∈ pre, ∃ b, pred e.1 e.2.1 e.2.2 = .ok b)
    (he : pred e.1 e.2.1 e.2.2 = .error err) : edgesToDrop pred (pre ++ e :: post) = .error err := by
  induction pre with
  | nil => simp [edgesToDrop, he]
  | cons e' pre ih =>
    obtain ⟨b, hb⟩ := h e' (by simp)
    simp only [List.cons_append, edgesToDrop, hb, ih (fun e he => h e (by simp [he]))]

theorem filterEdgesLoop_ok [AttrVal A] {pred : EdgePred V A} {p : V → V → Attrs A → Bool}
    {es : List (V × V × Attrs A)} {copy : Graph V A}
    (h : ∀ e ∈ es, pred e.1 e.2.1 e.2.2 = .ok (p e.1 e.2.1 e.2.2))
    (hkw : ∀ e ∈ es, p e.1 e.2.1 e.2.2 = true → EdgeKwSafe copy.multi e.2.2) :
    filterEdgesLoop pred es copy = .ok (addAll copy (es.filter (fun e => p e.1 e.2.1 e.2.2))) := by
  induction es generalizing copy with
  | nil => rfl
  | cons e es ih =>
    obtain ⟨u, v, a⟩ := e
    have h1 := h (u, v, a) (by simp)
    have h2 := hkw (u, v, a) (by simp)
    simp only at h1 h2
    simp only [filterEdgesLoop, h1, List.filter_cons]
    cases hp : p u v a with
    | false =>
      simp only [Bool.false_eq_true, if_false]
      exact ih (fun e he => h e (by simp [he])) (fun e he => hkw e (by simp [he]))
    | true =>
      simp only [if_true]
      rw [addEdge_ok (h2 hp)]
      simp only
      rw [ih (fun e he => h e (by simp [he]))
        (fun e he => by rw [addEdgeCore_multi]; exact hkw e (by simp [he]))]
      rfl

theorem filterEdgesLoop_error [AttrVal A] {pred : EdgePred V A} {es : List (V × V × Attrs A)}
    {copy g' : Graph V A} (h : filterEdgesLoop pred es copy = .ok g') :
    ∀ e ∈ es, ∃ b, pred e.1 e.2.1 e.2.2 = .ok b := by
  induction es generalizing copy with
  | nil => simp
  | cons e es ih =>
    obtain ⟨u, v, a⟩ := e
    simp only [filterEdgesLoop] at h
    intro e' he'
    rcases hp : pred u v a with err | b
    · rw [hp] at h; cases h
    · rw [hp] at h
      rcases List.mem_cons.1 he' with rfl | he'
      · exact ⟨b, hp⟩
      · cases b with
        | false => exact ih h e' he'
        | true =>
          simp only at h
          split at h
          · cases h
          · exact ih h e' he'

end Pelote
