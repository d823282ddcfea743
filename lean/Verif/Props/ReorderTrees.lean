import Verif.Props.Reorder

/-! Property C74, continued: maximum spanning trees and sparsification. -/
namespace Pelote

/-! ### Forests -/

section
variable {ι κ V K : Type}

theorem LinkedBy.reindex (σ : ι ≃ κ) {ends : ι → V × V} {ends' : κ → V × V}
    (he : ∀ i, ends i = ends' (σ i) ∨ ends i = (ends' (σ i)).swap) {F : Set ι} {F' : Set κ} (hF : ∀ i, i ∈ F ↔ σ i ∈ F')
    (x y : V) : LinkedBy ends F x y ↔ LinkedBy ends' F' x y := by
  constructor
  · intro h
    unfold LinkedBy at h
    induction h with
    | rel a b hab =>
      obtain ⟨i, hi, hab⟩ := hab
      rcases he i with h | h
      · exact Relation.EqvGen.rel _ _ ⟨σ i, (hF i).1 hi, by rw [← h, hab]⟩
      · refine Relation.EqvGen.symm _ _ (Relation.EqvGen.rel _ _ ⟨σ i, (hF i).1 hi, ?_⟩)
        rw [hab] at h
        rw [← Prod.swap_swap (ends' (σ i)), ← h]
        rfl
    | refl a => exact Relation.EqvGen.refl _
    | symm a b _ ih => exact Relation.EqvGen.symm _ _ ih
    | trans a b c _ _ ih ih' => exact Relation.EqvGen.trans _ _ _ ih ih'
  · intro h
    unfold LinkedBy at h
    induction h with
    | rel a b hab =>
      obtain ⟨j, hj, hab⟩ := hab
      have hj' : σ.symm j ∈ F := (hF _).2 (by rwa [Equiv.apply_symm_apply])
      have h := he (σ.symm j)
      rw [Equiv.apply_symm_apply, hab] at h
      rcases h with h | h
      · exact Relation.EqvGen.rel _ _ ⟨σ.symm j, hj', h⟩
      · exact Relation.EqvGen.symm _ _ (Relation.EqvGen.rel _ _ ⟨σ.symm j, hj', h⟩)
    | refl a => exact Relation.EqvGen.refl _
    | symm a b _ ih => exact Relation.EqvGen.symm _ _ ih
    | trans a b c _ _ ih ih' => exact Relation.EqvGen.trans _ _ _ ih ih'

theorem IsSpanningForest.reindex (σ : ι ≃ κ) {ends : ι → V × V} {ends' : κ → V × V}
    (he : ∀ i, ends i = ends' (σ i) ∨ ends i = (ends' (σ i)).swap) {F : Finset ι} (h : IsSpanningForest ends F) :
    IsSpanningForest ends' (F.map σ.toEmbedding) := by
  have hF : ∀ i, i ∈ (F : Set ι) ↔ σ i ∈ ((F.map σ.toEmbedding : Finset κ) : Set κ) := by
    intro i; simp
  have hends : ∀ {G : Set ι} {G' : Set κ}, (∀ i, i ∈ G ↔ σ i ∈ G') → ∀ i,
      LinkedBy ends G (ends i).1 (ends i).2 ↔ LinkedBy ends' G' (ends' (σ i)).1 (ends' (σ i)).2 := by
    intro G G' hG i
    rw [LinkedBy.reindex σ he hG]
    rcases he i with h | h
    · rw [h]
    · rw [h]
      exact ⟨fun h => Relation.EqvGen.symm _ _ h, fun h => Relation.EqvGen.symm _ _ h⟩
  constructor
  · intro j
    have := (hends hF (σ.symm j)).1 (h.spans _)
    rwa [Equiv.apply_symm_apply] at this
  · intro j hj hl
    obtain ⟨i, hi, rfl⟩ := Finset.mem_map.1 hj
    refine h.acyclic i hi ((hends ?_ i).2 hl)
    intro i'
    simp

theorem IsMaxSpanningForest.reindex [AddCommMonoid K] [LE K] (σ : ι ≃ κ) {ends : ι → V × V} {ends' : κ → V × V}
    (he : ∀ i, ends i = ends' (σ i) ∨ ends i = (ends' (σ i)).swap) {w : ι → K} {w' : κ → K} (hw : ∀ i, w i = w' (σ i))
    {F : Finset ι} (h : IsMaxSpanningForest ends w F) : IsMaxSpanningForest ends' w' (F.map σ.toEmbedding) := by
  refine ⟨h.forest.reindex σ he, ?_⟩
  intro F' hF'
  have he' : ∀ j, ends' j = ends (σ.symm j) ∨ ends' j = (ends (σ.symm j)).swap := by
    intro j
    have := he (σ.symm j)
    rw [Equiv.apply_symm_apply] at this
    rcases this with h | h
    · exact .inl h.symm
    · right; rw [h, Prod.swap_swap]
  have := h.max _ (hF'.reindex σ.symm he')
  rw [Finset.sum_map] at this ⊢
  simp only [Equiv.coe_toEmbedding, hw, Equiv.apply_symm_apply] at this ⊢
  exact this

end

section
variable {V K : Type} [DecidableEq V] [Field K] [LinearOrder K] [IsStrictOrderedRing K] {g g' : Graph V (Val K)}

theorem SameEdges.of_perm {B : Type} {d : Bool} {l k k' l' : List (V × V × B)} (h1 : l.Perm k) (h : SameEdges d k k')
    (h2 : l'.Perm k') : SameEdges d l l' := by
  have key : ∀ {l k k' : List (V × V × B)}, l.Perm k → SameEdges d k k' → SameEdges d l k' := by
    rintro l k k' h1 ⟨m, h3, h4⟩
    exact ⟨m, h1.trans h3, h4⟩
  exact (key h2 (key h1 h).symm).symm

theorem Graph.Same.reindexData (s : g.Same g') (h : g.WF) (h' : g'.WF) :
    ∃ σ : Fin g.edgesData.length ≃ Fin g'.edgesData.length, ∀ i,
      samePair g.directed g.edgesData[i].1 g.edgesData[i].2.1 g'.edgesData[σ i].1 g'.edgesData[σ i].2.1 = true ∧
        g.edgesData[i].2.2 = g'.edgesData[σ i].2.2 := by
  obtain ⟨σ, hσ⟩ := s.reindex h h'
  have e : g.edgesData.length = g.edgesKeys.length := by simp [Graph.edgesData]
  have e' : g'.edgesKeys.length = g'.edgesData.length := by simp [Graph.edgesData]
  refine ⟨(finCongr e).trans (σ.trans (finCongr e')), ?_⟩
  intro i
  have := hσ ⟨i.val, e ▸ i.2⟩
  have k : ∀ {g : Graph V (Val K)} (j : Nat) (h1 : j < g.edgesData.length) (h2 : j < g.edgesKeys.length),
      g.edgesData[j] = (g.edgesKeys[j].1, g.edgesKeys[j].2.1, g.edgesKeys[j].2.2.2) := by
    intro g j h1 h2
    simp [Graph.edgesData]
  have k1 := k i.val i.2 (e ▸ i.2)
  have k2 := k (σ ⟨i.val, e ▸ i.2⟩).val (e' ▸ (σ ⟨i.val, e ▸ i.2⟩).2) (σ ⟨i.val, e ▸ i.2⟩).2
  have k3 : g'.edgesData[((finCongr e).trans (σ.trans (finCongr e'))) i] =
      g'.edgesData[(σ ⟨i.val, e ▸ i.2⟩).val]'(e' ▸ (σ ⟨i.val, e ▸ i.2⟩).2) := rfl
  rw [k3, k2, Fin.getElem_fin, k1]
  have k4 := congrArg Prod.snd this.2
  exact ⟨this.1, k4⟩

/-- Maximum spanning trees of two graphs whose edges are matched, up to the direction of each. -/
theorem unionOfMaximumSpanningTrees_reindex {ulongMax : Nat} (hu : 2^32 - 1 ≤ ulongMax) (h : g.WF) (h' : g'.WF)
    {d : Bool} (σ : Fin g.edgesData.length ≃ Fin g'.edgesData.length)
    (hσ : ∀ i, samePair d g.edgesData[i].1 g.edgesData[i].2.1 g'.edgesData[σ i].1 g'.edgesData[σ i].2.1 = true ∧
      g.edgesData[i].2.2 = g'.edgesData[σ i].2.2)
    (hnodes : ∀ n, n ∈ g.nodes ↔ n ∈ g'.nodes) (horder : g.order = g'.order) {attr : String}
    (hw : ∀ e ∈ g.edgesData, ∃ w, HasWeight attr e.2.2 w) (hcap : g.order ≤ 2^64) :
    (unionOfMaximumSpanningTrees ulongMax g attr).err = (unionOfMaximumSpanningTrees ulongMax g' attr).err ∧
      ((unionOfMaximumSpanningTrees ulongMax g attr).err = none →
        ∃ is : List (Fin g.edgesData.length),
          (unionOfMaximumSpanningTrees ulongMax g attr).yields = is.map (fun i => g.edgesData[i]) ∧
          (unionOfMaximumSpanningTrees ulongMax g' attr).yields.Perm (is.map (fun i => g'.edgesData[σ i]))) := by
  classical
  have he : ∀ i, g.endsAt i = g'.endsAt (σ i) ∨ g.endsAt i = (g'.endsAt (σ i)).swap := by
    intro i
    rcases samePair_iff.1 (hσ i).1 with ⟨h1, h2⟩ | ⟨_, h1, h2⟩
    · exact .inl (Prod.ext h1 h2)
    · exact .inr (Prod.ext h1 h2)
  have hex : ∀ i : Fin g.edgesData.length, ∃ w, HasWeight attr g.edgesData[i].2.2 w := fun i => hw _ (List.getElem_mem i.2)
  choose w hw using hex
  obtain ⟨v, hv, -⟩ := mergesNearTies_existsUnique w
  have hw' : g'.Weights attr (fun j => w (σ.symm j)) := by
    intro j
    have h1 := hw (σ.symm j)
    have h2 := (hσ (σ.symm j)).2
    rw [h2] at h1
    simpa using h1
  have hv' : MergesNearTies (fun j => w (σ.symm j)) (fun j => v (σ.symm j)) := by
    refine ⟨fun j => hv.above _, fun j => hv.within _, fun j => ?_, fun i j => hv.mono _ _, fun i j => hv.apart _ _⟩
    obtain ⟨k, hk⟩ := hv.value (σ.symm j)
    exact ⟨σ k, by simpa using hk⟩
  have hin : ∀ i, (∃ F, IsMaxSpanningForest g.endsAt v F ∧ i ∈ F) ↔
      ∃ F, IsMaxSpanningForest g'.endsAt (fun j => v (σ.symm j)) F ∧ σ i ∈ F := by
    intro i
    constructor
    · rintro ⟨F, hF, hi⟩
      exact ⟨_, hF.reindex σ he (by simp), by simpa using hi⟩
    · rintro ⟨F, hF, hi⟩
      have he' : ∀ j, g'.endsAt j = g.endsAt (σ.symm j) ∨ g'.endsAt j = (g.endsAt (σ.symm j)).swap := by
        intro j
        have := he (σ.symm j)
        rw [Equiv.apply_symm_apply] at this
        rcases this with h | h
        · exact .inl h.symm
        · right; rw [h, Prod.swap_swap]
      exact ⟨_, hF.reindex σ.symm he' (fun j => rfl), by simpa using hi⟩
  obtain ⟨is, i1, i2, i3, i4, i5⟩ := unionOfMaximumSpanningTrees_any_order hu h hw hv hcap
  obtain ⟨js, j1, j2, j3, j4, j5⟩ := unionOfMaximumSpanningTrees_any_order hu h' hw' hv' (horder ▸ hcap)
  have herr : (unionOfMaximumSpanningTrees ulongMax g attr).err = (unionOfMaximumSpanningTrees ulongMax g' attr).err := by
    have hlink : (∀ x ∈ g.nodes, ∀ y ∈ g.nodes, LinkedBy g.endsAt {i | ∃ j, v j < v i} x y) ↔
        ∀ x ∈ g'.nodes, ∀ y ∈ g'.nodes, LinkedBy g'.endsAt {i | ∃ j, v (σ.symm j) < v (σ.symm i)} x y := by
      have := fun x y => LinkedBy.reindex σ he (F := {i | ∃ j, v j < v i})
        (F' := {i | ∃ j, v (σ.symm j) < v (σ.symm i)})
        (fun i => ⟨fun ⟨j, hj⟩ => ⟨σ j, by simpa using hj⟩, fun ⟨j, hj⟩ => ⟨σ.symm j, by simpa using hj⟩⟩) x y
      simp only [this, hnodes]
    by_cases ho : g.order = 2^8 ∨ g.order = 2^16 ∨ (g.order = 2^32 ∧ ulongMax = 2^32 - 1) ∨ g.order = 2^64
    · have k1 := unionOfMaximumSpanningTrees_overflow_merged hu h hw hv ho
      have k2 := unionOfMaximumSpanningTrees_overflow_merged hu h' hw' hv' (horder ▸ ho)
      rw [hlink, ← k2] at k1
      by_cases e1 : (unionOfMaximumSpanningTrees ulongMax g attr).err = none
      · rw [e1]
        by_contra hc
        rw [(j5 (fun h => hc h.symm)).1] at k1
        rw [e1] at k1
        simp at k1
      · rw [(i5 e1).1, k1.1 (i5 e1).1]
    · have e1 : (unionOfMaximumSpanningTrees ulongMax g attr).err = none := by
        by_contra hc
        exact ho (by have := (i5 hc).2; unfold OverflowOrder at this; tauto)
      have e2 : (unionOfMaximumSpanningTrees ulongMax g' attr).err = none := by
        by_contra hc
        exact ho (by have := (j5 hc).2; unfold OverflowOrder at this; rw [← horder] at this; tauto)
      rw [e1, e2]
  refine ⟨herr, fun hok => ?_⟩
  have hmem : ∀ i, i ∈ is ↔ σ i ∈ js := by
    intro i
    constructor
    · intro hi; exact j4 (herr ▸ hok) _ ((hin i).1 (i3 i hi))
    · intro hi; exact i4 hok _ ((hin i).2 (j3 _ hi))
  have hp : is.Perm (js.map σ.symm) := by
    rw [List.perm_ext_iff_of_nodup i2 (j2.map σ.symm.injective)]
    intro i
    rw [hmem, List.mem_map]
    constructor
    · intro hi; exact ⟨σ i, hi, by simp⟩
    · rintro ⟨j, hj, rfl⟩; simpa using hj
  refine ⟨is, i1, ?_⟩
  rw [j1]
  have h1 := (hp.map (fun i => g'.edgesData[σ i])).symm
  rw [List.map_map] at h1
  simpa [Function.comp_def] using h1

/-- C74.  Maximum spanning trees: same error, if any, and same edges, near ties included. -/
theorem unionOfMaximumSpanningTrees_reorder {ulongMax : Nat} (hu : 2^32 - 1 ≤ ulongMax) (h : g.WF) (h' : g'.WF)
    (s : g.Same g') {attr : String} (hw : ∀ e ∈ g.edgesData, ∃ w, HasWeight attr e.2.2 w) (hcap : g.order ≤ 2^64) :
    (unionOfMaximumSpanningTrees ulongMax g attr).err = (unionOfMaximumSpanningTrees ulongMax g' attr).err ∧
      ((unionOfMaximumSpanningTrees ulongMax g attr).err = none →
        SameEdges g.directed (unionOfMaximumSpanningTrees ulongMax g attr).yields
          (unionOfMaximumSpanningTrees ulongMax g' attr).yields) := by
  obtain ⟨σ, hσ⟩ := s.reindexData h h'
  obtain ⟨h1, h2⟩ := unionOfMaximumSpanningTrees_reindex hu h h' σ hσ s.mem_nodes (s.order h h') hw hcap
  refine ⟨h1, fun hok => ?_⟩
  obtain ⟨is, h3, h4⟩ := h2 hok
  rw [h3]
  refine SameEdges.of_perm (List.Perm.refl _) ⟨_, List.Perm.refl _, ?_⟩ h4
  rw [List.forall₂_map_left_iff, List.forall₂_map_right_iff, List.forall₂_same]
  exact fun i _ => hσ i

/-- Two edges listed for the same pair are listed in the same direction. -/
theorem listed_direction {A : Type} {g : Graph V A} (h : g.WF) {e e' : V × V × Attrs A} (he : e ∈ g.edgesData)
    (he' : e' ∈ g.edgesData) (hs : samePair g.directed e.1 e.2.1 e'.1 e'.2.1 = true) : e.1 = e'.1 ∧ e.2.1 = e'.2.1 := by
  rcases samePair_iff.1 hs with h1 | ⟨hd, h1, h2⟩
  · exact h1
  · obtain ⟨u, v, a⟩ := e
    obtain ⟨u', v', a'⟩ := e'
    simp only at h1 h2 ⊢
    subst h1 h2
    obtain ⟨l, hl, hu, hv, _⟩ := (Graph.mem_edgesData h).1 he
    obtain ⟨l', hl', hu', hv', _⟩ := (Graph.mem_edgesData h).1 he'
    have k1 := g.orient_le l hd
    have k2 := g.orient_le l' hd
    rw [hu, hv] at k1
    rw [hu', hv'] at k2
    have hm := (edgesData_ends h he)
    have heq : u = v := (List.idxOf_inj (l := g.nodes) hm.1).1 (le_antisymm k1 k2)
    exact ⟨heq, heq.symm⟩

theorem kept_reorder {ulongMax : Nat} (hu : 2^32 - 1 ≤ ulongMax) (h : g.WF) (h' : g'.WF)
    (s : g.Same g') (hw : ∀ e ∈ g.edgesData, ∃ w, HasWeight "weight" e.2.2 w) (hcap : g.order ≤ 2^64)
    (hok : (unionOfMaximumSpanningTrees ulongMax g "weight").err = none)
    {e e' : V × V × Attrs (Val K)} (he : e ∈ g.edgesData) (he' : e' ∈ g'.edgesData)
    (hs : samePair g.directed e.1 e.2.1 e'.1 e'.2.1 = true) :
    (∃ b, (e.1, e.2.1, b) ∈ (unionOfMaximumSpanningTrees ulongMax g "weight").yields) ↔
      ∃ b, (e'.1, e'.2.1, b) ∈ (unionOfMaximumSpanningTrees ulongMax g' "weight").yields := by
  have key : ∀ {g g' : Graph V (Val K)} (h : g.WF) (h' : g'.WF) (s : g.Same g')
      (hw : ∀ e ∈ g.edgesData, ∃ w, HasWeight "weight" e.2.2 w) (hcap : g.order ≤ 2^64)
      (hok : (unionOfMaximumSpanningTrees ulongMax g "weight").err = none)
      {e e' : V × V × Attrs (Val K)} (he : e ∈ g.edgesData) (he' : e' ∈ g'.edgesData)
      (hs : samePair g.directed e.1 e.2.1 e'.1 e'.2.1 = true),
      (∃ b, (e.1, e.2.1, b) ∈ (unionOfMaximumSpanningTrees ulongMax g "weight").yields) →
      ∃ b, (e'.1, e'.2.1, b) ∈ (unionOfMaximumSpanningTrees ulongMax g' "weight").yields := by
    rintro g g' h h' s hw hcap hok e e' he he' hs ⟨b, hb⟩
    obtain ⟨herr, hsame⟩ := unionOfMaximumSpanningTrees_reorder hu h h' s hw hcap
    obtain ⟨y, hy, hys, hyd⟩ := (hsame hok).exists hb
    have hw' := s.attrsAll (P := fun a => ∃ w, HasWeight "weight" a w) h h' hw
    have hex : ∀ i : Fin g'.edgesData.length, ∃ w, HasWeight "weight" g'.edgesData[i].2.2 w :=
      fun i => hw' _ (List.getElem_mem i.2)
    choose w hw' using hex
    obtain ⟨v, hv, -⟩ := mergesNearTies_existsUnique w
    obtain ⟨is, i1, -⟩ := unionOfMaximumSpanningTrees_any_order hu h' hw' hv (s.order h h' ▸ hcap)
    have hym : y ∈ g'.edgesData := by
      rw [i1] at hy
      obtain ⟨i, _, rfl⟩ := List.mem_map.1 hy
      exact List.getElem_mem i.2
    have hdir : samePair g'.directed y.1 y.2.1 e'.1 e'.2.1 = true := by
      rw [← s.directed]
      rw [samePair_comm] at hys
      exact (samePair_trans hys).trans hs
    obtain ⟨d1, d2⟩ := listed_direction h' hym he' hdir
    exact ⟨y.2.2, by rw [← d1, ← d2]; exact hy⟩
  refine ⟨key h h' s hw hcap hok he he' hs, ?_⟩
  refine key h' h s.symm (s.attrsAll (P := fun a => ∃ w, HasWeight "weight" a w) h h' hw) (s.order h h' ▸ hcap) ?_ he' he (by
    rw [← s.directed, samePair_comm]; exact hs)
  rw [← (unionOfMaximumSpanningTrees_reorder hu h h' s hw hcap).1]; exact hok

/-- C74.  Global threshold sparsification, with `keep_connected` too. -/
theorem globalThreshold_reorder [PyOrd V] [AttrVal (Val K)] {ulongMax : Nat} (hu : 2^32 - 1 ≤ ulongMax) (h : g.WF) (h' : g'.WF)
    (s : g.Same g') {attr : String} (t : K) (reverse keepConnected : Bool)
    (hn : ∀ e ∈ g.edgesData, ∃ w, HasNumber attr e.2.2 w)
    (hw : keepConnected = true → (∀ e ∈ g.edgesData, ∃ w, HasWeight "weight" e.2.2 w) ∧ g.order ≤ 2^64 ∧
      (unionOfMaximumSpanningTrees ulongMax g "weight").err = none)
    (hkw : ∀ e ∈ g.edgesData, Graph.EdgeKwSafe g.multi e.2.2) :
    ∃ b b', globalThresholdSparsification ulongMax g t attr reverse keepConnected = .ok b ∧
      globalThresholdSparsification ulongMax g' t attr reverse keepConnected = .ok b' ∧
      (∀ n, b.node.get? n = b'.node.get? n) ∧ SameEdges g.directed b.edgesData b'.edgesData := by
  obtain ⟨b, h1, -, -, -, -, hnode, h2⟩ := globalThreshold_exact ulongMax h t reverse keepConnected hn
    (fun hk => (hw hk).2.2) hkw
  obtain ⟨b', h1', -, -, -, -, hnode', h2'⟩ := globalThreshold_exact ulongMax h' t reverse keepConnected
    (s.attrsAll (P := fun a => ∃ w, HasNumber attr a w) h h' hn)
    (fun hk => by
      obtain ⟨k1, k2, k3⟩ := hw hk
      rw [← (unionOfMaximumSpanningTrees_reorder hu h h' s k1 k2).1]; exact k3)
    (by rw [← s.multi]; exact s.attrsAll (P := fun a => Graph.EdgeKwSafe g.multi a) h h' hkw)
  refine ⟨b, b', h1, h1', fun n => by rw [hnode, hnode', s.node], ?_⟩
  rw [h2, h2']
  refine (s.sameEdges h h').filter ?_
  intro e he e' he' hs hd
  rw [decide_eq_decide, hd]
  refine or_congr_right (and_congr_right fun hk => ?_)
  obtain ⟨k1, k2, k3⟩ := hw hk
  exact kept_reorder hu h h' s k1 k2 k3 he he' hs

end

section
variable {W K : Type} [LinearOrder W] [Field K] [LinearOrder K] [IsStrictOrderedRing K] {g g' : Graph W (Val K)}

/-- C74.  The multiscale backbone, with `keep_connected` too. -/
theorem multiscaleBackbone_reorder [PyOrd W] [AttrVal (Val K)] {ulongMax : Nat} (hu : 2^32 - 1 ≤ ulongMax)
    (ho : OrderedKeys W) (h : g.WF) (h' : g'.WF) (s : g.Same g') (hd : g.directed = false) (hm : g.multi = false)
    {attr : String} {w : W → W → K} (hsym : ∀ u v, w u v = w v u) (hw : g.Weighted attr w)
    (hpos : ∀ u v, g.hasEdge u v = true → 0 < w u v) (alpha : K) (keepConnected : Bool)
    (hk : keepConnected = true → (∀ e ∈ g.edgesData, ∃ w, HasWeight "weight" e.2.2 w) ∧ g.order ≤ 2^64 ∧
      (unionOfMaximumSpanningTrees ulongMax g "weight").err = none)
    (hkw : ∀ e ∈ g.edgesData, Graph.EdgeKwSafe g.multi e.2.2) :
    ∃ b b', multiscaleBackbone ulongMax g alpha attr keepConnected = .ok b ∧
      multiscaleBackbone ulongMax g' alpha attr keepConnected = .ok b' ∧
      (∀ n, b.node.get? n = b'.node.get? n) ∧ SameEdges g.directed b.edgesData b'.edgesData := by
  obtain ⟨b, h1, -, -, -, -, hnode, h2⟩ := multiscaleBackbone_exact ulongMax ho h hd hm hsym hw hpos alpha keepConnected
    (fun hc => (hk hc).2.2) hkw
  obtain ⟨b', h1', -, -, -, -, hnode', h2'⟩ := multiscaleBackbone_exact ulongMax ho h' (s.directed ▸ hd) (s.multi ▸ hm) hsym
    (s.weighted h h' hsym hw) (fun u v he => hpos u v (by rw [s.hasEdge h h']; exact he)) alpha keepConnected
    (fun hc => by
      obtain ⟨k1, k2, k3⟩ := hk hc
      rw [← (unionOfMaximumSpanningTrees_reorder hu h h' s k1 k2).1]; exact k3)
    (by rw [← s.multi]; exact s.attrsAll (P := fun a => Graph.EdgeKwSafe g.multi a) h h' hkw)
  refine ⟨b, b', h1, h1', fun n => by rw [hnode, hnode', s.node], ?_⟩
  rw [h2, h2']
  refine (s.sameEdges h h').filter ?_
  intro e he e' he' hs _
  rw [decide_eq_decide]
  refine or_congr ?_ (and_congr_right fun hc => ?_)
  · rw [s.disparity h h' hsym]
    rcases samePair_iff.1 hs with ⟨e1, e2⟩ | ⟨_, e1, e2⟩
    · rw [e1, e2]
    · rw [e1, e2, disparity_comm hsym]
  · obtain ⟨k1, k2, k3⟩ := hk hc
    exact kept_reorder hu h h' s k1 k2 k3 he he' hs

end

end Pelote
