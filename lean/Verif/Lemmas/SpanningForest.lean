import Verif.Spec.SpanningForest
import Verif.Lemmas.Linked
import Mathlib.Data.Finset.Max
import Mathlib.Data.Fintype.Powerset
import Mathlib.Algebra.Order.BigOperators.Group.Finset
import Mathlib.Tactic.Linarith

/-! Exchange arguments for maximum spanning forests. -/
namespace Pelote
variable {ι V K : Type} {ends : ι → V × V}

namespace LinkedBy

theorem refl (F : Set ι) (x : V) : LinkedBy ends F x x := Relation.EqvGen.refl _

theorem symm {F : Set ι} {x y : V} (h : LinkedBy ends F x y) : LinkedBy ends F y x :=
  Relation.EqvGen.symm _ _ h

theorem trans {F : Set ι} {x y z : V} (h : LinkedBy ends F x y) (h' : LinkedBy ends F y z) :
    LinkedBy ends F x z := Relation.EqvGen.trans _ _ _ h h'

theorem of_mem {F : Set ι} {i : ι} (h : i ∈ F) : LinkedBy ends F (ends i).1 (ends i).2 :=
  Relation.EqvGen.rel _ _ ⟨i, h, rfl⟩

/-- Paths whose edges can be replaced by paths. -/
theorem bind {F G : Set ι} {x y : V} (h : LinkedBy ends F x y)
    (hFG : ∀ i ∈ F, LinkedBy ends G (ends i).1 (ends i).2) : LinkedBy ends G x y := by
  induction h with
  | rel a b hab =>
    obtain ⟨i, hi, e⟩ := hab
    have := hFG i hi
    rw [e] at this; exact this
  | refl a => exact refl _ _
  | symm a b _ ih => exact ih.symm
  | trans a b c _ _ h1 h2 => exact h1.trans h2

theorem mono {F G : Set ι} {x y : V} (h : LinkedBy ends F x y) (hFG : F ⊆ G) : LinkedBy ends G x y :=
  h.bind (fun _ hi => of_mem (hFG hi))

/-- Adding one edge merges two classes. -/
theorem insert_cases {F : Set ι} {i : ι} {x y : V} (h : LinkedBy ends (insert i F) x y) :
    LinkedBy ends F x y ∨ (LinkedBy ends F x (ends i).1 ∧ LinkedBy ends F (ends i).2 y) ∨
      (LinkedBy ends F x (ends i).2 ∧ LinkedBy ends F (ends i).1 y) := by
  induction h with
  | rel a b hab =>
    obtain ⟨j, hj, e⟩ := hab
    rcases hj with rfl | hj
    · rw [e]; exact .inr (.inl ⟨refl _ _, refl _ _⟩)
    · left
      have := of_mem (ends := ends) hj
      rw [e] at this; exact this
  | refl u => exact .inl (refl _ _)
  | symm u v _ ih =>
    rcases ih with h | ⟨h, h'⟩ | ⟨h, h'⟩
    · exact .inl h.symm
    · exact .inr (.inr ⟨h'.symm, h.symm⟩)
    · exact .inr (.inl ⟨h'.symm, h.symm⟩)
  | trans u v w _ _ ih1 ih2 =>
    rcases ih1 with h | ⟨h, h'⟩ | ⟨h, h'⟩ <;> rcases ih2 with k | ⟨k, k'⟩ | ⟨k, k'⟩
    · exact .inl (h.trans k)
    · exact .inr (.inl ⟨h.trans k, k'⟩)
    · exact .inr (.inr ⟨h.trans k, k'⟩)
    · exact .inr (.inl ⟨h, h'.trans k⟩)
    · exact .inr (.inl ⟨h, k'⟩)
    · exact .inl (h.trans k')
    · exact .inr (.inr ⟨h, h'.trans k⟩)
    · exact .inl (h.trans k')
    · exact .inr (.inr ⟨h, k'⟩)

/-- If an edge is needed to join `x` and `y`, then joining `x` and `y` joins its ends. -/
theorem ends_of_needed {F G : Set ι} {i : ι} {x y : V} (h : LinkedBy ends (insert i F) x y)
    (hn : ¬ LinkedBy ends F x y) (hFG : F ⊆ G) (hxy : LinkedBy ends G x y) :
    LinkedBy ends G (ends i).1 (ends i).2 := by
  rcases h.insert_cases with h | ⟨h, h'⟩ | ⟨h, h'⟩
  · exact absurd h hn
  · exact (h.mono hFG).symm.trans (hxy.trans (h'.mono hFG).symm)
  · exact ((h'.mono hFG).trans (hxy.symm.trans (h.mono hFG)))

end LinkedBy

section
variable [DecidableEq ι]

theorem insert_minus {F : Finset ι} {i : ι} (hi : i ∈ F) :
    insert i {j | j ∈ F ∧ j ≠ i} = (F : Set ι) := by
  ext j
  simp only [Set.mem_insert_iff, Set.mem_ofPred_eq, Finset.mem_coe]
  constructor
  · rintro (rfl | h)
    · exact hi
    · exact h.1
  · intro h
    by_cases e : j = i
    · exact .inl e
    · exact .inr ⟨h, e⟩

/-- Replacing an edge of a spanning forest by one reconnecting the two parts. -/
theorem IsSpanningForest.exchange {F : Finset ι} (h : IsSpanningForest ends F) {i j : ι} (hi : i ∈ F)
    (hj : ¬ LinkedBy ends {k | k ∈ F ∧ k ≠ i} (ends j).1 (ends j).2) :
    IsSpanningForest ends (insert j (F.erase i)) := by
  have hF : ((F.erase i : Finset ι) : Set ι) = {k | k ∈ F ∧ k ≠ i} := by
    ext k; simp [and_comm]
  have hjF : LinkedBy ends (insert i {k | k ∈ F ∧ k ≠ i}) (ends j).1 (ends j).2 := by
    rw [insert_minus hi]; exact h.spans j
  have hsub : {k | k ∈ F ∧ k ≠ i} ⊆ insert j {k | k ∈ F ∧ k ≠ i} := Set.subset_insert _ _
  -- the ends of `i` are joined by the new set
  have hij : LinkedBy ends (insert j {k | k ∈ F ∧ k ≠ i}) (ends i).1 (ends i).2 :=
    hjF.ends_of_needed hj hsub (LinkedBy.of_mem (Set.mem_insert _ _))
  have hcoe : ((insert j (F.erase i) : Finset ι) : Set ι) = insert j {k | k ∈ F ∧ k ≠ i} := by
    rw [Finset.coe_insert, hF]
  constructor
  · intro k
    rw [hcoe]
    refine (h.spans k).bind (fun l hl => ?_)
    by_cases e : l = i
    · subst e; exact hij
    · exact LinkedBy.of_mem (.inr ⟨hl, e⟩)
  · intro k hk hlink
    by_cases ekj : k = j
    · subst ekj
      refine hj (hlink.mono ?_)
      rintro l ⟨hl, hlk⟩
      rcases Finset.mem_insert.1 hl with rfl | hl
      · exact absurd rfl hlk
      · exact ⟨Finset.mem_of_mem_erase hl, Finset.ne_of_mem_erase hl⟩
    · have hkF : k ∈ F.erase i := (Finset.mem_insert.1 hk).resolve_left ekj
      obtain ⟨hki, hkF⟩ := Finset.mem_erase.1 hkF
      -- without `j` the ends of `k` are not joined
      have hno : ¬ LinkedBy ends {l | l ∈ F ∧ l ≠ i ∧ l ≠ k} (ends k).1 (ends k).2 := fun hc =>
        h.acyclic k hkF (hc.mono (fun l hl => ⟨hl.1, hl.2.2⟩))
      have hlink' : LinkedBy ends (insert j {l | l ∈ F ∧ l ≠ i ∧ l ≠ k}) (ends k).1 (ends k).2 := by
        refine hlink.mono ?_
        rintro l ⟨hl, hlk⟩
        rcases Finset.mem_insert.1 hl with rfl | hl
        · exact .inl rfl
        · exact .inr ⟨Finset.mem_of_mem_erase hl, Finset.ne_of_mem_erase hl, hlk⟩
      -- so joining the ends of `k` joins the ends of `j`
      refine hj (hlink'.ends_of_needed hno (G := {l | l ∈ F ∧ l ≠ i}) (fun l hl => ⟨hl.1, hl.2.1⟩) ?_)
      exact LinkedBy.of_mem ⟨hkF, hki⟩

variable [Fintype ι]

/-- There is a spanning forest. -/
theorem exists_spanningForest (ends : ι → V × V) : ∃ F, IsSpanningForest ends F := by
  classical
  let S : Finset (Finset ι) := Finset.univ.filter (fun F => ∀ i, LinkedBy ends F (ends i).1 (ends i).2)
  have hne : S.Nonempty := ⟨Finset.univ, by
    simp only [S, Finset.mem_filter, Finset.mem_univ, true_and]
    exact fun i => LinkedBy.of_mem (by simp)⟩
  obtain ⟨F, hF, hmin⟩ := Finset.exists_min_image S Finset.card hne
  simp only [S, Finset.mem_filter, Finset.mem_univ, true_and] at hF hmin
  refine ⟨F, hF, fun i hi hl => ?_⟩
  have hcoe : ((F.erase i : Finset ι) : Set ι) = {k | k ∈ F ∧ k ≠ i} := by
    ext k; simp [and_comm]
  have := hmin (F.erase i) (fun k => by
    rw [hcoe]
    refine (hF k).bind (fun l hlF => ?_)
    by_cases e : l = i
    · subst e; exact hl
    · exact LinkedBy.of_mem ⟨hlF, e⟩)
  rw [Finset.card_erase_of_mem hi] at this
  have := Finset.card_pos.2 ⟨i, hi⟩
  omega

variable [Field K] [LinearOrder K] [IsStrictOrderedRing K] {weight : ι → K}

omit [IsStrictOrderedRing K] in
/-- There is a maximum one. -/
theorem exists_maxSpanningForest (ends : ι → V × V) (weight : ι → K) :
    ∃ F, IsMaxSpanningForest ends weight F := by
  classical
  let S : Finset (Finset ι) := Finset.univ.filter (fun F => IsSpanningForest ends F)
  obtain ⟨F, hF, hmax⟩ := Finset.exists_max_image S (fun F => F.sum weight) (by
    obtain ⟨F, hF⟩ := exists_spanningForest ends
    exact ⟨F, by simp [S, hF]⟩)
  simp only [S, Finset.mem_filter, Finset.mem_univ, true_and] at hF hmax
  exact ⟨F, hF, hmax⟩

omit [Fintype ι] [LinearOrder K] [IsStrictOrderedRing K] in
theorem sum_exchange {F : Finset ι} {i j : ι} (hi : i ∈ F) (hj : j ∉ F.erase i) :
    (insert j (F.erase i)).sum weight = F.sum weight - weight i + weight j := by
  rw [Finset.sum_insert hj, Finset.sum_erase_eq_sub hi, add_comm]

omit [Fintype ι] in
/-- An edge whose ends are joined by strictly heavier edges is in no maximum spanning forest. -/
theorem IsMaxSpanningForest.not_mem {F : Finset ι} (h : IsMaxSpanningForest ends weight F) {i : ι}
    (hl : LinkedBy ends {j | weight i < weight j} (ends i).1 (ends i).2) : i ∉ F := by
  intro hi
  -- some heavier edge reconnects what `i` connected
  have : ∃ j, weight i < weight j ∧ ¬ LinkedBy ends {k | k ∈ F ∧ k ≠ i} (ends j).1 (ends j).2 := by
    by_contra hcon
    push Not at hcon
    exact h.forest.acyclic i hi (hl.bind hcon)
  obtain ⟨j, hw, hj⟩ := this
  have hjn : j ∉ F.erase i := fun hm =>
    hj (LinkedBy.of_mem ⟨Finset.mem_of_mem_erase hm, Finset.ne_of_mem_erase hm⟩)
  have := h.max _ (h.forest.exchange hi hj)
  rw [sum_exchange hi hjn] at this
  linarith

/-- An edge whose ends are not joined by strictly heavier edges is in some maximum spanning forest. -/
theorem exists_mem_maxSpanningForest {i : ι}
    (hl : ¬ LinkedBy ends {j | weight i < weight j} (ends i).1 (ends i).2) :
    ∃ F, IsMaxSpanningForest ends weight F ∧ i ∈ F := by
  classical
  obtain ⟨F, hF⟩ := exists_maxSpanningForest ends weight
  by_cases hi : i ∈ F
  · exact ⟨F, hF, hi⟩
  -- a smallest part of `F` joining the ends of `i` and containing all the heavier edges of `F`
  let H : Finset ι := F.filter (fun j => weight i < weight j)
  let S : Finset (Finset ι) := F.powerset.filter (fun D => H ⊆ D ∧ LinkedBy ends D (ends i).1 (ends i).2)
  obtain ⟨D, hD, hmin⟩ := Finset.exists_min_image S Finset.card
    ⟨F, by simp [S, H, Finset.filter_subset, hF.forest.spans i]⟩
  simp only [S, Finset.mem_filter, Finset.mem_powerset] at hD hmin
  obtain ⟨hDF, hHD, hDl⟩ := hD
  have hne : ∃ j ∈ D, j ∉ H := by
    by_contra hcon
    push Not at hcon
    refine hl (hDl.mono (fun j hj => ?_))
    exact (Finset.mem_filter.1 (hcon j hj)).2
  obtain ⟨j, hjD, hjH⟩ := hne
  have hjF := hDF hjD
  have hjw : weight j ≤ weight i := by
    by_contra hc
    exact hjH (Finset.mem_filter.2 ⟨hjF, not_le.1 hc⟩)
  have hDj : ¬ LinkedBy ends {k | k ∈ D ∧ k ≠ j} (ends i).1 (ends i).2 := by
    intro hc
    have hcoe : ((D.erase j : Finset ι) : Set ι) = {k | k ∈ D ∧ k ≠ j} := by
      ext k; simp [and_comm]
    have := hmin (D.erase j) ⟨(Finset.erase_subset _ _).trans hDF,
      fun k hk => Finset.mem_erase.2 ⟨fun e => hjH (e ▸ hk), hHD hk⟩, by rw [hcoe]; exact hc⟩
    rw [Finset.card_erase_of_mem hjD] at this
    have := Finset.card_pos.2 ⟨j, hjD⟩
    omega
  have hFj : ¬ LinkedBy ends {k | k ∈ F ∧ k ≠ j} (ends i).1 (ends i).2 := by
    intro hc
    refine hF.forest.acyclic j hjF ?_
    have hDl' : LinkedBy ends (insert j {k | k ∈ D ∧ k ≠ j}) (ends i).1 (ends i).2 := by
      rw [insert_minus hjD]; exact hDl
    exact hDl'.ends_of_needed hDj (fun k hk => ⟨hDF hk.1, hk.2⟩) hc
  refine ⟨_, ⟨hF.forest.exchange hjF hFj, fun F' hF' => ?_⟩, Finset.mem_insert_self _ _⟩
  have hin : i ∉ F.erase j := fun hm => hi (Finset.mem_of_mem_erase hm)
  rw [sum_exchange hjF hin]
  have := hF.max F' hF'
  linarith

/-- The edges of the maximum spanning forests. -/
theorem mem_some_maxSpanningForest_iff {i : ι} :
    (∃ F, IsMaxSpanningForest ends weight F ∧ i ∈ F) ↔
      ¬ LinkedBy ends {j | weight i < weight j} (ends i).1 (ends i).2 :=
  ⟨fun ⟨_, hF, hi⟩ hl => hF.not_mem hl hi, exists_mem_maxSpanningForest⟩

end
end Pelote
