import Mathlib.Data.List.Basic
import Mathlib.Data.List.Nodup
import Mathlib.Data.List.Perm.Basic

/-! Grouping a list by a key, keys in the order of a given list. -/
namespace Pelote
variable {α V : Type} [DecidableEq V]

/-- Elements of `l` grouped by key, keys taken in the order of `ns`. -/
def bucketSort (ns : List V) (key : α → V) (l : List α) : List α :=
  ns.flatMap (fun n => l.filter (fun a => decide (key a = n)))

theorem bucketSort_nil (key : α → V) (l : List α) : bucketSort [] key l = [] := rfl

theorem bucketSort_cons (n : V) (ns : List V) (key : α → V) (l : List α) :
    bucketSort (n :: ns) key l = l.filter (fun a => decide (key a = n)) ++ bucketSort ns key l := rfl

theorem mem_bucketSort {ns : List V} {key : α → V} {l : List α} {a : α} :
    a ∈ bucketSort ns key l ↔ a ∈ l ∧ key a ∈ ns := by
  simp [bucketSort, and_comm]

/-- Elements whose key was already dealt with can be dropped. -/
theorem bucketSort_filter_ne {ns : List V} {key : α → V} {l : List α} {n : V} (hn : n ∉ ns) :
    bucketSort ns key (l.filter (fun a => ¬ key a = n)) = bucketSort ns key l := by
  unfold bucketSort
  apply List.flatMap_congr
  intro m hm
  rw [List.filter_filter]
  apply List.filter_congr
  intro a _
  by_cases h : key a = m
  · have : m ≠ n := fun e => hn (e ▸ hm)
    simp [h, this]
  · simp [h]

/-- Grouping permutes. -/
theorem bucketSort_perm {ns : List V} (hn : ns.Nodup) {key : α → V} {l : List α}
    (h : ∀ a ∈ l, key a ∈ ns) : (bucketSort ns key l).Perm l := by
  induction ns generalizing l with
  | nil =>
    have : l = [] := List.eq_nil_iff_forall_not_mem.2 fun a ha => by simpa using h a ha
    subst this; exact .refl _
  | cons n ns ih =>
    rw [List.nodup_cons] at hn
    rw [bucketSort_cons, ← bucketSort_filter_ne hn.1]
    have h' : ∀ a ∈ l.filter (fun a => ¬ key a = n), key a ∈ ns := by
      intro a ha
      simp only [List.mem_filter, decide_eq_true_eq] at ha
      rcases List.mem_cons.1 (h a ha.1) with e | e
      · exact absurd e ha.2
      · exact e
    refine ((ih hn.2 h').append_left _).trans ?_
    have := List.filter_append_perm (fun a => decide (key a = n)) l
    simpa using this

/-- Key positions are non-decreasing in a grouped list. -/
theorem bucketSort_sorted {ns : List V} (hn : ns.Nodup) (key : α → V) (l : List α) :
    (bucketSort ns key l).Pairwise (fun a b => ns.idxOf (key a) ≤ ns.idxOf (key b)) := by
  induction ns with
  | nil => exact .nil
  | cons n ns ih =>
    rw [List.nodup_cons] at hn
    rw [bucketSort_cons, List.pairwise_append]
    refine ⟨?_, ?_, ?_⟩
    · apply List.pairwise_of_forall_mem_list
      intro a ha b hb
      simp only [List.mem_filter, decide_eq_true_eq] at ha hb
      simp [ha.2, hb.2]
    · refine (ih hn.2).imp_of_mem ?_
      intro a b ha hb hab
      rw [mem_bucketSort] at ha hb
      have h1 : key a ≠ n := fun e => hn.1 (e ▸ ha.2)
      have h2 : key b ≠ n := fun e => hn.1 (e ▸ hb.2)
      rw [List.idxOf_cons_ne _ h1.symm, List.idxOf_cons_ne _ h2.symm]
      omega
    · intro a ha b _
      simp only [List.mem_filter, decide_eq_true_eq] at ha
      simp [ha.2]

/-- A list whose key positions are non-decreasing is already grouped. -/
theorem bucketSort_eq_self {ns : List V} (hn : ns.Nodup) {key : α → V} {l : List α}
    (h : ∀ a ∈ l, key a ∈ ns)
    (hs : l.Pairwise (fun a b => ns.idxOf (key a) ≤ ns.idxOf (key b))) :
    bucketSort ns key l = l := by
  induction ns generalizing l with
  | nil =>
    have : l = [] := List.eq_nil_iff_forall_not_mem.2 fun a ha => by simpa using h a ha
    subst this; rfl
  | cons n ns ih =>
    rw [List.nodup_cons] at hn
    rw [bucketSort_cons, ← bucketSort_filter_ne hn.1, ih hn.2]
    · -- the elements keyed by the first node come first
      clear ih h
      induction l with
      | nil => rfl
      | cons a l ih =>
        rw [List.pairwise_cons] at hs
        by_cases e : key a = n
        · simp only [List.filter_cons, e, decide_true, if_true, not_true, decide_false,
            Bool.false_eq_true, if_false, List.cons_append]
          rw [ih hs.2]
        · have hall : ∀ b ∈ l, ¬ key b = n := by
            intro b hb e'
            have := hs.1 b hb
            rw [e', List.idxOf_cons_self, List.idxOf_cons_ne _ (Ne.symm e)] at this
            omega
          have h1 : (a :: l).filter (fun a => decide (key a = n)) = [] := by
            rw [List.filter_eq_nil_iff]
            intro b hb
            rcases List.mem_cons.1 hb with rfl | hb
            · simpa using e
            · simpa using hall b hb
          have h2 : (a :: l).filter (fun a => ¬ key a = n) = a :: l := by
            rw [List.filter_eq_self]
            intro b hb
            rcases List.mem_cons.1 hb with rfl | hb
            · simpa using e
            · simpa using hall b hb
          rw [h1, h2]; rfl
    · intro a ha
      simp only [List.mem_filter, decide_eq_true_eq] at ha
      rcases List.mem_cons.1 (h a ha.1) with e | e
      · exact absurd e ha.2
      · exact e
    · refine (hs.sublist List.filter_sublist).imp_of_mem ?_
      intro a b ha hb hab
      simp only [List.mem_filter, decide_eq_true_eq] at ha hb
      rw [List.idxOf_cons_ne _ (Ne.symm ha.2), List.idxOf_cons_ne _ (Ne.symm hb.2)] at hab
      omega

/-- Grouping commutes with filtering. -/
theorem bucketSort_filter {ns : List V} {key : α → V} {l : List α} (p : α → Bool) :
    bucketSort ns key (l.filter p) = (bucketSort ns key l).filter p := by
  unfold bucketSort
  rw [List.filter_flatMap]
  apply List.flatMap_congr
  intro n _
  rw [List.filter_filter, List.filter_filter]
  apply List.filter_congr
  intro a _
  exact Bool.and_comm _ _

/-- Keys without elements do not matter. -/
theorem bucketSort_filter_keys {ns : List V} {key : α → V} {l : List α} (p : V → Bool)
    (h : ∀ a ∈ l, p (key a) = true) : bucketSort (ns.filter p) key l = bucketSort ns key l := by
  induction ns with
  | nil => rfl
  | cons n ns ih =>
    rw [List.filter_cons]
    split
    · rw [bucketSort_cons, bucketSort_cons, ih]
    · rename_i hp
      rw [bucketSort_cons, ih]
      have : l.filter (fun a => decide (key a = n)) = [] := by
        rw [List.filter_eq_nil_iff]
        intro a ha e
        simp only [decide_eq_true_eq] at e
        exact hp (e ▸ h a ha)
      rw [this]; rfl

/-- Positions in a filtered list compare as in the list. -/
theorem idxOf_filter_le {ns : List V} (p : V → Bool) {a b : V} (ha : p a = true) (hb : p b = true)
    (hab : a ∈ ns ∨ b ∈ ns) :
    (ns.filter p).idxOf a ≤ (ns.filter p).idxOf b ↔ ns.idxOf a ≤ ns.idxOf b := by
  induction ns with
  | nil => simp
  | cons n ns ih =>
    rw [List.filter_cons]
    by_cases h1 : a = n
    · subst h1; simp [ha]
    · by_cases h2 : b = n
      · subst h2
        simp only [hb, if_true, List.idxOf_cons_self, List.idxOf_cons_ne _ (Ne.symm h1)]
        omega
      · have hab' : a ∈ ns ∨ b ∈ ns := by
          rcases hab with h | h
          · exact .inl ((List.mem_cons.1 h).resolve_left h1)
          · exact .inr ((List.mem_cons.1 h).resolve_left h2)
        rw [List.idxOf_cons_ne _ (Ne.symm h1), List.idxOf_cons_ne _ (Ne.symm h2)]
        split
        · rw [List.idxOf_cons_ne _ (Ne.symm h1), List.idxOf_cons_ne _ (Ne.symm h2)]
          have := ih hab'
          omega
        · have := ih hab'
          omega

end Pelote
