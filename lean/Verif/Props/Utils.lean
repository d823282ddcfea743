import Verif.Lemmas.Sort
import Mathlib.Data.Finset.Card
import Mathlib.Data.List.DropRight

/-! C08–C11: counting sort, intersection size, mixed types. -/
namespace Pelote
variable {α : Type}

/-! ### C08, C09: counting sort -/

/-- C08, `reverse=False`.  Every non-empty list comes out sorted by key, with ties in reversed input
order: the result is Python's `sorted` of the reversed list. -/
theorem countingSort_ascending {ulongMax : Nat} (hu : 2^32 - 1 ≤ ulongMax) (key : α → Int) (items : List α)
    (hne : items ≠ []) (hlen : items.length < 2^64) :
    ∃ out, countingSort ulongMax key false items = .ok (out.map some) ∧ IsSorted key items.reverse out := by
  obtain ⟨S, kn, hS, hle, he⟩ := countingSort_eq hu key false items hne hlen
  refine ⟨_, he, ?_⟩
  have hmem : ∀ a ∈ items.reverse, kn a ∈ List.range S := fun a ha =>
    List.mem_range.2 (hS a (List.mem_reverse.1 ha))
  have hp := bucketSort_perm (key := kn) (l := items.reverse) List.nodup_range hmem
  have hin : ∀ a ∈ bucketSort (List.range S) kn items.reverse, a ∈ items := fun a ha =>
    List.mem_reverse.1 (hp.mem_iff.1 ha)
  refine ⟨hp, ?_, ?_⟩
  · refine (bucketSort_sorted List.nodup_range kn items.reverse).imp_of_mem ?_
    intro a b ha hb hab
    have ha' := hin a ha
    have hb' := hin b hb
    rw [idxOf_range (hS a ha'), idxOf_range (hS b hb')] at hab
    exact (hle a ha' b hb').1 hab
  · intro k
    by_cases hk : ∃ x ∈ items, key x = k
    · obtain ⟨x, hx, rfl⟩ := hk
      have h1 := bucketSort_stable List.nodup_range kn items.reverse (kn x) (List.mem_range.2 (hS x hx))
      have heq : ∀ a ∈ items, decide (key a = key x) = decide (kn a = kn x) := by
        intro a ha
        have h2 := hle a ha x hx
        have h3 := hle x hx a ha
        rw [decide_eq_decide]
        omega
      simp only [Bool.false_eq_true, if_false]
      rw [List.filter_congr (fun a ha => heq a (hin a ha)), h1]
      exact (List.filter_congr (fun a ha => heq a (List.mem_reverse.1 ha))).symm
    · have hno : ∀ a ∈ items, ¬ decide (key a = k) = true := by
        intro a ha h
        exact hk ⟨a, ha, by simpa using h⟩
      simp only [Bool.false_eq_true, if_false]
      rw [List.filter_eq_nil_iff.2 (fun a ha => hno a (hin a ha)),
        List.filter_eq_nil_iff.2 (fun a ha => hno a (List.mem_reverse.1 ha))]

/-- C08, `reverse=True`.  Every non-empty list comes out as Python's `sorted(items, key=key,
reverse=True)`: non-increasing keys, ties in input order. -/
theorem countingSort_descending {ulongMax : Nat} (hu : 2^32 - 1 ≤ ulongMax) (key : α → Int) (items : List α)
    (hne : items ≠ []) (hlen : items.length < 2^64) :
    ∃ out, countingSort ulongMax key true items = .ok (out.map some) ∧ IsSortedRev key items out := by
  obtain ⟨S, kn, hS, hle, he⟩ := countingSort_eq hu key true items hne hlen
  refine ⟨_, he, ?_⟩
  simp only [if_true]
  have hmem : ∀ a ∈ items.reverse, kn a ∈ List.range S := fun a ha =>
    List.mem_range.2 (hS a (List.mem_reverse.1 ha))
  have hp := bucketSort_perm (key := kn) (l := items.reverse) List.nodup_range hmem
  have hin : ∀ a ∈ bucketSort (List.range S) kn items.reverse, a ∈ items := fun a ha =>
    List.mem_reverse.1 (hp.mem_iff.1 ha)
  refine ⟨(List.reverse_perm _).trans (hp.trans (List.reverse_perm _)), ?_, ?_⟩
  · rw [List.pairwise_reverse]
    refine (bucketSort_sorted List.nodup_range kn items.reverse).imp_of_mem ?_
    intro a b ha hb hab
    have ha' := hin a ha
    have hb' := hin b hb
    rw [idxOf_range (hS a ha'), idxOf_range (hS b hb')] at hab
    exact (hle a ha' b hb').1 hab
  · intro k
    rw [List.filter_reverse]
    by_cases hk : ∃ x ∈ items, key x = k
    · obtain ⟨x, hx, rfl⟩ := hk
      have h1 := bucketSort_stable List.nodup_range kn items.reverse (kn x) (List.mem_range.2 (hS x hx))
      have heq : ∀ a ∈ items, decide (key a = key x) = decide (kn a = kn x) := by
        intro a ha
        have h2 := hle a ha x hx
        have h3 := hle x hx a ha
        rw [decide_eq_decide]
        omega
      rw [List.filter_congr (fun a ha => heq a (hin a ha)), h1, List.filter_reverse, List.reverse_reverse]
      exact (List.filter_congr heq).symm
    · have hno : ∀ a ∈ items, ¬ decide (key a = k) = true := by
        intro a ha h
        exact hk ⟨a, ha, by simpa using h⟩
      rw [List.filter_eq_nil_iff.2 (fun a ha => hno a (hin a ha)), List.filter_eq_nil_iff.2 hno]
      rfl

/-- The specification leaves no choice: two results of a stable sort of one list are equal. -/
theorem sorted_unique {key : α → Int} {xs a b : List α} (ha : IsSorted key xs a) (hb : IsSorted key xs b) :
    a = b := isSorted_unique ha hb

example : countingSort (2^64-1) (fun p : Int × Nat => p.1) false [(3, 0), (-2, 1), (3, 2), (0, 3)] =
    .ok [some (-2, 1), some (0, 3), some (3, 2), some (3, 0)] := by decide +kernel
example : countingSort (2^64-1) (fun p : Int × Nat => p.1) true [(3, 0), (-2, 1), (3, 2), (0, 3)] =
    .ok [some (3, 0), some (3, 2), some (0, 3), some (-2, 1)] := by decide +kernel

/-- C09 is false on the empty list, whatever the flags. -/
theorem countingSort_empty (ulongMax : Nat) (key : α → Int) (reverse : Bool) :
    ∃ tag, countingSort ulongMax key reverse ([] : List α) = .error (.typeError tag) := ⟨_, rfl⟩

/-- C09 is false on ties: with `reverse=False` the result need not be Python's `sorted(items, key=key)`. -/
theorem countingSort_unstable :
    ∃ (items : List (Int × Nat)) (out : List (Int × Nat)),
      countingSort (2^64-1) Prod.fst false items = .ok (out.map some) ∧ ¬ IsSorted Prod.fst items out := by
  refine ⟨[(0, 0), (0, 1)], [(0, 1), (0, 0)], by decide +kernel, ?_⟩
  intro h
  have := h.stable 0
  revert this
  decide

/-- C09, the true part: on a non-empty list without ties, or with `reverse=True`, `counting_sort` is
Python's `sorted`.  Missing: the empty list and ties of ascending sorts (refuted above). -/
theorem countingSort_sorted_partial {ulongMax : Nat} (hu : 2^32 - 1 ≤ ulongMax) (key : α → Int) (items : List α)
    (hne : items ≠ []) (hlen : items.length < 2^64) (hinj : (items.map key).Nodup) :
    ∃ out, countingSort ulongMax key false items = .ok (out.map some) ∧ IsSorted key items out := by
  obtain ⟨out, he, h⟩ := countingSort_ascending hu key items hne hlen
  refine ⟨out, he, h.perm.trans (List.reverse_perm _), h.sorted, ?_⟩
  intro k
  rw [h.stable k, List.filter_reverse]
  have hle : (items.filter (fun a => decide (key a = k))).length ≤ 1 := by
    have h1 : ((items.filter (fun a => decide (key a = k))).map key).Nodup :=
      hinj.sublist (List.filter_sublist.map key)
    have h2 : ∀ x ∈ (items.filter (fun a => decide (key a = k))).map key, x = k := by
      intro x hx
      obtain ⟨a, ha, rfl⟩ := List.mem_map.1 hx
      simpa using (List.mem_filter.1 ha).2
    rw [← List.length_map (f := key)]
    by_contra hlt
    push Not at hlt
    have h3 := List.pairwise_iff_getElem.1 h1 0 1 (by omega) (by omega) (by omega)
    exact h3 ((h2 _ (List.getElem_mem _)).trans (h2 _ (List.getElem_mem _)).symm)
  match hf : items.filter (fun a => decide (key a = k)), hle with
  | [], _ => rfl
  | [a], _ => rfl
  | a :: b :: l, h => simp at h

example : (([3, -1, 2] : List Int).map id).Nodup ∧ ([3, -1, 2] : List Int) ≠ [] := by decide

/-! ### C10: intersection size -/

theorem countIn_eq [DecidableEq α] {A B : List α} (hA : A.Nodup) :
    countIn A B = (A.toFinset ∩ B.toFinset).card := by
  have h1 : countIn A B = (A.filter (fun x => decide (x ∈ B))).length := by
    unfold countIn
    suffices H : ∀ n, A.foldl (fun i item => if item ∈ B then i + 1 else i) n =
        n + (A.filter (fun x => decide (x ∈ B))).length by
      simpa using H 0
    clear hA
    induction A with
    | nil => intro n; simp
    | cons a A ih =>
      intro n
      rw [List.foldl_cons, ih, List.filter_cons]
      by_cases h : a ∈ B
      · simp [h]; omega
      · simp [h]
  rw [h1, ← List.toFinset_card_of_nodup (hA.filter _)]
  congr 1
  ext x
  simp

/-- C10.  For two sets (duplicate-free lists), in whichever order and whether or not the arguments are
one object, the result is the number of common elements. -/
theorem fastIntersectionSize_eq [DecidableEq α] (same : Bool) (A B : List α) (hA : A.Nodup) (hB : B.Nodup)
    (hsame : same = true → A = B) :
    fastIntersectionSize same A B = (A.toFinset ∩ B.toFinset).card := by
  unfold fastIntersectionSize
  split
  rename_i A' B' hAB
  have key : ∀ A' B' : List α, A'.Nodup → B'.Nodup → (same = true → A' = B') →
      (if A'.isEmpty then 0 else if same then A'.length else countIn A' B') =
        (A'.toFinset ∩ B'.toFinset).card := by
    intro A' B' hA' hB' hs
    by_cases h0 : A'.isEmpty = true
    · rw [if_pos h0]
      rw [List.isEmpty_iff.1 h0]; simp
    · rw [if_neg h0]
      by_cases h1 : same = true
      · rw [if_pos h1, ← hs h1, Finset.inter_self, List.toFinset_card_of_nodup hA']
      · rw [if_neg h1, countIn_eq hA']
  split at hAB
  · cases hAB
    rw [key _ _ hB hA (fun h => (hsame h).symm), Finset.inter_comm]
  · cases hAB
    exact key _ _ hA hB hsame

/-- C10.  The result does not depend on the order of the arguments. -/
theorem fastIntersectionSize_comm [DecidableEq α] (same : Bool) (A B : List α) (hA : A.Nodup) (hB : B.Nodup)
    (hsame : same = true → A = B) : fastIntersectionSize same A B = fastIntersectionSize same B A := by
  rw [fastIntersectionSize_eq same A B hA hB hsame, fastIntersectionSize_eq same B A hB hA (fun h => (hsame h).symm),
    Finset.inter_comm]

example : fastIntersectionSize false [1, 2, 3, 4] [4, 5, 2] = 2 ∧ fastIntersectionSize true [1, 2] [1, 2] = 2 := by
  decide

/-! ### C11: mixed types -/

/-- C11.  `has_mixed_types` is true exactly when two items have different types. -/
theorem hasMixedTypes_iff {τ : Type} [DecidableEq τ] (type : α → τ) (xs : List α) :
    hasMixedTypes type xs = true ↔ ∃ x ∈ xs, ∃ y ∈ xs, type x ≠ type y := by
  cases xs with
  | nil => simp [hasMixedTypes]
  | cons x xs =>
    simp only [hasMixedTypes, List.any_eq_true, decide_eq_true_eq]
    constructor
    · rintro ⟨y, hy, hne⟩
      exact ⟨y, by simp [hy], x, by simp, hne⟩
    · rintro ⟨a, ha, b, hb, hne⟩
      by_cases h : type a = type x
      · rcases List.mem_cons.1 hb with rfl | hb
        · exact absurd h hne
        · exact ⟨b, hb, fun e => hne (h.trans e.symm)⟩
      · rcases List.mem_cons.1 ha with rfl | ha
        · exact absurd rfl h
        · exact ⟨a, ha, h⟩

example : hasMixedTypes PyKey.type [.int 1, .str "a"] = true ∧ hasMixedTypes PyKey.type [.int 1, .int 2] = false := by
  decide

end Pelote
