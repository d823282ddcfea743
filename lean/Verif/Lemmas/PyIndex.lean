import Verif.Lemmas.Sort

set_option linter.unusedSectionVars false
namespace Pelote
variable {α : Type}

/-- Indexing as Python does it: non-negative indices count from the start, negative ones from the end,
and any other index raises `IndexError`. -/
theorem seqGet_ok_iff (a : List α) (i : Int) (v : α) :
    seqGet a i = .ok v ↔
      (∃ n : Nat, i = n ∧ a[n]? = some v) ∨ (∃ n : Nat, i = -(n + 1) ∧ a.reverse[n]? = some v) := by
  unfold seqGet pyIndex
  rcases i with n | n
  · have h0 : (0 : Int) ≤ Int.ofNat n := by simp
    rw [if_pos h0]
    by_cases h : Int.ofNat n < (a.length : Int)
    · have h' : n < a.length := by simpa using h
      rw [if_pos h]
      constructor
      · intro e
        left
        refine ⟨n, rfl, ?_⟩
        simpa [h'] using e
      · rintro (⟨m, e, hm⟩ | ⟨m, e, _⟩)
        · obtain rfl : n = m := by simpa using e
          simpa [h'] using hm
        · simp at e; omega
    · have h' : a.length ≤ n := by simpa using h
      rw [if_neg h]
      simp only [reduceCtorEq, false_iff]
      rintro (⟨m, e, hm⟩ | ⟨m, e, _⟩)
      · obtain rfl : n = m := by simpa using e
        simp [h'] at hm
      · simp at e; omega
  · have h0 : ¬ (0 : Int) ≤ Int.negSucc n := by simp [Int.negSucc_not_nonneg]
    rw [if_neg h0]
    have hn : Int.negSucc n = -((n : Int) + 1) := by simp [Int.negSucc_eq]
    rw [hn]
    by_cases h : 0 ≤ -((n : Int) + 1) + a.length
    · have h' : n < a.length := by omega
      rw [if_pos h]
      have ht : (-((n : Int) + 1) + a.length).toNat = a.length - 1 - n := by omega
      have hr : a.reverse[n]? = a[a.length - 1 - n]? := List.getElem?_reverse h'
      have hl : a.length - 1 - n < a.length := by omega
      simp only [ht]
      constructor
      · intro e
        right
        refine ⟨n, rfl, ?_⟩
        rw [hr]
        simpa [hl] using e
      · rintro (⟨m, e, hm⟩ | ⟨m, e, hm⟩)
        · omega
        · obtain rfl : n = m := by omega
          rw [hr] at hm
          simpa [hl] using hm
    · rw [if_neg h]
      simp only [reduceCtorEq, false_iff]
      rintro (⟨m, e, hm⟩ | ⟨m, e, hm⟩)
      · omega
      · obtain rfl : n = m := by omega
        rw [List.getElem?_eq_none (by simp; omega)] at hm
        simp at hm

theorem pyIndex_ok_iff (n : Nat) (i : Int) (j : Nat) :
    pyIndex n i = .ok j ↔ j < n ∧ (i = j ∨ i = (j : Int) - n) := by
  unfold pyIndex
  split <;> split <;> simp <;> omega

theorem pyIndex_error_iff (n : Nat) (i : Int) (e : PyErr) :
    pyIndex n i = .error e ↔ e = .indexError ∧ ∀ j < n, i ≠ j ∧ i ≠ (j : Int) - n := by
  unfold pyIndex
  split <;> rename_i h0 <;> split <;> rename_i h1
  · simp
    intro _
    exact ⟨i.toNat, by omega, by omega⟩
  · simp only [Except.error.injEq]
    constructor
    · rintro rfl
      exact ⟨rfl, fun j hj => by omega⟩
    · rintro ⟨rfl, _⟩; rfl
  · simp
    intro _
    refine ⟨(i + n).toNat, by omega, by omega⟩
  · simp only [Except.error.injEq]
    constructor
    · rintro rfl
      exact ⟨rfl, fun j hj => by omega⟩
    · rintro ⟨rfl, _⟩; rfl

/-- Assignment changes the cell that indexing reads. -/
theorem seqSet_ok_iff (a b : List α) (i : Int) (v : α) :
    seqSet a i v = .ok b ↔ ∃ j < a.length, (i = j ∨ i = (j : Int) - a.length) ∧ b = a.set j v := by
  unfold seqSet
  rcases h : pyIndex a.length i with e | j
  · simp only [reduceCtorEq, false_iff, not_exists, not_and]
    intro j hj hi
    have := ((pyIndex_error_iff _ _ _).1 h).2 j hj
    omega
  · have hj := (pyIndex_ok_iff _ _ _).1 h
    simp only [Except.ok.injEq]
    constructor
    · rintro rfl
      exact ⟨j, hj.1, hj.2, rfl⟩
    · rintro ⟨k, hk, hi, rfl⟩
      obtain rfl : j = k := by omega
      rfl

example : seqGet [10, 20, 30] (-1) = .ok 30 ∧ seqGet [10, 20, 30] (-4) = .error .indexError := by decide

end Pelote
