import Verif.Spec.Register
import Verif.Lemmas.Dict
import Mathlib.Data.List.Basic
import Mathlib.Data.Finset.Card

/-! The register holds the keys shown since the last clear, numbered in order. -/
namespace Pelote
variable {α : Type} [DecidableEq α]

/-- Invariant of the register. -/
structure IdRegister.Inv (r : IdRegister α) (seen : List α) : Prop where
  nodup : seen.Nodup
  counter : r.counter = seen.length
  keys : r.index.keys = seen
  get : ∀ k ∈ seen, r.index.get? k = some (seen.idxOf k)

theorem IdRegister.Inv.init : (IdRegister.init : IdRegister α).Inv [] :=
  ⟨.nil, rfl, rfl, by simp⟩

theorem IdRegister.Inv.clear (r : IdRegister α) : r.clear.Inv [] :=
  ⟨.nil, rfl, rfl, by simp⟩

theorem nodup_showKey {seen : List α} (h : seen.Nodup) (k : α) : (showKey seen k).Nodup := by
  unfold showKey; split
  · exact h
  · rename_i hk
    rw [List.nodup_append]
    refine ⟨h, by simp, ?_⟩
    rintro a ha b hb rfl
    exact hk (by simp at hb; exact hb ▸ ha)

theorem mem_showKey {seen : List α} {k x : α} : x ∈ showKey seen k ↔ x ∈ seen ∨ x = k := by
  unfold showKey; split
  · rename_i h; constructor
    · exact .inl
    · rintro (h' | rfl) <;> assumption
  · simp

theorem idxOf_showKey {seen : List α} {k x : α} (hx : x ∈ seen) :
    (showKey seen k).idxOf x = seen.idxOf x := by
  unfold showKey; split
  · rfl
  · exact List.idxOf_append_of_mem hx

theorem IdRegister.Inv.lookup {r : IdRegister α} {seen : List α} (h : r.Inv seen) (k : α) :
    (r.lookup k).1 = (showKey seen k).idxOf k ∧ (r.lookup k).2.Inv (showKey seen k) := by
  unfold IdRegister.lookup
  by_cases hk : k ∈ seen
  · rw [h.get k hk]
    rw [showKey, if_pos hk]
    exact ⟨rfl, h⟩
  · have hn : r.index.get? k = none := by
      rw [Dict.get?_eq_none_iff, h.keys]; exact hk
    rw [hn]
    have hi : (showKey seen k).idxOf k = seen.length := by
      rw [showKey, if_neg hk, List.idxOf_append_of_notMem hk]; simp
    refine ⟨h.counter.trans hi.symm, nodup_showKey h.nodup k, ?_, ?_, ?_⟩
    · simp [showKey, hk, h.counter]
    · simp only [Dict.keys_set, h.keys, hk, if_false, showKey]
    · intro x hx
      simp only [Dict.get?_set]
      split
      · rename_i e; subst e; rw [hi, h.counter]
      · rename_i e
        have hx' : x ∈ seen := by
          rcases mem_showKey.1 hx with h' | h'
          · exact h'
          · exact absurd h'.symm e
        rw [idxOf_showKey hx', h.get x hx']

theorem IdRegister.Inv.run {r : IdRegister α} {seen : List α} (h : r.Inv seen) (ops : List (IdOp α)) :
    (r.run ops).2 = idExpected seen ops ∧ (r.run ops).1.Inv (ops.foldl IdOp.next seen) := by
  induction ops generalizing r seen with
  | nil => exact ⟨rfl, h⟩
  | cons op ops ih =>
    cases op with
    | lookup k =>
      obtain ⟨h1, h2⟩ := h.lookup k
      obtain ⟨i1, i2⟩ := ih h2
      refine ⟨?_, i2⟩
      simp only [IdRegister.run, IdRegister.step, idExpected]
      rw [h1, i1]
    | clear =>
      obtain ⟨i1, i2⟩ := ih (IdRegister.Inv.clear r)
      refine ⟨?_, i2⟩
      simp only [IdRegister.run, IdRegister.step, idExpected]
      rw [i1]

theorem mem_foldl_showKey {keys seen : List α} {x : α} :
    x ∈ keys.foldl showKey seen ↔ x ∈ seen ∨ x ∈ keys := by
  induction keys generalizing seen with
  | nil => simp
  | cons k keys ih => rw [List.foldl_cons, ih, mem_showKey, List.mem_cons, or_assoc]

theorem nodup_foldl_showKey {seen : List α} (h : seen.Nodup) (keys : List α) :
    (keys.foldl showKey seen).Nodup := by
  induction keys generalizing seen with
  | nil => exact h
  | cons k keys ih => exact ih (nodup_showKey h k)

theorem idxOf_foldl_showKey {keys seen : List α} {x : α} (hx : x ∈ seen) :
    (keys.foldl showKey seen).idxOf x = seen.idxOf x := by
  induction keys generalizing seen with
  | nil => rfl
  | cons k keys ih => rw [List.foldl_cons, ih (mem_showKey.2 (.inl hx)), idxOf_showKey hx]

theorem idExpected_lookups (seen keys : List α) :
    idExpected seen (keys.map .lookup) = keys.map (fun k => some ((keys.foldl showKey seen).idxOf k)) := by
  induction keys generalizing seen with
  | nil => rfl
  | cons k keys ih =>
    simp only [List.map_cons, idExpected, List.foldl_cons]
    rw [ih, idxOf_foldl_showKey (mem_showKey.2 (.inr rfl))]

theorem length_foldl_showKey (keys : List α) :
    (keys.foldl showKey []).length = keys.toFinset.card := by
  rw [← List.toFinset_card_of_nodup (nodup_foldl_showKey .nil keys)]
  congr 1
  ext x
  simp [mem_foldl_showKey]

end Pelote
