import Verif.Spec.Sort
import Mathlib.Data.List.Sort

/-! Python's `sorted`: stable, also with `reverse=True` (ties keep the input order). -/
namespace Pelote
variable {α κ : Type} [LinearOrder κ]

/-- `sorted(xs, key=key, reverse=True)` for keys that can be compared. -/
def pySortedRev (key : α → κ) (xs : List α) : List α := xs.insertionSort (fun a b => key b ≤ key a)

/-- `sorted(xs, key=key)` for keys that can be compared. -/
def pySorted (key : α → κ) (xs : List α) : List α := xs.insertionSort (fun a b => key a ≤ key b)

theorem filter_orderedInsert (r : α → α → Prop) [DecidableRel r] (key : α → κ) (hr : ∀ a b, key a = key b → r a b)
    (k : κ) (a : α) (l : List α) :
    (l.orderedInsert r a).filter (fun x => key x = k) = (a :: l).filter (fun x => key x = k) := by
  induction l with
  | nil => rfl
  | cons b l ih =>
    rw [List.orderedInsert_cons]
    split
    · rfl
    · rename_i hab
      rw [List.filter_cons, ih]
      by_cases hb : key b = k
      · have ha : ¬ key a = k := fun ha => hab (hr a b (ha.trans hb.symm))
        simp [ha, hb]
      · simp [List.filter_cons, hb]

theorem filter_insertionSort (r : α → α → Prop) [DecidableRel r] (key : α → κ)
    (hr : ∀ a b, key a = key b → r a b) (k : κ) (l : List α) :
    (l.insertionSort r).filter (fun x => key x = k) = l.filter (fun x => key x = k) := by
  induction l with
  | nil => rfl
  | cons a l ih =>
    rw [List.insertionSort_cons, filter_orderedInsert r key hr, List.filter_cons, List.filter_cons, ih]

theorem pySortedRev_spec (key : α → κ) (xs : List α) : IsSortedRev key xs (pySortedRev key xs) where
  perm := List.perm_insertionSort _ _
  sorted := by
    have h1 : Std.Total (fun a b : α => key b ≤ key a) := ⟨fun a b => le_total _ _⟩
    have h2 : IsTrans α (fun a b : α => key b ≤ key a) := ⟨fun a b c h h' => h'.trans h⟩
    exact List.pairwise_insertionSort _ _
  stable k := filter_insertionSort _ key (fun _ _ h => h.ge) k xs

theorem pySorted_spec (key : α → κ) (xs : List α) : IsSorted key xs (pySorted key xs) where
  perm := List.perm_insertionSort _ _
  sorted := by
    have h1 : Std.Total (fun a b : α => key a ≤ key b) := ⟨fun a b => le_total _ _⟩
    have h2 : IsTrans α (fun a b : α => key a ≤ key b) := ⟨fun a b c h h' => h.trans h'⟩
    exact List.pairwise_insertionSort _ _
  stable k := filter_insertionSort _ key (fun _ _ h => h.le) k xs

end Pelote
