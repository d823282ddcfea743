import Verif.Py.Basic

/-! Specification of sorting: what Python's `sorted` returns. -/
namespace Pelote
variable {α κ : Type}

/-- `out` is `sorted(xs, key=key)`: same items, non-decreasing keys, ties in input order. -/
structure IsSorted [LE κ] [DecidableEq κ] (key : α → κ) (xs out : List α) : Prop where
  perm : out.Perm xs
  sorted : out.Pairwise (fun a b => key a ≤ key b)
  stable : ∀ k, out.filter (fun a => key a = k) = xs.filter (fun a => key a = k)

/-- `out` is `sorted(xs, key=key, reverse=True)`: same items, non-increasing keys, ties in input order. -/
structure IsSortedRev [LE κ] [DecidableEq κ] (key : α → κ) (xs out : List α) : Prop where
  perm : out.Perm xs
  sorted : out.Pairwise (fun a b => key b ≤ key a)
  stable : ∀ k, out.filter (fun a => key a = k) = xs.filter (fun a => key a = k)

end Pelote
