import Verif.Spec.Weight

/-! Specification of the sparsifiers. -/
namespace Pelote
variable {V K : Type} [Field K] [LinearOrder K]

/-- The attribute `attr` is present and is the number `w` (or a boolean, that is 0 or 1). -/
def HasNumber {K : Type} [Zero K] [One K] (attr : String) (a : Attrs (Val K)) (w : K) : Prop :=
  a.get? (.str attr) = some (.num w) ∨ (a.get? (.str attr) = some (.bool true) ∧ w = 1) ∨
    (a.get? (.str attr) = some (.bool false) ∧ w = 0)

/-- The weight reaches the threshold: at least `t`, or at most `t` with `reverse`. -/
def Reaches (t : K) (attr : String) (reverse : Bool) (a : Attrs (Val K)) : Prop :=
  ∃ w, HasNumber attr a w ∧ if reverse then w ≤ t else t ≤ w

end Pelote
