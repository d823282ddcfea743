import Verif.Py.Val
import Mathlib.Algebra.Order.Group.Abs

/-! Specification vocabulary: the numeric weight of an edge. -/
namespace Pelote
variable {K : Type} [Zero K] [One K]

/-- The attribute dict gives the edge the weight `w`: its weight attribute is the number `w` (a boolean
being 0 or 1), or is absent and `w` is 1. -/
def HasWeight (attr : String) (a : Attrs (Val K)) (w : K) : Prop :=
  (a.get? (.str attr) = none ∧ w = 1) ∨ a.get? (.str attr) = some (.num w) ∨
    (a.get? (.str attr) = some (.bool true) ∧ w = 1) ∨ (a.get? (.str attr) = some (.bool false) ∧ w = 0)

end Pelote
