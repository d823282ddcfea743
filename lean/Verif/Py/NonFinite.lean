import Verif.Py.Val
import Mathlib.Data.List.Sort

/-! Floats that may be infinite or NaN.  The finite ones are elements of an ordered field, as everywhere else. -/
namespace Pelote
variable {K : Type}

/-- A Python float: a number, an infinity (`neg` telling which one), or NaN. -/
inductive XNum (K : Type)
  | fin (k : K)
  | inf (neg : Bool)
  | nan
  deriving DecidableEq

namespace XNum

instance [Zero K] : Zero (XNum K) := ⟨.fin 0⟩
instance [One K] : One (XNum K) := ⟨.fin 1⟩

/-- `x - y`.  `rnd` gives the float for the exact difference of two numbers (it may overflow to an infinity); `inf - inf` is
NaN. -/
def sub [Sub K] (rnd : K → XNum K) : XNum K → XNum K → XNum K
  | .fin a, .fin b => rnd (a - b)
  | .fin _, .inf s => .inf (!s)
  | .inf s, .fin _ => .inf s
  | .inf s, .inf s' => if s = s' then .nan else .inf s
  | .nan, _ => .nan
  | _, .nan => .nan

/-- `x + y`, without rounding nor overflow: NaN if one of them is or if they are opposite infinities. -/
def add [Add K] : XNum K → XNum K → XNum K
  | .fin a, .fin b => .fin (a + b)
  | .fin _, .inf s => .inf s
  | .inf s, .fin _ => .inf s
  | .inf s, .inf s' => if s = s' then .inf s else .nan
  | .nan, _ => .nan
  | _, .nan => .nan

/-- `x / y`, without rounding nor overflow.  Dividing by 0 raises, even NaN or an infinity. -/
def div [Field K] [LinearOrder K] : XNum K → XNum K → Py (XNum K)
  | .fin a, .fin b => if b = 0 then .error .zeroDivisionError else .ok (.fin (a / b))
  | .inf s, .fin b => if b = 0 then .error .zeroDivisionError else .ok (.inf (s != decide (b < 0)))
  | .nan, .fin b => if b = 0 then .error .zeroDivisionError else .ok .nan
  | .fin _, .inf _ => .ok (.fin 0)
  | .inf _, .inf _ => .ok .nan
  | .nan, .inf _ => .ok .nan
  | _, .nan => .ok .nan

/-- `x ** n` for a natural number `n`, without rounding nor overflow: `x ** 0` is 1, even for NaN. -/
def pow [Monoid K] (x : XNum K) (n : Nat) : XNum K :=
  if n = 0 then .fin 1
  else
    match x with
    | .fin a => .fin (a ^ n)
    | .inf s => .inf (s && decide (n % 2 = 1))
    | .nan => .nan

/-- `x < y`: always `False` when one of them is NaN. -/
def lt [LT K] [DecidableRel (fun a b : K => a < b)] : XNum K → XNum K → Bool
  | .fin a, .fin b => decide (a < b)
  | .fin _, .inf s => !s
  | .inf s, .fin _ => s
  | .inf s, .inf s' => s && !s'
  | .nan, _ => false
  | _, .nan => false

/-- `x <= y`: always `False` when one of them is NaN. -/
def le [LE K] [DecidableRel (fun a b : K => a ≤ b)] : XNum K → XNum K → Bool
  | .fin a, .fin b => decide (a ≤ b)
  | .fin _, .inf s => !s
  | .inf s, .fin _ => s
  | .inf s, .inf s' => s || !s'
  | .nan, _ => false
  | _, .nan => false

/-- `min(x, y)`: `x` unless `y < x`. -/
def least [LT K] [DecidableRel (fun a b : K => a < b)] (x y : XNum K) : XNum K := if y.lt x then y else x

/-- `max(x, y)`: `x` unless `y > x`. -/
def greatest [LT K] [DecidableRel (fun a b : K => a < b)] (x y : XNum K) : XNum K := if x.lt y then y else x

end XNum

/-- What is known of `sorted(es, key=…, reverse=True)` when keys may be NaN: the result has the same elements and, if no key
is NaN, it is in decreasing order, ties in the original order.  With a NaN the comparisons are inconsistent and the order
depends on the algorithm. -/
structure SortsDecreasing [LinearOrder K] {E : Type} (sort : List (E × XNum K) → List (E × XNum K)) : Prop where
  perm : ∀ es, (sort es).Perm es
  stable : ∀ es, (∀ x ∈ es, x.2 ≠ .nan) → sort es = es.insertionSort (fun a b => a.2.lt b.2 = false)

end Pelote
