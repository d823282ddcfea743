import Mathlib.Data.Int.Log
import Mathlib.Algebra.Order.Floor.Ring
import Mathlib.Algebra.Order.Field.Basic
import Mathlib.Algebra.Ring.Int.Parity

/-! Rounding to double precision floats (IEEE 754 binary64, the floats of CPython): to nearest, ties to even, with gradual
underflow.  Overflow is not modelled: the exponent has no upper bound. -/
namespace Pelote
variable {K : Type} [Field K] [LinearOrder K] [IsStrictOrderedRing K] [FloorRing K]

/-- The integer nearest to `y`, the even one of two equally near ones. -/
def halfEven (y : K) : ℤ :=
  if y - ⌊y⌋ < 1 / 2 then ⌊y⌋
  else if 1 / 2 < y - ⌊y⌋ then ⌊y⌋ + 1
  else if ⌊y⌋ % 2 = 0 then ⌊y⌋ else ⌊y⌋ + 1

/-- The exponent of the unit in the last place of `x`: significands have 53 bits, and no bit weighs less than
`2 ^ (-1074)`. -/
def ulpExp (x : K) : ℤ := max (Int.log 2 |x| - 52) (-1074)

/-- The float nearest to `x`. -/
def round64 (x : K) : K := halfEven (x / 2 ^ ulpExp x) * 2 ^ ulpExp x

/-- A float: a significand of 53 bits times a power of 2 (overflow apart). -/
def IsFloat64 (x : K) : Prop := ∃ (m e : ℤ), |m| < 2 ^ 53 ∧ -1074 ≤ e ∧ x = m * 2 ^ e

end Pelote
