import Verif.Nx.Graph
import Mathlib.Algebra.Order.Field.Basic
import Mathlib.Data.Rat.Defs

/-! Attribute values.  Numbers are elements of an ordered field `K` (the rationals in the examples): the
arithmetic is exact, rounding, NaN and infinities of Python floats are not modelled. -/
namespace Pelote

/-- A Python value stored in an attribute dict.  `obj ty repr` is any value of another type. -/
inductive Val (K : Type)
  | none
  | bool (b : Bool)
  | num (k : K)
  | str (s : String)
  | obj (ty repr : String)
  deriving DecidableEq

namespace Val
variable {K : Type}

/-- The value as an operand of `<`, `+`, `-`, `*`: booleans are integers, other types raise. -/
def toNum [Zero K] [One K] : Val K → Py K
  | .num k => .ok k
  | .bool true => .ok 1
  | .bool false => .ok 0
  | _ => .error (.typeError "unsupported operand")

/-- `x == y`: numbers and booleans are compared as numbers, other values by identity of type and content. -/
def pyEq [Zero K] [One K] [DecidableEq K] (x y : Val K) : Bool :=
  match x.toNum, y.toNum with
  | .ok a, .ok b => decide (a = b)
  | _, _ => decide (x = y)

end Val

/-- A value as a multigraph edge key.  A value of another type is taken to be unhashable (a list, say). -/
instance : AttrVal (Val ℚ) where
  asKey
    | .none => .ok none
    | .bool b => .ok (some (.bool b))
    | .num q => .ok (some (if q.den = 1 then .int q.num else .other "float" (toString q)))
    | .str s => .ok (some (.str s))
    | .obj _ _ => .error (.typeError "unhashable type")

end Pelote
