import Verif.Py.NonFinite
import Verif.Spec.Disparity
import Verif.Py.Binary64

/-! Specification vocabulary for edge disparity with floats that overflow. -/
namespace Pelote
variable {V K : Type} [DecidableEq V]

/-- The same value, numbers being floats that may also be infinite or NaN. -/
def Val.toX : Val K → Val (XNum K)
  | .none => .none
  | .bool b => .bool b
  | .num k => .num (.fin k)
  | .str s => .str s
  | .obj t r => .obj t r

variable [Field K] [LinearOrder K] [IsStrictOrderedRing K] [FloorRing K]

/-- One side of the score of an edge of weight `x`: 1 when the strength of the node, rounded at each addition, overflows. -/
def Graph.overflowSide (pow : K → Nat → K) (g : Graph V (Val K)) (w : V → V → K) (n : V) (x : K) : K :=
  if 2 ^ 1024 ≤ g.roundedStrength round64 w n then 1
  else sideScore round64 pow x (g.roundedStrength round64 w n) (g.degree n)

/-- The score of an edge from its two sides. -/
def scoreOf (reverse : Bool) (a b : K) : K := if reverse then max (round64 (1 - a)) (round64 (1 - b)) else min a b

end Pelote
