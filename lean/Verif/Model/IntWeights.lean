import Verif.Model.ProjectionX

/-! The operations of `edge_disparity` (pelote/metrics/edge_disparity.py) and of the projections by cosine similarity and by dot product
(pelote/classes/online_metrics.py) when every weight is an integer of Python: sums and products of weights are exact, whatever their size,
and become floats when they are divided or when their square root is taken.

Simplification: an integer and the float of the same value are the same number here; which of the two a number is, is known from where it
comes from. -/
namespace Pelote
variable {K : Type} [Field K] [LinearOrder K] [IsStrictOrderedRing K] [FloorRing K]

/-- `a / b` on two integers (CPython, Objects/longobject.c, `long_true_divide`): the float nearest to the quotient; raises when it is too
large for a float. -/
def intDiv (a b : K) : Py K :=
  match pyDiv a b with
  | .error e => .error e
  | .ok q => if |round64 q| < 2 ^ 1024 then .ok (round64 q) else .error .overflowError

/-- The operations of `edge_disparity` on integer weights (pelote/metrics/edge_disparity.py:79, 97-106): `add` and `sum` are applied to
weights, `div` to a weight and a sum of weights, the others to floats.  `pow` is what `**` gives for floats between 0 and 1; other
floats, of which the power may overflow, are not meant to be given. -/
def intOps (pow : K → Nat → K) : NumOps K where
  add a b := a + b
  sum l := l.foldl (fun s x => s + x) 0
  div := intDiv
  oneMinus x := round64 (1 - x)
  pow := pow
  least := min
  greatest := max

namespace XNum

/-- The conversion of an integer to a float, done by `math.sqrt` and by the division by a float (CPython, Objects/longobject.c,
`PyLong_AsDouble`): the nearest float; raises when it is too large. -/
def ofInt : XNum K → Py (XNum K)
  | .fin a => if |round64 a| < 2 ^ 1024 then .ok (.fin (round64 a)) else .error .overflowError
  | x => .ok x

/-- The product of two integers. -/
def mulInt : XNum K → XNum K → XNum K
  | .fin a, .fin b => .fin (a * b)
  | x, y => mul64 x y

/-- The operations of the metrics on integer weights (pelote/classes/online_metrics.py:101-126). -/
def metricInt (sqrt : K → K) : MetricOps (XNum K) where
  add := add
  mul := mulInt
  sqrt x := (ofInt x).map (sqrt64 sqrt)
  times := mul64
  div x y := (ofInt x).bind fun a => div64 a y
  lt := lt
  le := le

end XNum
end Pelote
