import Verif.Model.NonFinite
import Verif.Py.Binary64

/-! The operations of `edge_disparity` (pelote/metrics/edge_disparity.py) on the floats of CPython with all they do: rounding,
overflow to an infinity, infinities and NaN.  The sign of zero is not modelled. -/
namespace Pelote
variable {K : Type} [Field K] [LinearOrder K] [IsStrictOrderedRing K] [FloorRing K]

namespace XNum

/-- The float for an exact result: the nearest one, or an infinity from `2 ** 1024` on. -/
def store (x : K) : XNum K := if |round64 x| < 2 ^ 1024 then .fin (round64 x) else .inf (decide (x < 0))

/-- `x + y`. -/
def add64 : XNum K → XNum K → XNum K
  | .fin a, .fin b => store (a + b)
  | x, y => x.add y

/-- `x / y`.  Dividing by 0 raises. -/
def div64 : XNum K → XNum K → Py (XNum K)
  | .fin a, .fin b => if b = 0 then .error .zeroDivisionError else .ok (store (a / b))
  | x, y => x.div y

/-- `x ** n` for a natural number `n`, `pow` being what it gives for numbers between 0 and 1; other numbers are not meant to be
given. -/
def pow64 (pow : K → Nat → K) (x : XNum K) (n : Nat) : XNum K :=
  match x with
  | .fin a => .fin (pow a n)
  | x => x.pow n

/-- `fabs(x)`. -/
def fabs : XNum K → XNum K
  | .fin a => .fin |a|
  | .inf _ => .inf false
  | .nan => .nan

/-- One step of the loop of `sum` over floats from Python 3.12 on (CPython, Python/bltinmodule.c, `builtin_sum_impl`), see
`compensatedStep`. -/
def compensatedStep64 (s : XNum K × XNum K) (x : XNum K) : XNum K × XNum K :=
  let t := s.1.add64 x
  (t, s.2.add64 (if x.fabs.le s.1.fabs then (XNum.sub store s.1 t).add64 x else (XNum.sub store x t).add64 s.1))

/-- `sum(values)` from Python 3.12 on: the compensation is added at the end if it is finite and not 0. -/
def compensatedSum64 : List (XNum K) → XNum K
  | [] => 0
  | x :: l =>
    let s := l.foldl compensatedStep64 (XNum.add64 0 x, 0)
    match s.2 with
    | .fin c => if c = 0 then s.1 else s.1.add64 (.fin c)
    | _ => s.1

/-- The operations up to Python 3.11. -/
def ops64 (pow : K → Nat → K) : NumOps (XNum K) where
  add := add64
  sum l := l.foldl add64 0
  div := div64
  oneMinus x := XNum.sub store 1 x
  pow := pow64 pow
  least := least
  greatest := greatest

/-- The operations from Python 3.12 on. -/
def ops64_312 (pow : K → Nat → K) : NumOps (XNum K) := { ops64 pow with sum := compensatedSum64 }

end XNum

/-- The predicate factory of `MultiscaleBackboneSparsifier` (pelote/sparsification/multiscale_backbone.py:16-25), see
`backboneFactoryX`, with the given operations. -/
def backboneFactory64 {V : Type} [DecidableEq V] [PyOrd V] (ops : NumOps (XNum K)) (alpha : XNum K) (attr : String) :
    PredFactory V (Val (XNum K)) := fun g =>
  match edgeDisparityN ops g attr false with
  | .error e => .error e
  | .ok disparity => .ok (disparityPredicateX disparity alpha)

/-- `multiscale_backbone(graph, alpha, edge_weight_attr)` (pelote/sparsification/multiscale_backbone.py:32-68), without
`keep_connected`. -/
def multiscaleBackbone64 {V : Type} [DecidableEq V] [PyOrd V] [AttrVal (Val (XNum K))] (ops : NumOps (XNum K))
    (g : Graph V (Val (XNum K))) (alpha : XNum K) (attr : String) : Py (Graph V (Val (XNum K))) :=
  (Sparsifier.mk (backboneFactory64 ops alpha attr) (defaultGenerator true (backboneFactory64 ops alpha attr))
    (defaultGenerator false (backboneFactory64 ops alpha attr))).filter g

end Pelote
