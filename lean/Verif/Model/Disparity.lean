import Verif.Model.SpanningTrees
import Verif.Model.Graph

/-! Model of `pelote/metrics/edge_disparity.py`. -/
namespace Pelote
variable {V K : Type} [DecidableEq V] [Field K] [LinearOrder K]

/-- The operations on numbers used for the scores: `a + b`, `sum(values)`, `a / b`, `1 - x`, `x ** n`, `min(a, b)` and
`max(a, b)`. -/
structure NumOps (N : Type) where
  add : N → N → N
  sum : List N → N
  div : N → N → Py N
  oneMinus : N → N
  pow : N → Nat → N
  least : N → N → N
  greatest : N → N → N

/-- The arithmetic of the scores: `rnd` is applied to the result of every addition, subtraction and division, and `pow` is
`**`. -/
structure Arith (K : Type) where
  rnd : K → K
  pow : K → Nat → K

/-- Exact arithmetic. -/
def Arith.exact : Arith K := ⟨id, fun x n => x ^ n⟩

/-- `a / b`. -/
def pyDiv (a b : K) : Py K := if b = 0 then .error .zeroDivisionError else .ok (a / b)

/-- The operations of an arithmetic.  Up to Python 3.11, `sum` adds the numbers up one after the other. -/
def Arith.ops (ar : Arith K) : NumOps K where
  add a b := ar.rnd (a + b)
  sum l := l.foldl (fun s x => ar.rnd (s + x)) 0
  div a b := (pyDiv a b).map ar.rnd
  oneMinus x := ar.rnd (1 - x)
  pow := ar.pow
  least := min
  greatest := max

/-- One step of the loop of `sum` over floats from Python 3.12 on (CPython, Python/bltinmodule.c, `builtin_sum_impl`): besides
the sum `s.1`, what the roundings have lost is added up in `s.2`. -/
def compensatedStep (rnd : K → K) (s : K × K) (x : K) : K × K :=
  let t := rnd (s.1 + x)
  (t, rnd (s.2 + if |x| ≤ |s.1| then rnd (rnd (s.1 - t) + x) else rnd (rnd (x - t) + s.1)))

/-- `sum(values)` from Python 3.12 on, the values being all of type `float` (integers are not compensated). -/
def compensatedSum (rnd : K → K) : List K → K
  | [] => 0
  | x :: l =>
    let s := l.foldl (compensatedStep rnd) (rnd (0 + x), 0)
    if s.2 = 0 then s.1 else rnd (s.1 + s.2)

/-- The operations of an arithmetic from Python 3.12 on. -/
def Arith.ops312 (ar : Arith K) : NumOps K := { ar.ops with sum := compensatedSum ar.rnd }

section
variable {N : Type} [Zero N] [One N]

/-- The values `dd.get(weight, 1) for dd in …`. -/
def weightsOf (attr : String) : List (Attrs (Val N)) → Py (List N)
  | [] => .ok []
  | a :: as =>
    match weightOf attr a with
    | .error e => .error e
    | .ok w =>
      match weightsOf attr as with
      | .error e => .error e
      | .ok ws => .ok (w :: ws)

/-- `graph.degree(weight=attr)` at one node of a simple undirected graph: the sum over the neighbors, plus
the weight of the self loop a second time. -/
def weightedDegree (ops : NumOps N) (g : Graph V (Val N)) (attr : String) (n : V) : Py N :=
  match weightsOf attr ((g.edgesOf n).map (fun e => e.2.2.2)) with
  | .error e => .error e
  | .ok ws =>
    match weightsOf attr (((g.edgesOf n).filter (fun e => e.2.1 = n)).map (fun e => e.2.2.2)) with
    | .error e => .error e
    | .ok loops => .ok (loops.foldl ops.add (ops.sum ws))

/-- `dict(graph.degree(weight=attr))` (pelote/metrics/edge_disparity.py:79). -/
def weightedDegrees (ops : NumOps N) (g : Graph V (Val N)) (attr : String) : List V → Py (Dict V N)
  | [] => .ok []
  | n :: ns =>
    match weightedDegree ops g attr n with
    | .error e => .error e
    | .ok s =>
      match weightedDegrees ops g attr ns with
      | .error e => .error e
      | .ok d => .ok ((n, s) :: d)

/-- One edge `(source, target)` of weight `weight` (pelote/metrics/edge_disparity.py:92-108). -/
def disparityScore (ops : NumOps N) (reverse : Bool) (weight : Val N) (sourceDegree targetDegree : Nat)
    (sourceWeighted targetWeighted : N) : Py N :=
  match weight.toNum with
  | .error e => .error e
  | .ok w =>
    match ops.div w sourceWeighted with
    | .error e => .error e
    | .ok ns =>
      match ops.div w targetWeighted with
      | .error e => .error e
      | .ok nt =>
        let s := ops.pow (ops.oneMinus ns) (sourceDegree - 1)
        let t := ops.pow (ops.oneMinus nt) (targetDegree - 1)
        if reverse then .ok (ops.greatest (ops.oneMinus s) (ops.oneMinus t)) else .ok (ops.least s t)

/-- `for _, target, weight in graph.edges(source, data=edge_weight_attr)`
(pelote/metrics/edge_disparity.py:85-108); a missing weight is `None`. -/
def disparityEdges [PyOrd V] (ops : NumOps N) (g : Graph V (Val N)) (attr : String) (reverse : Bool) (wd : Dict V N)
    (source : V) (sourceWeighted : N) : List (V × V × PyKey × Attrs (Val N)) → Dict (V × V) N →
    Py (Dict (V × V) N)
  | [], d => .ok d
  | (_, target, _, a) :: es, d =>
    match PyOrd.gt source target with
    | .error e => .error e
    | .ok true => disparityEdges ops g attr reverse wd source sourceWeighted es d
    | .ok false =>
      match wd.getItem target with
      | .error e => .error e
      | .ok targetWeighted =>
        match disparityScore ops reverse ((a.get? (.str attr)).getD .none) (g.degree source)
            (g.degree target) sourceWeighted targetWeighted with
        | .error e => .error e
        | .ok x => disparityEdges ops g attr reverse wd source sourceWeighted es (d.set (source, target) x)

/-- `for source in graph.nodes` (pelote/metrics/edge_disparity.py:81-108). -/
def disparityNodes [PyOrd V] (ops : NumOps N) (g : Graph V (Val N)) (attr : String) (reverse : Bool) (wd : Dict V N) :
    List V → Dict (V × V) N → Py (Dict (V × V) N)
  | [], d => .ok d
  | source :: ns, d =>
    match wd.getItem source with
    | .error e => .error e
    | .ok sourceWeighted =>
      match disparityEdges ops g attr reverse wd source sourceWeighted (g.edgesOf source) d with
      | .error e => .error e
      | .ok d => disparityNodes ops g attr reverse wd ns d

/-- `edge_disparity(graph, edge_weight_attr, reverse)` (pelote/metrics/edge_disparity.py:8-110), on numbers of any kind. -/
def edgeDisparityN [PyOrd V] (ops : NumOps N) (g : Graph V (Val N)) (attr : String) (reverse : Bool) :
    Py (Dict (V × V) N) :=
  if g.directed || g.multi then .error (.typeError "edge_disparity cannot work on a directed or multi graph")
  else
    match weightedDegrees ops g attr g.nodes with
    | .error e => .error e
    | .ok wd => disparityNodes ops g attr reverse wd g.nodes []

end

/-- `edge_disparity(graph, edge_weight_attr, reverse)` (pelote/metrics/edge_disparity.py:8-110), in the given arithmetic. -/
def edgeDisparityA [PyOrd V] (ar : Arith K) (g : Graph V (Val K)) (attr : String) (reverse : Bool) :
    Py (Dict (V × V) K) := edgeDisparityN ar.ops g attr reverse

/-- `edge_disparity(graph, edge_weight_attr, reverse)` (pelote/metrics/edge_disparity.py:8-110), in exact arithmetic. -/
def edgeDisparity [PyOrd V] (g : Graph V (Val K)) (attr : String) (reverse : Bool) : Py (Dict (V × V) K) :=
  edgeDisparityA Arith.exact g attr reverse

end Pelote
