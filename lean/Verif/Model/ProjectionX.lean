import Verif.Model.Overflow
import Verif.Model.Projection

/-! Model of `monopartite_projection` (pelote/projection.py:19-173) by the metrics that compute with edge weights, `cosine` and
`dot_product`, for numbers of any kind: the operations on numbers are given, and may overflow, give NaN or raise.

Simplifications: the part to keep is a collection of nodes that is not hashable (a list or a set), and the metric is one of these two.  The
others do not read the weights.  `check_graph` is not modelled. -/
namespace Pelote
variable {V N : Type} [DecidableEq V] [Zero N] [One N]

/-- The operations of the two metrics and of the comparisons of `monopartite_projection`: `add` and `mul` are applied to weights, `sqrt`
(`math.sqrt`) to sums above 0 of squares of weights, `times` to two square roots, and `div` to a sum of products of weights and a product of
square roots. -/
structure MetricOps (N : Type) where
  add : N → N → N
  mul : N → N → N
  sqrt : N → Py N
  times : N → N → N
  div : N → N → Py N
  lt : N → N → Bool
  le : N → N → Bool

/-- `ta.get(edge_weight_attr, 1)` (pelote/projection.py:127, 146, 163). -/
def taWeightN (g : Graph V (Val N)) (d : Dict PyKey (Attrs (Val N))) (weightAttr : String) : Val N :=
  (g.taGet (fun _ => .obj "dict" "") d weightAttr).getD (.num 1)

/-- `accumulate_norm` (pelote/classes/online_metrics.py:30-31, 77-78, 121-122).  The norm of a node is the number of its neighbors for the
dot product, which only compares it with 0: 1 stands for any positive number. -/
def accumulateNormN (ops : MetricOps N) (cosine : Bool) (acc : N) (weight : Val N) : Py N :=
  if cosine then
    match weight.toNum with
    | .error e => .error e
    | .ok w => .ok (ops.add acc (ops.mul w w))
  else .ok 1

/-- `for token, ta in bipartite_graph[n1].items()` (pelote/projection.py:117-128). -/
def normLoopN (ops : MetricOps N) (cosine : Bool) (g : Graph V (Val N)) (ns : List V) (weightAttr : String) (check : Bool) :
    List (V × Dict PyKey (Attrs (Val N))) → N → Py N
  | [], acc => .ok acc
  | (token, d) :: rest, acc =>
    if check && decide (token ∈ ns) then .error (.typeError "given graph is not truly bipartite")
    else
      match accumulateNormN ops cosine acc (taWeightN g d weightAttr) with
      | .error e => .error e
      | .ok acc => normLoopN ops cosine g ns weightAttr check rest acc

/-- `add_norm` (pelote/classes/online_metrics.py:21-25, 33-38, 105-106). -/
def addNormN (ops : MetricOps N) (cosine : Bool) (norms : Dict V N) (n : V) (acc : N) : Py (Dict V N) :=
  if ops.lt 0 acc then
    if cosine then
      match ops.sqrt acc with
      | .error e => .error e
      | .ok norm => .ok (norms.set n norm)
    else .ok (norms.set n acc)
  else .ok norms

/-- `for n1, a1 in bipartite_graph.nodes(data=True)` (pelote/projection.py:104-131).  Returns the norms, the projection and
`part_is_empty`. -/
def partLoopN (ops : MetricOps N) (cosine : Bool) (g : Graph V (Val N)) (ns : List V) (partAttr weightAttr : String) (check : Bool) :
    Dict V (Attrs (Val N)) → Dict V N → Graph V (Val N) → Bool → Py (Dict V N × Graph V (Val N) × Bool)
  | [], norms, mono, empty => .ok (norms, mono, empty)
  | (n1, a1) :: rest, norms, mono, empty =>
    if !decide (n1 ∈ ns) then partLoopN ops cosine g ns partAttr weightAttr check rest norms mono empty
    else
      match normLoopN ops cosine g ns weightAttr check (g.adj n1) 0 with
      | .error e => .error e
      | .ok acc =>
        match addNormN ops cosine norms n1 acc with
        | .error e => .error e
        | .ok norms =>
          match mono.addNode n1 (a1.erase (.str partAttr)) with
          | .error e => .error e
          | .ok mono => partLoopN ops cosine g ns partAttr weightAttr check rest norms mono false

/-- `intersect` (pelote/classes/online_metrics.py:59-61, 113-114, 124-125); in a `Counter` a missing key counts as 0. -/
def intersectN (ops : MetricOps N) (inter : Dict V N) (target : V) (w1 w2 : Val N) : Py (Dict V N) :=
  match w1.toNum, w2.toNum with
  | .error e, _ => .error e
  | _, .error e => .error e
  | .ok a, .ok b => .ok (inter.set target (ops.add ((inter.get? target).getD 0) (ops.mul a b)))

/-- `for n2, a2 in bipartite_graph[token].items()` (pelote/projection.py:148-164). -/
def sharedLoopN [PyOrd V] (ops : MetricOps N) (g : Graph V (Val N)) (weightAttr : String) (n1 : V) (w1 : Val N) :
    List (V × Dict PyKey (Attrs (Val N))) → Dict V N → Py (Dict V N)
  | [], inter => .ok inter
  | (n2, d) :: rest, inter =>
    if n2 = n1 then sharedLoopN ops g weightAttr n1 w1 rest inter
    else
      match PyOrd.gt n1 n2 with
      | .error e => .error e
      | .ok true => sharedLoopN ops g weightAttr n1 w1 rest inter
      | .ok false =>
        match intersectN ops inter n2 w1 (taWeightN g d weightAttr) with
        | .error e => .error e
        | .ok inter => sharedLoopN ops g weightAttr n1 w1 rest inter

/-- `for token, ta in bipartite_graph[n1].items()` (pelote/projection.py:145-164). -/
def tokenLoopN [PyOrd V] (ops : MetricOps N) (g : Graph V (Val N)) (weightAttr : String) (n1 : V) :
    List (V × Dict PyKey (Attrs (Val N))) → Dict V N → Py (Dict V N)
  | [], inter => .ok inter
  | (token, d) :: rest, inter =>
    match sharedLoopN ops g weightAttr n1 (taWeightN g d weightAttr) (g.adj token) inter with
    | .error e => .error e
    | .ok inter => tokenLoopN ops g weightAttr n1 rest inter

/-- `_compute_metric` (pelote/classes/online_metrics.py:108-109, 116-117). -/
def computeMetricN (ops : MetricOps N) (cosine : Bool) (i norm1 norm2 : N) : Py N :=
  if cosine then ops.div i (ops.times norm1 norm2) else .ok i

/-- `weight_threshold is not None and similarity < weight_threshold` (pelote/projection.py:168). -/
def belowThresholdN (ops : MetricOps N) (threshold : Option N) (similarity : N) : Bool :=
  match threshold with
  | none => false
  | some t => ops.lt similarity t

/-- `for n2, similarity in online_metric.neighbors()` (pelote/projection.py:167-171,
pelote/classes/online_metrics.py:66-73) over the items of the intersections. -/
def linkLoopN [AttrVal (Val N)] (ops : MetricOps N) (cosine : Bool) (norms : Dict V N) (source : N) (threshold : Option N) (n1 : V) :
    Dict V N → Graph V (Val N) → Py (Graph V (Val N))
  | [], mono => .ok mono
  | (n2, i) :: rest, mono =>
    match norms.getItem n2 with
    | .error e => .error e
    | .ok norm2 =>
      match computeMetricN ops cosine i source norm2 with
      | .error e => .error e
      | .ok similarity =>
        if belowThresholdN ops threshold similarity then linkLoopN ops cosine norms source threshold n1 rest mono
        else
          match mono.addEdge n1 n2 [(.str "weight", .num similarity)] with
          | .error e => .error e
          | .ok mono => linkLoopN ops cosine norms source threshold n1 rest mono

/-- `for n1 in online_metric.nodes()` (pelote/projection.py:141-171). -/
def projectLoopN [PyOrd V] [AttrVal (Val N)] (ops : MetricOps N) (cosine : Bool) (g : Graph V (Val N)) (weightAttr : String)
    (norms : Dict V N) (threshold : Option N) : List V → Graph V (Val N) → Py (Graph V (Val N))
  | [], mono => .ok mono
  | n1 :: rest, mono =>
    match norms.getItem n1 with
    | .error e => .error e
    | .ok source =>
      match tokenLoopN ops g weightAttr n1 (g.adj n1) [] with
      | .error e => .error e
      | .ok inter =>
        match linkLoopN ops cosine norms source threshold n1 inter mono with
        | .error e => .error e
        | .ok mono => projectLoopN ops cosine g weightAttr norms threshold rest mono

/-- `monopartite_projection(graph, ns, metric=…)` (pelote/projection.py:19-173), by cosine similarity or by dot product. -/
def monopartiteProjectionN [PyOrd V] [AttrVal (Val N)] (ops : MetricOps N) (cosine : Bool) (g : Graph V (Val N)) (ns : List V)
    (partAttr weightAttr : String) (check : Bool) (threshold : Option N) : Py (Graph V (Val N)) :=
  if (match threshold with | none => false | some t => ops.le t 0) then
    .error (.typeError "weight_threshold should be a number >= 0")
  else if g.order = 0 then .ok (Graph.empty false false [])
  else
    match partLoopN ops cosine g ns partAttr weightAttr check g.node [] (Graph.empty false false []) true with
    | .error e => .error e
    | .ok (norms, mono, empty) =>
      if empty then .error (.typeError "part does not exist in given graph")
      else projectLoopN ops cosine g weightAttr norms threshold norms.keys mono

variable {K : Type} [Field K] [LinearOrder K] [IsStrictOrderedRing K] [FloorRing K]

namespace XNum

/-- `x * y`: NaN if one of them is, or for 0 times an infinity. -/
def mul64 : XNum K → XNum K → XNum K
  | .fin a, .fin b => store (a * b)
  | .fin a, .inf s => if a = 0 then .nan else .inf (s != decide (a < 0))
  | .inf s, .fin b => if b = 0 then .nan else .inf (s != decide (b < 0))
  | .inf s, .inf s' => .inf (s != s')
  | .nan, _ => .nan
  | _, .nan => .nan

/-- `math.sqrt(x)` for `x` above 0, `sqrt` being what it gives for numbers. -/
def sqrt64 (sqrt : K → K) : XNum K → XNum K
  | .fin a => .fin (sqrt a)
  | x => x

/-- The operations on floats: rounding, overflow to an infinity, infinities and NaN.  The sign of zero is not modelled. -/
def metric64 (sqrt : K → K) : MetricOps (XNum K) where
  add := add64
  mul := mul64
  sqrt x := .ok (sqrt64 sqrt x)
  times := mul64
  div := div64
  lt := lt
  le := le

end XNum
end Pelote
