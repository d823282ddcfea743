import Verif.Model.Disparity

/-! Model of `pelote/classes/online_metrics.py` and of `monopartite_projection` (pelote/projection.py:19-173).

Numbers are those of an ordered field with functions `sqrt`, `log` and `rnd`, the rounding of the result of an
operation on floats: the identity for exact arithmetic.  Sums and products of integers are not rounded, nor are those of
edge weights (as if they were integers).  `check_graph` is not modelled. -/
namespace Pelote
variable {V K : Type} [DecidableEq V] [Field K] [LinearOrder K]

/-- The functions of the module `math` used by the metrics, where they are defined, and the rounding of floats. -/
class PyMath (K : Type) where
  sqrt : K → K
  log : K → K
  rnd : K → K

/-- `a / b`, rounded; of two integers, the rounded quotient as well. -/
def fDiv [PyMath K] (a b : K) : Py K := if b = 0 then .error .zeroDivisionError else .ok (PyMath.rnd (a / b))

/-- `math.sqrt(x)`. -/
def mathSqrt [PyMath K] (x : K) : Py K := if x < 0 then .error .valueError else .ok (PyMath.sqrt x)

/-- `math.log(x)`. -/
def mathLog [PyMath K] (x : K) : Py K := if x ≤ 0 then .error .valueError else .ok (PyMath.log x)

/-- The classes of `SUPPORTED_METRICS` (pelote/classes/online_metrics.py:137-146). -/
inductive Metric
  | intersection | jaccard | overlap | cosine | dice | binaryCosine | dotProduct | pmi
  deriving DecidableEq, Repr

/-- `SUPPORTED_METRICS[metric]` in `instantiate_online_metric`
(pelote/classes/online_metrics.py:137-156). -/
def instantiateMetric : Option String → Py Metric
  | none => .ok .intersection
  | some "jaccard" => .ok .jaccard
  | some "overlap" => .ok .overlap
  | some "cosine" => .ok .cosine
  | some "dice" => .ok .dice
  | some "binary_cosine" => .ok .binaryCosine
  | some "dot_product" => .ok .dotProduct
  | some "pmi" => .ok .pmi
  | some _ => .error (.typeError "unknown metric")

/-- An `OnlineMetric` object (pelote/classes/online_metrics.py:15-19); `source` is
`_current_source_norm`, unset until `start_intersection`. -/
structure OnlineMetric (V K : Type) where
  kind : Metric
  norms : Dict V K
  acc : K
  inter : Dict V K
  source : K

namespace OnlineMetric

/-- `OnlineMetric()` (pelote/classes/online_metrics.py:15-19). -/
def init (kind : Metric) : OnlineMetric V K := ⟨kind, [], 0, [], 0⟩

/-- `_should_keep_norm` (pelote/classes/online_metrics.py:21-22, 129-130). -/
def keepNorm (m : OnlineMetric V K) : Bool :=
  match m.kind with
  | .pmi => decide (m.acc ≥ 0)
  | _ => decide (m.acc > 0)

/-- `_finalize_norm` (pelote/classes/online_metrics.py:24-25, 105-106). -/
def finalizeNorm [PyMath K] (kind : Metric) (norm : K) : Py K :=
  match kind with
  | .binaryCosine | .cosine => mathSqrt norm
  | _ => .ok norm

/-- `accumulate_norm` (pelote/classes/online_metrics.py:30-31, 77-78, 121-122). -/
def accumulateNorm (m : OnlineMetric V K) (weight : Val K) : Py (OnlineMetric V K) :=
  match m.kind with
  | .cosine =>
    match weight.toNum with
    | .error e => .error e
    | .ok w => .ok { m with acc := m.acc + w * w }
  | _ => .ok { m with acc := m.acc + 1 }

/-- `add_norm` (pelote/classes/online_metrics.py:33-38). -/
def addNorm [PyMath K] (m : OnlineMetric V K) (item : V) : Py (OnlineMetric V K) :=
  if !m.keepNorm then .ok m
  else
    match finalizeNorm m.kind m.acc with
    | .error e => .error e
    | .ok norm => .ok { m with norms := m.norms.set item norm }

/-- `reset_norm` (pelote/classes/online_metrics.py:40-41). -/
def resetNorm (m : OnlineMetric V K) : OnlineMetric V K := { m with acc := 0 }

/-- `start_intersection` (pelote/classes/online_metrics.py:52-54). -/
def startIntersection (m : OnlineMetric V K) (source : V) : Py (OnlineMetric V K) :=
  match m.norms.getItem source with
  | .error e => .error e
  | .ok norm => .ok { m with source := norm, inter := [] }

/-- `_compute_intersection_weight` (pelote/classes/online_metrics.py:80-81, 113-114, 124-125). -/
def intersectionWeight (kind : Metric) (w1 w2 : Val K) : Py K :=
  match kind with
  | .dotProduct | .cosine =>
    match w1.toNum, w2.toNum with
    | .error e, _ => .error e
    | _, .error e => .error e
    | .ok a, .ok b => .ok (a * b)
  | _ => .ok 1

/-- `intersect` (pelote/classes/online_metrics.py:59-61); the intersections are a `Counter`, in which a
missing key counts as 0. -/
def intersect (m : OnlineMetric V K) (target : V) (w1 w2 : Val K) : Py (OnlineMetric V K) :=
  match intersectionWeight m.kind w1 w2 with
  | .error e => .error e
  | .ok w => .ok { m with inter := m.inter.set target ((m.inter.get? target).getD 0 + w) }

/-- `_compute_metric` (pelote/classes/online_metrics.py:85-101, 108-109, 116-117, 132-134).  Only the norms of the cosines are
floats. -/
def computeMetric [PyMath K] (kind : Metric) (i norm1 norm2 : K) : Py K :=
  match kind with
  | .intersection | .dotProduct => .ok i
  | .jaccard => fDiv i (norm1 + norm2 - i)
  | .overlap => fDiv i (min norm1 norm2)
  | .dice => fDiv (i * 2) (norm1 + norm2)
  | .binaryCosine | .cosine => fDiv i (PyMath.rnd (norm1 * norm2))
  | .pmi =>
    match fDiv i (norm1 * norm2) with
    | .error e => .error e
    | .ok x => mathLog x

end OnlineMetric

/-- `part_to_keep`: a hashable value, a `frozenset` or tuple of nodes (a collection, but hashable; `repr`
designates its content), or another collection of nodes. -/
inductive Part (V K : Type)
  | value (x : Val K)
  | frozen (ns : List V) (repr : String)
  | collection (ns : List V)

/-- The value compared with the part attributes by `!=` and `==`, when the part is hashable. -/
def Part.asValue : Part V K → Option (Val K)
  | .value x => some x
  | .frozen _ repr => some (.obj "frozenset" repr)
  | .collection _ => none

/-- Is the node kept (pelote/projection.py:105-112)? -/
def Part.keeps (part : Part V K) (partAttr : String) (n : V) (a : Attrs (Val K)) : Bool :=
  match part with
  | .collection ns => decide (n ∈ ns)
  | part => (((a.get? (.str partAttr)).getD .none).pyEq (part.asValue.getD .none))

/-- `ta.get(name)` where `_, ta` is an item of `graph[n]`: the attributes of the edge in a simple graph, but
the dict from keys to attributes in a multigraph. -/
def Graph.taGet {A : Type} (g : Graph V A) (asValue : Attrs A → A) (d : Dict PyKey (Attrs A)) (name : String) :
    Option A :=
  if g.multi then (d.get? (.str name)).map asValue
  else ((d.get? (.int 0)).getD []).get? (.str name)

/-- An attribute dict as a value. -/
def dictValue (_ : Attrs (Val K)) : Val K := .obj "dict" ""

/-- `ta.get(edge_weight_attr, 1)`. -/
def taWeight (g : Graph V (Val K)) (d : Dict PyKey (Attrs (Val K))) (weightAttr : String) : Val K :=
  (g.taGet dictValue d weightAttr).getD (.num 1)

/-- The bipartition check on one neighbor (pelote/projection.py:118-125): note that the attributes looked at
are those of the edge.  A value equal to a collection that is not hashable is not modelled. -/
def Part.clashes (part : Part V K) (g : Graph V (Val K)) (partAttr : String) (token : V)
    (d : Dict PyKey (Attrs (Val K))) : Bool :=
  match part with
  | .collection ns => decide (token ∈ ns)
  | part => ((g.taGet dictValue d partAttr).getD .none).pyEq (part.asValue.getD .none)

/-- `for token, ta in bipartite_graph[n1].items()` (pelote/projection.py:117-128). -/
def normLoop (g : Graph V (Val K)) (part : Part V K) (partAttr weightAttr : String) (check : Bool) :
    List (V × Dict PyKey (Attrs (Val K))) → OnlineMetric V K → Py (OnlineMetric V K)
  | [], m => .ok m
  | (token, d) :: rest, m =>
    if check && part.clashes g partAttr token d then .error (.typeError "given graph is not truly bipartite")
    else
      match m.accumulateNorm (taWeight g d weightAttr) with
      | .error e => .error e
      | .ok m => normLoop g part partAttr weightAttr check rest m

/-- `for n1, a1 in bipartite_graph.nodes(data=True)` (pelote/projection.py:104-131).  Returns the metric, the
projection and `part_is_empty`. -/
def partLoop [PyMath K] (g : Graph V (Val K)) (part : Part V K) (partAttr weightAttr : String) (check : Bool) :
    Dict V (Attrs (Val K)) → OnlineMetric V K → Graph V (Val K) → Bool →
    Py (OnlineMetric V K × Graph V (Val K) × Bool)
  | [], m, mono, empty => .ok (m, mono, empty)
  | (n1, a1) :: rest, m, mono, empty =>
    if !part.keeps partAttr n1 a1 then partLoop g part partAttr weightAttr check rest m mono empty
    else
      match normLoop g part partAttr weightAttr check (g.adj n1) m.resetNorm with
      | .error e => .error e
      | .ok m =>
        match m.addNorm n1 with
        | .error e => .error e
        | .ok m =>
          match mono.addNode n1 (a1.erase (.str partAttr)) with
          | .error e => .error e
          | .ok mono => partLoop g part partAttr weightAttr check rest m mono false

/-- `for n2, a2 in bipartite_graph[token].items()` (pelote/projection.py:148-164). -/
def sharedLoop [PyOrd V] (g : Graph V (Val K)) (weightAttr : String) (n1 : V) (w1 : Val K) :
    List (V × Dict PyKey (Attrs (Val K))) → OnlineMetric V K → Py (OnlineMetric V K)
  | [], m => .ok m
  | (n2, d) :: rest, m =>
    if n2 = n1 then sharedLoop g weightAttr n1 w1 rest m
    else
      match PyOrd.gt n1 n2 with
      | .error e => .error e
      | .ok true => sharedLoop g weightAttr n1 w1 rest m
      | .ok false =>
        match m.intersect n2 w1 (taWeight g d weightAttr) with
        | .error e => .error e
        | .ok m => sharedLoop g weightAttr n1 w1 rest m

/-- `for token, ta in bipartite_graph[n1].items()` (pelote/projection.py:145-164). -/
def tokenLoop [PyOrd V] (g : Graph V (Val K)) (weightAttr : String) (n1 : V) :
    List (V × Dict PyKey (Attrs (Val K))) → OnlineMetric V K → Py (OnlineMetric V K)
  | [], m => .ok m
  | (token, d) :: rest, m =>
    match sharedLoop g weightAttr n1 (taWeight g d weightAttr) (g.adj token) m with
    | .error e => .error e
    | .ok m => tokenLoop g weightAttr n1 rest m

/-- `weight_threshold is not None and similarity < weight_threshold` (pelote/projection.py:168). -/
def belowThreshold (threshold : Option K) (similarity : K) : Bool :=
  match threshold with
  | none => false
  | some t => decide (similarity < t)

/-- `for n2, similarity in online_metric.neighbors()` (pelote/projection.py:167-171,
pelote/classes/online_metrics.py:66-73) over the items of the intersections. -/
def linkLoop [PyMath K] [AttrVal (Val K)] (m : OnlineMetric V K) (threshold : Option K) (n1 : V) :
    Dict V K → Graph V (Val K) → Py (Graph V (Val K))
  | [], mono => .ok mono
  | (n2, i) :: rest, mono =>
    match m.norms.getItem n2 with
    | .error e => .error e
    | .ok norm2 =>
      match OnlineMetric.computeMetric m.kind i m.source norm2 with
      | .error e => .error e
      | .ok similarity =>
        if belowThreshold threshold similarity then linkLoop m threshold n1 rest mono
        else
          match mono.addEdge n1 n2 [(.str "weight", .num similarity)] with
          | .error e => .error e
          | .ok mono => linkLoop m threshold n1 rest mono

/-- `for n1 in online_metric.nodes()` (pelote/projection.py:141-171). -/
def projectLoop [PyOrd V] [PyMath K] [AttrVal (Val K)] (g : Graph V (Val K)) (weightAttr : String)
    (threshold : Option K) : List V → OnlineMetric V K → Graph V (Val K) → Py (Graph V (Val K))
  | [], _, mono => .ok mono
  | n1 :: rest, m, mono =>
    match m.startIntersection n1 with
    | .error e => .error e
    | .ok m =>
      match tokenLoop g weightAttr n1 (g.adj n1) m with
      | .error e => .error e
      | .ok m =>
        match linkLoop m threshold n1 m.inter mono with
        | .error e => .error e
        | .ok mono => projectLoop g weightAttr threshold rest m mono

/-- The check of `weight_threshold` (pelote/projection.py:84-87). -/
def checkThreshold : Option (Val K) → Py (Option K)
  | none => .ok none
  | some x =>
    match x.toNum with
    | .error _ => .error (.typeError "weight_threshold should be a number >= 0")
    | .ok t => if t ≤ 0 then .error (.typeError "weight_threshold should be a number >= 0") else .ok (some t)

/-- `monopartite_projection` (pelote/projection.py:19-173). -/
def monopartiteProjection [PyOrd V] [PyMath K] [AttrVal (Val K)] (g : Graph V (Val K)) (part : Part V K)
    (partAttr weightAttr : String) (metric : Option String) (check : Bool) (threshold : Option (Val K)) :
    Py (Graph V (Val K)) :=
  match instantiateMetric metric with
  | .error e => .error e
  | .ok kind =>
    match checkThreshold threshold with
    | .error e => .error e
    | .ok threshold =>
      if g.order = 0 then .ok (Graph.empty false false [])
      else
        match partLoop g part partAttr weightAttr check g.node (OnlineMetric.init kind)
            (Graph.empty false false []) true with
        | .error e => .error e
        | .ok (m, mono, empty) =>
          if empty then .error (.typeError "part does not exist in given graph")
          else projectLoop g weightAttr threshold m.norms.keys m mono

end Pelote
