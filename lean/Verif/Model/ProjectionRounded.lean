import Verif.Model.Projection

/-! Model of `monopartite_projection` (pelote/projection.py:19-173) on edge weights that are floats.

`Verif.Model.Projection` does not round the sums and products of edge weights, as if these were integers.  Here `num` rounds
the result of every addition and multiplication of edge weights, in the order in which the loops perform them.  The functions not repeated
here do not compute with edge weights.  Counts (of neighbors, of shared neighbors) are integers, never rounded. -/
namespace Pelote
variable {V K : Type} [DecidableEq V] [Field K] [LinearOrder K]

namespace OnlineMetric

/-- `accumulate_norm` (pelote/classes/online_metrics.py:30-31, 77-78, 121-122). -/
def accumulateNormR (num : K → K) (m : OnlineMetric V K) (weight : Val K) : Py (OnlineMetric V K) :=
  match m.kind with
  | .cosine =>
    match weight.toNum with
    | .error e => .error e
    | .ok w => .ok { m with acc := num (m.acc + num (w * w)) }
  | _ => .ok { m with acc := m.acc + 1 }

/-- `intersect` (pelote/classes/online_metrics.py:59-61, 80-81, 113-114, 124-125). -/
def intersectR (num : K → K) (m : OnlineMetric V K) (target : V) (w1 w2 : Val K) : Py (OnlineMetric V K) :=
  match m.kind with
  | .dotProduct | .cosine =>
    match w1.toNum, w2.toNum with
    | .error e, _ => .error e
    | _, .error e => .error e
    | .ok a, .ok b => .ok { m with inter := m.inter.set target (num ((m.inter.get? target).getD 0 + num (a * b))) }
  | _ => .ok { m with inter := m.inter.set target ((m.inter.get? target).getD 0 + 1) }

end OnlineMetric

/-- `for token, ta in bipartite_graph[n1].items()` (pelote/projection.py:117-128). -/
def normLoopR (num : K → K) (g : Graph V (Val K)) (part : Part V K) (partAttr weightAttr : String) (check : Bool) :
    List (V × Dict PyKey (Attrs (Val K))) → OnlineMetric V K → Py (OnlineMetric V K)
  | [], m => .ok m
  | (token, d) :: rest, m =>
    if check && part.clashes g partAttr token d then .error (.typeError "given graph is not truly bipartite")
    else
      match m.accumulateNormR num (taWeight g d weightAttr) with
      | .error e => .error e
      | .ok m => normLoopR num g part partAttr weightAttr check rest m

/-- `for n1, a1 in bipartite_graph.nodes(data=True)` (pelote/projection.py:104-131). -/
def partLoopR [PyMath K] (num : K → K) (g : Graph V (Val K)) (part : Part V K) (partAttr weightAttr : String)
    (check : Bool) :
    Dict V (Attrs (Val K)) → OnlineMetric V K → Graph V (Val K) → Bool →
    Py (OnlineMetric V K × Graph V (Val K) × Bool)
  | [], m, mono, empty => .ok (m, mono, empty)
  | (n1, a1) :: rest, m, mono, empty =>
    if !part.keeps partAttr n1 a1 then partLoopR num g part partAttr weightAttr check rest m mono empty
    else
      match normLoopR num g part partAttr weightAttr check (g.adj n1) m.resetNorm with
      | .error e => .error e
      | .ok m =>
        match m.addNorm n1 with
        | .error e => .error e
        | .ok m =>
          match mono.addNode n1 (a1.erase (.str partAttr)) with
          | .error e => .error e
          | .ok mono => partLoopR num g part partAttr weightAttr check rest m mono false

/-- `for n2, a2 in bipartite_graph[token].items()` (pelote/projection.py:148-164). -/
def sharedLoopR [PyOrd V] (num : K → K) (g : Graph V (Val K)) (weightAttr : String) (n1 : V) (w1 : Val K) :
    List (V × Dict PyKey (Attrs (Val K))) → OnlineMetric V K → Py (OnlineMetric V K)
  | [], m => .ok m
  | (n2, d) :: rest, m =>
    if n2 = n1 then sharedLoopR num g weightAttr n1 w1 rest m
    else
      match PyOrd.gt n1 n2 with
      | .error e => .error e
      | .ok true => sharedLoopR num g weightAttr n1 w1 rest m
      | .ok false =>
        match m.intersectR num n2 w1 (taWeight g d weightAttr) with
        | .error e => .error e
        | .ok m => sharedLoopR num g weightAttr n1 w1 rest m

/-- `for token, ta in bipartite_graph[n1].items()` (pelote/projection.py:145-164). -/
def tokenLoopR [PyOrd V] (num : K → K) (g : Graph V (Val K)) (weightAttr : String) (n1 : V) :
    List (V × Dict PyKey (Attrs (Val K))) → OnlineMetric V K → Py (OnlineMetric V K)
  | [], m => .ok m
  | (token, d) :: rest, m =>
    match sharedLoopR num g weightAttr n1 (taWeight g d weightAttr) (g.adj token) m with
    | .error e => .error e
    | .ok m => tokenLoopR num g weightAttr n1 rest m

/-- `for n1 in online_metric.nodes()` (pelote/projection.py:141-171). -/
def projectLoopR [PyOrd V] [PyMath K] [AttrVal (Val K)] (num : K → K) (g : Graph V (Val K)) (weightAttr : String)
    (threshold : Option K) : List V → OnlineMetric V K → Graph V (Val K) → Py (Graph V (Val K))
  | [], _, mono => .ok mono
  | n1 :: rest, m, mono =>
    match m.startIntersection n1 with
    | .error e => .error e
    | .ok m =>
      match tokenLoopR num g weightAttr n1 (g.adj n1) m with
      | .error e => .error e
      | .ok m =>
        match linkLoop m threshold n1 m.inter mono with
        | .error e => .error e
        | .ok mono => projectLoopR num g weightAttr threshold rest m mono

/-- `monopartite_projection` (pelote/projection.py:19-173). -/
def monopartiteProjectionR [PyOrd V] [PyMath K] [AttrVal (Val K)] (num : K → K) (g : Graph V (Val K)) (part : Part V K)
    (partAttr weightAttr : String) (metric : Option String) (check : Bool) (threshold : Option (Val K)) :
    Py (Graph V (Val K)) :=
  match instantiateMetric metric with
  | .error e => .error e
  | .ok kind =>
    match checkThreshold threshold with
    | .error e => .error e
    | .ok threshold =>
      if g.order = 0 then .ok (Graph.empty false false [])
      else
        match partLoopR num g part partAttr weightAttr check g.node (OnlineMetric.init kind)
            (Graph.empty false false []) true with
        | .error e => .error e
        | .ok (m, mono, empty) =>
          if empty then .error (.typeError "part does not exist in given graph")
          else projectLoopR num g weightAttr threshold m.norms.keys m mono

end Pelote
