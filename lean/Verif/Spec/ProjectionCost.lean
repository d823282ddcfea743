import Verif.Spec.Projection

/-! Cost of the monopartite projection: the neighbors of neighbors met by the innermost loop,
`for n2, a2 in bipartite_graph[token].items()` (pelote/projection.py:148-164), and the calls of `intersect`
(pelote/projection.py:164). -/
namespace Pelote
variable {V K : Type} [DecidableEq V] [Field K] [LinearOrder K]

/-- `sharedLoop` with the counters: neighbors met, calls of `intersect`. -/
def sharedLoopTraced [PyOrd V] (g : Graph V (Val K)) (weightAttr : String) (n1 : V) (w1 : Val K) :
    List (V × Dict PyKey (Attrs (Val K))) → OnlineMetric V K → Py (OnlineMetric V K) × Nat × Nat
  | [], m => (.ok m, 0, 0)
  | (n2, d) :: rest, m =>
    if n2 = n1 then
      let r := sharedLoopTraced g weightAttr n1 w1 rest m
      (r.1, r.2.1 + 1, r.2.2)
    else
      match PyOrd.gt n1 n2 with
      | .error e => (.error e, 1, 0)
      | .ok true =>
        let r := sharedLoopTraced g weightAttr n1 w1 rest m
        (r.1, r.2.1 + 1, r.2.2)
      | .ok false =>
        match m.intersect n2 w1 (taWeight g d weightAttr) with
        | .error e => (.error e, 1, 1)
        | .ok m =>
          let r := sharedLoopTraced g weightAttr n1 w1 rest m
          (r.1, r.2.1 + 1, r.2.2 + 1)

/-- `tokenLoop` with the counters. -/
def tokenLoopTraced [PyOrd V] (g : Graph V (Val K)) (weightAttr : String) (n1 : V) :
    List (V × Dict PyKey (Attrs (Val K))) → OnlineMetric V K → Py (OnlineMetric V K) × Nat × Nat
  | [], m => (.ok m, 0, 0)
  | (token, d) :: rest, m =>
    match sharedLoopTraced g weightAttr n1 (taWeight g d weightAttr) (g.adj token) m with
    | (.error e, i, j) => (.error e, i, j)
    | (.ok m, i, j) =>
      let r := tokenLoopTraced g weightAttr n1 rest m
      (r.1, i + r.2.1, j + r.2.2)

/-- `projectLoop` with the counters. -/
def projectLoopTraced [PyOrd V] [PyMath K] [AttrVal (Val K)] (g : Graph V (Val K)) (weightAttr : String)
    (threshold : Option K) : List V → OnlineMetric V K → Graph V (Val K) → Py (Graph V (Val K)) × Nat × Nat
  | [], _, mono => (.ok mono, 0, 0)
  | n1 :: rest, m, mono =>
    match m.startIntersection n1 with
    | .error e => (.error e, 0, 0)
    | .ok m =>
      match tokenLoopTraced g weightAttr n1 (g.adj n1) m with
      | (.error e, i, j) => (.error e, i, j)
      | (.ok m, i, j) =>
        match linkLoop m threshold n1 m.inter mono with
        | .error e => (.error e, i, j)
        | .ok mono =>
          let r := projectLoopTraced g weightAttr threshold rest m mono
          (r.1, i + r.2.1, j + r.2.2)

/-- `monopartite_projection` with the counters: what it returns (the same, `monopartiteProjectionTraced_result`), the
neighbors of neighbors met, and the calls of `intersect`. -/
def monopartiteProjectionTraced [PyOrd V] [PyMath K] [AttrVal (Val K)] (g : Graph V (Val K)) (part : Part V K)
    (partAttr weightAttr : String) (metric : Option String) (check : Bool) (threshold : Option (Val K)) :
    Py (Graph V (Val K)) × Nat × Nat :=
  match instantiateMetric metric with
  | .error e => (.error e, 0, 0)
  | .ok kind =>
    match checkThreshold threshold with
    | .error e => (.error e, 0, 0)
    | .ok threshold =>
      if g.order = 0 then (.ok (Graph.empty false false []), 0, 0)
      else
        match partLoop g part partAttr weightAttr check g.node (OnlineMetric.init kind)
            (Graph.empty false false []) true with
        | .error e => (.error e, 0, 0)
        | .ok (m, mono, empty) =>
          if empty then (.error (.typeError "part does not exist in given graph"), 0, 0)
          else projectLoopTraced g weightAttr threshold m.norms.keys m mono

/-- Neighbors of neighbors met by a projection. -/
def projectionReads [PyOrd V] [PyMath K] [AttrVal (Val K)] (g : Graph V (Val K)) (part : Part V K)
    (partAttr weightAttr : String) (metric : Option String) (check : Bool) (threshold : Option (Val K)) : Nat :=
  (monopartiteProjectionTraced g part partAttr weightAttr metric check threshold).2.1

/-- Calls of `intersect` by a projection. -/
def projectionCalls [PyOrd V] [PyMath K] [AttrVal (Val K)] (g : Graph V (Val K)) (part : Part V K)
    (partAttr weightAttr : String) (metric : Option String) (check : Bool) (threshold : Option (Val K)) : Nat :=
  (monopartiteProjectionTraced g part partAttr weightAttr metric check threshold).2.2

open Classical in
/-- The nodes of the part. -/
noncomputable def Graph.partNodes (g : Graph V (Val K)) (partAttr : String) (part : Part V K) : Finset V :=
  g.nodes.toFinset.filter (fun t => InPart g partAttr part t)

open Classical in
/-- The nodes out of the part. -/
noncomputable def Graph.otherNodes (g : Graph V (Val K)) (partAttr : String) (part : Part V K) : Finset V :=
  g.nodes.toFinset.filter (fun t => ¬ InPart g partAttr part t)

end Pelote
