import Verif.Model.Sparsification
import Verif.Py.NonFinite

/-! Model of `union_of_maximum_spanning_trees` (pelote/graph.py:484-553), of the `keep_connected` option
(pelote/sparsification/utils.py:10-20, 24-101), of the global threshold (pelote/sparsification/global_threshold.py), of
`edge_disparity` and of `multiscale_backbone` when weights may be infinite or NaN. -/
namespace Pelote
variable {V K : Type} [DecidableEq V] [Field K] [LinearOrder K]

/-- `current_bucket_weight - current_weight > WEIGHT_EPSILON` (pelote/graph.py:536). -/
def changesBucketX (rnd : K → XNum K) (c w : XNum K) : Bool := XNum.lt (.fin weightEpsilon) (XNum.sub rnd c w)

/-- The loop over the sorted edges and the final `yield from` (pelote/graph.py:528-551), as in `bucketLoop`. -/
def bucketLoopX {A : Type} (rnd : K → XNum K) (ds : DisjointSet V) (cur : Option (XNum K)) (bucket : List (V × V × A)) :
    List ((V × V × A) × XNum K) → Gen (V × V × A)
  | [] => ⟨bucket, none⟩
  | (e, w) :: rest =>
    match (match cur with
      | none => true
      | some c => changesBucketX rnd c w) with
    | true =>
      match flushBucket ds bucket with
      | (_, ⟨ys, some x⟩) => ⟨ys, some x⟩
      | (ds, ⟨ys, none⟩) =>
        match ds.areInSameSet e.1 e.2.1 with
        | (_, .error x) => ⟨ys, some x⟩
        | (ds, .ok b) =>
          match bucketLoopX rnd ds (some w) (if b then [] else [e]) rest with
          | ⟨zs, err⟩ => ⟨ys ++ zs, err⟩
    | false =>
      match ds.areInSameSet e.1 e.2.1 with
      | (_, .error x) => ⟨[], some x⟩
      | (ds, .ok b) => bucketLoopX rnd ds cur (if b then bucket else bucket ++ [e]) rest

/-- `union_of_maximum_spanning_trees(graph, edge_weight_attr)` (pelote/graph.py:487-553) with weights that may be infinite
or NaN; `sort` stands for `sorted(…, reverse=True)`, `rnd` for the rounding of a difference.  The
simplifications are those of `unionOfMaximumSpanningTrees`. -/
def unionOfMaximumSpanningTreesX
    (sort : List ((V × V × Attrs (Val (XNum K))) × XNum K) → List ((V × V × Attrs (Val (XNum K))) × XNum K))
    (rnd : K → XNum K) (ulongMax : Nat) (g : Graph V (Val (XNum K))) (attr : String) :
    Gen (V × V × Attrs (Val (XNum K))) :=
  if g.size = 0 then ⟨[], none⟩
  else
    match sortKeys attr g.edgesData with
    | .error x => ⟨[], some x⟩
    | .ok es =>
      match DisjointSet.init ulongMax g.order with
      | .error x => ⟨[], some x⟩
      | .ok ds => bucketLoopX rnd ds none [] (sort es)

/-- `decorate_predicate_factory_with_umst` (pelote/sparsification/utils.py:10-20). -/
def decorateWithUmstX
    (sort : List ((V × V × Attrs (Val (XNum K))) × XNum K) → List ((V × V × Attrs (Val (XNum K))) × XNum K))
    (rnd : K → XNum K) (ulongMax : Nat) (factory : PredFactory V (Val (XNum K))) : PredFactory V (Val (XNum K)) := fun g =>
  match factory g with
  | .error e => .error e
  | .ok predicate =>
    match (unionOfMaximumSpanningTreesX sort rnd ulongMax g "weight").err with
    | some e => .error e
    | none =>
      let umst := (unionOfMaximumSpanningTreesX sort rnd ulongMax g "weight").yields.map (fun e => (e.1, e.2.1))
      .ok (fun u v a =>
        match predicate u v a with
        | .error e => .error e
        | .ok true => .ok true
        | .ok false => .ok (decide ((u, v) ∈ umst)))

/-- `Sparsifier(edge_predicate_factory=…, keep_connected=…)` (pelote/sparsification/utils.py:24-101): the case of a
sparsifier given a factory only. -/
def Sparsifier.makeX
    (sort : List ((V × V × Attrs (Val (XNum K))) × XNum K) → List ((V × V × Attrs (Val (XNum K))) × XNum K))
    (rnd : K → XNum K) (ulongMax : Nat) (factory : PredFactory V (Val (XNum K))) (keepConnected : Bool) :
    Sparsifier V (Val (XNum K)) :=
  let f := if keepConnected then decorateWithUmstX sort rnd ulongMax factory else factory
  ⟨f, defaultGenerator true f, defaultGenerator false f⟩

/-- `a[attr] >= t`, or `a[attr] <= t` (pelote/sparsification/global_threshold.py:17-20). -/
def thresholdPredicateX (t : XNum K) (attr : String) (reverse : Bool) : EdgePred V (Val (XNum K)) := fun _ _ a =>
  match a.getItem (.str attr) with
  | .error e => .error e
  | .ok x =>
    match x.toNum with
    | .error e => .error e
    | .ok w => .ok (if reverse then w.le t else t.le w)

/-- `global_threshold_sparsification` (pelote/sparsification/global_threshold.py:27-56). -/
def globalThresholdSparsificationX [AttrVal (Val (XNum K))]
    (sort : List ((V × V × Attrs (Val (XNum K))) × XNum K) → List ((V × V × Attrs (Val (XNum K))) × XNum K))
    (rnd : K → XNum K) (ulongMax : Nat) (g : Graph V (Val (XNum K))) (t : XNum K) (attr : String)
    (reverse keepConnected : Bool) : Py (Graph V (Val (XNum K))) :=
  (Sparsifier.makeX sort rnd ulongMax (fun _ => .ok (thresholdPredicateX t attr reverse)) keepConnected).filter g

/-- The operations of `edge_disparity` on floats that may be infinite or NaN.  Finite floats are neither rounded nor do they
overflow. -/
def XNum.ops : NumOps (XNum K) where
  add := XNum.add
  sum l := l.foldl XNum.add 0
  div := XNum.div
  oneMinus x := XNum.sub .fin 1 x
  pow := XNum.pow
  least := XNum.least
  greatest := XNum.greatest

/-- `edge_disparity(graph, edge_weight_attr, reverse)` (pelote/metrics/edge_disparity.py:8-110). -/
def edgeDisparityX [PyOrd V] (g : Graph V (Val (XNum K))) (attr : String) (reverse : Bool) : Py (Dict (V × V) (XNum K)) :=
  edgeDisparityN XNum.ops g attr reverse

/-- `if u > v: u, v = v, u` and `disparity[u, v] <= alpha` (pelote/sparsification/multiscale_backbone.py:19-23). -/
def disparityPredicateX [PyOrd V] (disparity : Dict (V × V) (XNum K)) (alpha : XNum K) : EdgePred V (Val (XNum K)) :=
  fun u v _ =>
  match PyOrd.gt u v with
  | .error e => .error e
  | .ok b =>
    match disparity.getItem (if b then (v, u) else (u, v)) with
    | .error e => .error e
    | .ok x => .ok (x.le alpha)

/-- The predicate factory of `MultiscaleBackboneSparsifier` (pelote/sparsification/multiscale_backbone.py:16-25). -/
def backboneFactoryX [PyOrd V] (alpha : XNum K) (attr : String) : PredFactory V (Val (XNum K)) := fun g =>
  match edgeDisparityX g attr false with
  | .error e => .error e
  | .ok disparity => .ok (disparityPredicateX disparity alpha)

/-- `multiscale_backbone` (pelote/sparsification/multiscale_backbone.py:32-68). -/
def multiscaleBackboneX [PyOrd V] [AttrVal (Val (XNum K))]
    (sort : List ((V × V × Attrs (Val (XNum K))) × XNum K) → List ((V × V × Attrs (Val (XNum K))) × XNum K))
    (rnd : K → XNum K) (ulongMax : Nat) (g : Graph V (Val (XNum K))) (alpha : XNum K) (attr : String)
    (keepConnected : Bool) : Py (Graph V (Val (XNum K))) :=
  (Sparsifier.makeX sort rnd ulongMax (backboneFactoryX alpha attr) keepConnected).filter g

end Pelote
