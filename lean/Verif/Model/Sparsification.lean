import Verif.Model.SpanningTrees
import Verif.Model.Disparity

/-! Model of `pelote/sparsification/utils.py`, `global_threshold.py` and `multiscale_backbone.py`.

An edge handed around by a sparsifier is `(u, v, key, attributes)`: the Python tuples are
`(u, v, attributes)`, the key of the model (always `0` on a simple graph) only tells which attribute dict of
the graph the third component is, since the flagging methods mutate it.

Edge generators and predicates are pure: a predicate looks at its three arguments and at the graph the
factory was given, not at the graph while it is being flagged.  `check_graph` is not modelled. -/
namespace Pelote
variable {V K : Type} [DecidableEq V] [Field K] [LinearOrder K]

/-- An edge with the key identifying its attribute dict. -/
abbrev KeyedEdge (V A : Type) := V × V × PyKey × Attrs A

/-- `edge_predicate_factory`: a function from a graph to a predicate over edges, which may raise. -/
abbrev PredFactory (V A : Type) := Graph V A → Py (EdgePred V A)

/-- `relevant_edges_generator`, `redundant_edges_generator`: the generator run to completion. -/
abbrev EdgeGen (V A : Type) := Graph V A → Gen (KeyedEdge V A)

/-- `None(graph)`: the factory of a sparsifier given both generators and no factory. -/
def noFactory {A : Type} : PredFactory V A := fun _ => .error (.typeError "'NoneType' object is not callable")

/-- `decorate_predicate_factory_with_umst` (pelote/sparsification/utils.py:10-20).  The spanning trees always
use the default attribute `"weight"`. -/
def decorateWithUmst (ulongMax : Nat) (factory : PredFactory V (Val K)) : PredFactory V (Val K) := fun g =>
  match factory g with
  | .error e => .error e
  | .ok predicate =>
    match (unionOfMaximumSpanningTrees ulongMax g "weight").err with
    | some e => .error e
    | none =>
      let umst := (unionOfMaximumSpanningTrees ulongMax g "weight").yields.map (fun e => (e.1, e.2.1))
      .ok (fun u v a =>
        match predicate u v a with
        | .error e => .error e
        | .ok true => .ok true
        | .ok false => .ok (decide ((u, v) ∈ umst)))

/-- Loops `for u, v, a in graph.edges.data(): if edge_predicate(u, v, a): yield u, v, a`
(pelote/sparsification/utils.py:63-65, `want = true`) and `if not edge_predicate(u, v, a)` (lines 90-92,
`want = false`). -/
def yieldWhen {A : Type} (want : Bool) (predicate : EdgePred V A) : List (KeyedEdge V A) → Gen (KeyedEdge V A)
  | [] => ⟨[], none⟩
  | (u, v, k, a) :: es =>
    match predicate u v a with
    | .error e => ⟨[], some e⟩
    | .ok b =>
      let rest := yieldWhen want predicate es
      ⟨if b = want then (u, v, k, a) :: rest.yields else rest.yields, rest.err⟩

/-- The default generators (pelote/sparsification/utils.py:60-65 and 87-92). -/
def defaultGenerator {A : Type} (want : Bool) (factory : PredFactory V A) : EdgeGen V A := fun g =>
  match factory g with
  | .error e => ⟨[], some e⟩
  | .ok predicate => yieldWhen want predicate g.edgesKeys

/-- `if not graph.is_directed() and u > v: u, v = v, u`. -/
def orderedPair {A : Type} [PyOrd V] (g : Graph V A) (u v : V) : Py (V × V) :=
  if g.directed then .ok (u, v)
  else
    match PyOrd.gt u v with
    | .error e => .error e
    | .ok true => .ok (v, u)
    | .ok false => .ok (u, v)

/-- The set of pairs collected from a generator (pelote/sparsification/utils.py:44-50, 71-77): an error of a
comparison or of the generator interrupts the loop. -/
def collectPairs {A : Type} [PyOrd V] (g : Graph V A) : List (KeyedEdge V A) → Option PyErr → Py (List (V × V))
  | [], none => .ok []
  | [], some e => .error e
  | (u, v, _, _) :: es, err =>
    match orderedPair g u v with
    | .error e => .error e
    | .ok p =>
      match collectPairs g es err with
      | .error e => .error e
      | .ok ps => .ok (p :: ps)

/-- The factories built from a generator (pelote/sparsification/utils.py:43-58 with `member = false`, from
the redundant edges; 70-85 with `member = true`, from the relevant edges). -/
def factoryFromGenerator {A : Type} [PyOrd V] (member : Bool) (generator : EdgeGen V A) : PredFactory V A :=
  fun g =>
    match collectPairs g (generator g).yields (generator g).err with
    | .error e => .error e
    | .ok pairs => .ok (fun u v _ =>
        match orderedPair g u v with
        | .error e => .error e
        | .ok p => .ok (decide (p ∈ pairs) == member))

/-- A `Sparsifier` object. -/
structure Sparsifier (V A : Type) where
  factory : PredFactory V A
  relevant : EdgeGen V A
  redundant : EdgeGen V A

/-- `Sparsifier.__init__` (pelote/sparsification/utils.py:24-101).  The closures look the factory up when
they run, so the default generators use the decorated factory when `keep_connected` is set. -/
def Sparsifier.make [PyOrd V] (ulongMax : Nat) (factory : Option (PredFactory V (Val K)))
    (relevant redundant : Option (EdgeGen V (Val K))) (keepConnected : Bool) : Py (Sparsifier V (Val K)) :=
  let finish (f : PredFactory V (Val K)) := if keepConnected then decorateWithUmst ulongMax f else f
  match factory, relevant, redundant with
  | none, none, none => .error (.typeError "Sparsifier implementation cannot work without")
  | some f, none, none =>
    .ok ⟨finish f, defaultGenerator true (finish f), defaultGenerator false (finish f)⟩
  | some f, some r, none => .ok ⟨finish f, r, defaultGenerator false (finish f)⟩
  | some f, none, some d => .ok ⟨finish f, defaultGenerator true (finish f), d⟩
  | some f, some r, some d => .ok ⟨finish f, r, d⟩
  | none, none, some d =>
    let f := finish (factoryFromGenerator false d)
    .ok ⟨f, defaultGenerator true f, d⟩
  | none, some r, none =>
    let f := finish (factoryFromGenerator true r)
    .ok ⟨f, r, defaultGenerator false f⟩
  | none, some r, some d => .ok ⟨finish noFactory, r, d⟩

namespace Sparsifier
variable {A : Type}

/-- Loop of `Sparsifier.filter` (pelote/sparsification/utils.py:108-109). -/
def filterLoop [AttrVal A] : List (KeyedEdge V A) → Option PyErr → Graph V A → Py (Graph V A)
  | [], none, copy => .ok copy
  | [], some e, _ => .error e
  | (u, v, _, a) :: es, err, copy =>
    match copy.addEdge u v a with
    | .error e => .error e
    | .ok copy => filterLoop es err copy

/-- `Sparsifier.filter` (pelote/sparsification/utils.py:103-111), also `Sparsifier.__call__` (lines 118-119). -/
def filter [AttrVal A] (s : Sparsifier V A) (g : Graph V A) : Py (Graph V A) :=
  filterLoop (s.relevant g).yields (s.relevant g).err g.createEmptyCopy

/-- `graph.remove_edges_from(edges)` with `(u, v, attributes)` triples on a multigraph: the attribute dict is
taken as the edge key, so that the first existing edge raises `TypeError` (unhashable); a missing pair is
ignored. -/
def removeTriplesMulti (g : Graph V A) : List (KeyedEdge V A) → Py Unit
  | [] => .ok ()
  | (u, v, _, _) :: es =>
    if g.hasEdge u v then .error (.typeError "unhashable type: 'dict'") else removeTriplesMulti g es

/-- `Sparsifier.remove` (pelote/sparsification/utils.py:113-116). -/
def remove (s : Sparsifier V A) (g : Graph V A) : Graph V A × Py Unit :=
  match (s.redundant g).err with
  | some e => (g, .error e)
  | none =>
    if g.multi then (g, removeTriplesMulti g (s.redundant g).yields)
    else (g.removeEdgesFrom ((s.redundant g).yields.map (fun e => (e.1, e.2.1))), .ok ())

end Sparsifier

/-- `a[attr] = value` where `a` is the attribute dict of the edge `u, v` of the given key. -/
def Graph.setEdgeAttr {A : Type} (g : Graph V A) (u v : V) (k : PyKey) (attr : String) (value : A) : Graph V A :=
  { g with
    links := g.links.map (fun l =>
      if samePair g.directed u v l.u l.v then
        { l with data := l.data.map (fun ka => if ka.1 = k then (ka.1, ka.2.set (.str attr) value) else ka) }
      else l) }

namespace Sparsifier

/-- Loops of the flagging methods when `full` is not set (pelote/sparsification/utils.py:133-134, 143-144). -/
def flagLoop (attr : String) : List (KeyedEdge V (Val K)) → Option PyErr → Graph V (Val K) →
    Graph V (Val K) × Py Unit
  | [], none, g => (g, .ok ())
  | [], some e, g => (g, .error e)
  | (u, v, k, _) :: es, err, g => flagLoop attr es err (g.setEdgeAttr u v k attr (.bool true))

/-- Loops of the flagging methods when `full` is set (pelote/sparsification/utils.py:138-139 with
`negate = false`, 148-149 with `negate = true`). -/
def flagFullLoop (attr : String) (negate : Bool) (predicate : EdgePred V (Val K)) :
    List (KeyedEdge V (Val K)) → Graph V (Val K) → Graph V (Val K) × Py Unit
  | [], g => (g, .ok ())
  | (u, v, k, a) :: es, g =>
    match predicate u v a with
    | .error e => (g, .error e)
    | .ok b => flagFullLoop attr negate predicate es (g.setEdgeAttr u v k attr (.bool (b != negate)))

/-- `flag_relevant_edges` (pelote/sparsification/utils.py:131-139). -/
def flagRelevant (s : Sparsifier V (Val K)) (g : Graph V (Val K)) (attr : String) (full : Bool) :
    Graph V (Val K) × Py Unit :=
  if full then
    match s.factory g with
    | .error e => (g, .error e)
    | .ok predicate => flagFullLoop attr false predicate g.edgesKeys g
  else flagLoop attr (s.relevant g).yields (s.relevant g).err g

/-- `flag_redundant_edges` (pelote/sparsification/utils.py:141-149). -/
def flagRedundant (s : Sparsifier V (Val K)) (g : Graph V (Val K)) (attr : String) (full : Bool) :
    Graph V (Val K) × Py Unit :=
  if full then
    match s.factory g with
    | .error e => (g, .error e)
    | .ok predicate => flagFullLoop attr true predicate g.edgesKeys g
  else flagLoop attr (s.redundant g).yields (s.redundant g).err g

end Sparsifier

/-- `a[attr] >= t`, or `a[attr] <= t` (pelote/sparsification/global_threshold.py:17-20). -/
def thresholdPredicate (t : K) (attr : String) (reverse : Bool) : EdgePred V (Val K) := fun _ _ a =>
  match a.getItem (.str attr) with
  | .error e => .error e
  | .ok x =>
    match x.toNum with
    | .error e => .error e
    | .ok w => .ok (if reverse then decide (w ≤ t) else decide (w ≥ t))

/-- `GlobalThresholdSparsifier(…)` (pelote/sparsification/global_threshold.py:9-24). -/
def globalThresholdSparsifier [PyOrd V] (ulongMax : Nat) (t : K) (attr : String) (reverse keepConnected : Bool) :
    Py (Sparsifier V (Val K)) :=
  Sparsifier.make ulongMax (some (fun _ => .ok (thresholdPredicate t attr reverse))) none none keepConnected

/-- `global_threshold_sparsification` (pelote/sparsification/global_threshold.py:27-56). -/
def globalThresholdSparsification [PyOrd V] [AttrVal (Val K)] (ulongMax : Nat) (g : Graph V (Val K)) (t : K)
    (attr : String) (reverse keepConnected : Bool) : Py (Graph V (Val K)) :=
  match globalThresholdSparsifier ulongMax t attr reverse keepConnected with
  | .error e => .error e
  | .ok s => s.filter g

/-- `if u > v: u, v = v, u` then `disparity[u, v] <= alpha`
(pelote/sparsification/multiscale_backbone.py:19-23). -/
def disparityPredicate [PyOrd V] (disparity : Dict (V × V) K) (alpha : K) : EdgePred V (Val K) := fun u v _ =>
  match PyOrd.gt u v with
  | .error e => .error e
  | .ok b =>
    match disparity.getItem (if b then (v, u) else (u, v)) with
    | .error e => .error e
    | .ok x => .ok (decide (x ≤ alpha))

/-- The predicate factory of `MultiscaleBackboneSparsifier` (pelote/sparsification/multiscale_backbone.py:16-25), with
the given operations on numbers. -/
def backboneFactoryN [PyOrd V] (ops : NumOps K) (alpha : K) (attr : String) : PredFactory V (Val K) := fun g =>
  match edgeDisparityN ops g attr false with
  | .error e => .error e
  | .ok disparity => .ok (disparityPredicate disparity alpha)

/-- The predicate factory of `MultiscaleBackboneSparsifier` (pelote/sparsification/multiscale_backbone.py:16-25), in
the given arithmetic. -/
def backboneFactoryA [PyOrd V] (ar : Arith K) (alpha : K) (attr : String) : PredFactory V (Val K) :=
  backboneFactoryN ar.ops alpha attr

@[inherit_doc backboneFactoryA]
def backboneFactory [PyOrd V] (alpha : K) (attr : String) : PredFactory V (Val K) := backboneFactoryA Arith.exact alpha attr

/-- `MultiscaleBackboneSparsifier(…)` (pelote/sparsification/multiscale_backbone.py:9-29). -/
def multiscaleBackboneSparsifier [PyOrd V] (ulongMax : Nat) (alpha : K) (attr : String) (keepConnected : Bool) :
    Py (Sparsifier V (Val K)) :=
  Sparsifier.make ulongMax (some (backboneFactory alpha attr)) none none keepConnected

/-- `multiscale_backbone` (pelote/sparsification/multiscale_backbone.py:32-68). -/
def multiscaleBackbone [PyOrd V] [AttrVal (Val K)] (ulongMax : Nat) (g : Graph V (Val K)) (alpha : K)
    (attr : String) (keepConnected : Bool) : Py (Graph V (Val K)) :=
  match multiscaleBackboneSparsifier ulongMax alpha attr keepConnected with
  | .error e => .error e
  | .ok s => s.filter g

/-- `multiscale_backbone` (pelote/sparsification/multiscale_backbone.py:32-68), with the given operations on numbers. -/
def multiscaleBackboneN [PyOrd V] [AttrVal (Val K)] (ops : NumOps K) (ulongMax : Nat) (g : Graph V (Val K)) (alpha : K)
    (attr : String) (keepConnected : Bool) : Py (Graph V (Val K)) :=
  match Sparsifier.make ulongMax (some (backboneFactoryN ops alpha attr)) none none keepConnected with
  | .error e => .error e
  | .ok s => s.filter g

/-- `multiscale_backbone` (pelote/sparsification/multiscale_backbone.py:32-68), in the given arithmetic. -/
def multiscaleBackboneA [PyOrd V] [AttrVal (Val K)] (ar : Arith K) (ulongMax : Nat) (g : Graph V (Val K)) (alpha : K)
    (attr : String) (keepConnected : Bool) : Py (Graph V (Val K)) := multiscaleBackboneN ar.ops ulongMax g alpha attr keepConnected

end Pelote
