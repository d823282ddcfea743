import Verif.Model.Components

/-! The functions taking a predicate, for predicates with memory (a sampler, a counter, a cache): a call may depend on the
earlier ones.  Model of the same lines as `Verif/Model/Graph.lean` and `Verif/Model/Components.lean`, the state of the
predicate being threaded through the calls in the order Python makes them.  The predicate does not modify the graph. -/
namespace Pelote
variable {V A σ : Type} [DecidableEq V]

/-- A node predicate with memory: from the state, the answer (or an exception) and the new state. -/
abbrev NodePredM (σ V A : Type) := V → Attrs A → σ → Py Bool × σ

/-- An edge predicate with memory. -/
abbrev EdgePredM (σ V A : Type) := V → V → Attrs A → σ → Py Bool × σ

/-- Loop of `remove_edges` (pelote/graph.py:211-215). -/
def edgesToDropM (predicate : EdgePredM σ V A) : List (V × V × Attrs A) → σ → Py (List (V × V)) × σ
  | [], s => (.ok [], s)
  | (u, v, a) :: rest, s =>
    match predicate u v a s with
    | (.error e, s) => (.error e, s)
    | (.ok b, s) =>
      match edgesToDropM predicate rest s with
      | (.error e, s) => (.error e, s)
      | (.ok es, s) => (.ok (if b then es else (u, v) :: es), s)

/-- `remove_edges(graph, predicate)` (pelote/graph.py:193-217). -/
def removeEdgesM (g : Graph V A) (predicate : EdgePredM σ V A) (s : σ) : (Graph V A × Py Unit) × σ :=
  match edgesToDropM predicate g.edgesData s with
  | (.error e, s) => ((g, .error e), s)
  | (.ok es, s) => ((g.removeEdgesFrom es, .ok ()), s)

/-- Loop of `filter_edges` (pelote/graph.py:241-243). -/
def filterEdgesLoopM [AttrVal A] (predicate : EdgePredM σ V A) :
    List (V × V × Attrs A) → Graph V A → σ → Py (Graph V A) × σ
  | [], copy, s => (.ok copy, s)
  | (u, v, a) :: rest, copy, s =>
    match predicate u v a s with
    | (.error e, s) => (.error e, s)
    | (.ok false, s) => filterEdgesLoopM predicate rest copy s
    | (.ok true, s) =>
      match copy.addEdge u v a with
      | .error e => (.error e, s)
      | .ok copy => filterEdgesLoopM predicate rest copy s

/-- `filter_edges(graph, predicate)` (pelote/graph.py:220-245). -/
def filterEdgesM [AttrVal A] (g : Graph V A) (predicate : EdgePredM σ V A) (s : σ) : Py (Graph V A) × σ :=
  filterEdgesLoopM predicate g.edgesData g.createEmptyCopy s

/-- Loop of `remove_nodes` (pelote/graph.py:276-280). -/
def nodesToDropM (predicate : NodePredM σ V A) : Dict V (Attrs A) → σ → Py (List V) × σ
  | [], s => (.ok [], s)
  | (n, a) :: rest, s =>
    match predicate n a s with
    | (.error e, s) => (.error e, s)
    | (.ok b, s) =>
      match nodesToDropM predicate rest s with
      | (.error e, s) => (.error e, s)
      | (.ok ns, s) => (.ok (if b then ns else n :: ns), s)

/-- `remove_nodes(graph, predicate)` (pelote/graph.py:248-282). -/
def removeNodesM (g : Graph V A) (predicate : NodePredM σ V A) (s : σ) : (Graph V A × Py Unit) × σ :=
  match nodesToDropM predicate g.node s with
  | (.error e, s) => ((g, .error e), s)
  | (.ok ns, s) => ((g.removeNodesFrom ns, .ok ()), s)

/-- Inner loops of `filter_nodes` (pelote/graph.py:324-341). -/
def filterNodesEdgesM [AttrVal A] [PyOrd V] (g : Graph V A) (predicate : NodePredM σ V A) :
    List (V × V × PyKey × Attrs A) → Graph V A → σ → Py (Graph V A) × σ
  | [], copy, s => (.ok copy, s)
  | (u, v, k, a) :: rest, copy, s =>
    match (if g.directed then .ok true else PyOrd.gt u v) with
    | .error e => (.error e, s)
    | .ok false => filterNodesEdgesM g predicate rest copy s
    | .ok true =>
      match g.nodeData v with
      | .error e => (.error e, s)
      | .ok av =>
        match predicate v av s with
        | (.error e, s) => (.error e, s)
        | (.ok false, s) => filterNodesEdgesM g predicate rest copy s
        | (.ok true, s) =>
          match (if g.multi then copy.addEdgeKey u v k a else copy.addEdge u v a) with
          | .error e => (.error e, s)
          | .ok copy => filterNodesEdgesM g predicate rest copy s

/-- Outer loop of `filter_nodes` (pelote/graph.py:318-343). -/
def filterNodesLoopM [AttrVal A] [PyOrd V] (g : Graph V A) (predicate : NodePredM σ V A) :
    Dict V (Attrs A) → Graph V A → σ → Py (Graph V A) × σ
  | [], copy, s => (.ok copy, s)
  | (n, a) :: rest, copy, s =>
    match predicate n a s with
    | (.error e, s) => (.error e, s)
    | (.ok false, s) => filterNodesLoopM g predicate rest copy s
    | (.ok true, s) =>
      match copy.addNode n a with
      | .error e => (.error e, s)
      | .ok copy =>
        match filterNodesEdgesM g predicate (g.edgesOf n) copy s with
        | (.error e, s) => (.error e, s)
        | (.ok copy, s) => filterNodesLoopM g predicate rest copy s

/-- `filter_nodes(graph, predicate)` (pelote/graph.py:285-343). -/
def filterNodesM [AttrVal A] [PyOrd V] (g : Graph V A) (predicate : NodePredM σ V A) (s : σ) :
    Py (Graph V A) × σ :=
  match createNullCopy g with
  | .error e => (.error e, s)
  | .ok copy => filterNodesLoopM g predicate g.node copy s

/-- `for _, n2, edge_attr in graph.edges(n1, data=True): …` (pelote/graph.py:433-437), with a filter. -/
def pushNeighborsM (filter : EdgePredM σ V A) (n1 : V) :
    List (V × V × PyKey × Attrs A) → Traversal V V → σ → Py (Traversal V V) × σ
  | [], t, s => (.ok t, s)
  | (_, n2, _, a) :: es, t, s =>
    match filter n1 n2 a s with
    | (.error e, s) => (.error e, s)
    | (.ok b, s) => pushNeighborsM filter n1 es (if b then (t.append id n2 none).1 else t) s

/-- `while len(stack) != 0: …` (pelote/graph.py:429-437). -/
def drainStackM (g : Graph V A) (filter : EdgePredM σ V A) :
    Nat → Traversal V V → Nat → σ → Py (Nat × Traversal V V) × σ
  | fuel, t, size, s =>
    if t.len = 0 then (.ok (size, t), s)
    else
      match fuel with
      | 0 => (.error .diverges, s)
      | fuel + 1 =>
        match t.pop with
        | .error e => (.error e, s)
        | .ok (t, n1) =>
          match pushNeighborsM filter n1 (g.edgesOf n1) t s with
          | (.error e, s) => (.error e, s)
          | (.ok t, s) => drainStackM g filter fuel t (size + 1) s

/-- `for node in stack.nodes_yet_unseen(): …` (pelote/graph.py:425-439). -/
def componentOrdersLoopM (g : Graph V A) (filter : EdgePredM σ V A) : List V → Traversal V V → σ → Gen Nat × σ
  | [], _, s => (⟨[], none⟩, s)
  | n :: ns, t, s =>
    if t.seenAll then (⟨[], none⟩, s)
    else if t.contains n then componentOrdersLoopM g filter ns t s
    else
      match drainStackM g filter g.order (t.append id n none).1 0 s with
      | (.error e, s) => (⟨[], some e⟩, s)
      | (.ok (size, t), s) =>
        let r := componentOrdersLoopM g filter ns t s
        (⟨size :: r.1.yields, r.1.err⟩, r.2)

/-- `connected_component_orders(graph, edge_filter)` (pelote/graph.py:398-441), run to the end. -/
def connectedComponentOrdersM (g : Graph V A) (filter : EdgePredM σ V A) (s : σ) : Gen Nat × σ :=
  componentOrdersLoopM g filter g.nodes (Traversal.init g.nodes) s

end Pelote
