import Verif.Nx.Heap
import Verif.Model.Components
import Verif.Model.Sparsification

/-! The functions of pelote which return a graph made from another one, with the identity of attribute dicts.  Predicates get
the content of the dicts and do not modify them. -/
namespace Pelote
variable {V A : Type} [DecidableEq V]

/-- Loop of `filter_edges` (pelote/graph.py:241-243). -/
def filterEdgesLoopH [AttrVal A] (predicate : EdgePred V A) :
    List (V × V × PyKey × Loc) → Heap A → HGraph V → Py (Heap A × HGraph V)
  | [], H, copy => .ok (H, copy)
  | (u, v, _, l) :: rest, H, copy =>
    match predicate u v (H.read l) with
    | .error e => .error e
    | .ok false => filterEdgesLoopH predicate rest H copy
    | .ok true =>
      match copy.addEdge H u v (H.read l) with
      | .error e => .error e
      | .ok (H, copy) => filterEdgesLoopH predicate rest H copy

/-- `filter_edges(graph, predicate)` (pelote/graph.py:220-245). -/
def filterEdgesH [AttrVal A] (H : Heap A) (g : HGraph V) (predicate : EdgePred V A) : Py (Heap A × HGraph V) :=
  let r := g.createEmptyCopy H
  filterEdgesLoopH predicate g.edgesKeys r.1 r.2

/-- Inner loops of `filter_nodes` over the edges of a kept node (pelote/graph.py:324-341), see `filterNodesEdges`. -/
def filterNodesEdgesH [AttrVal A] [PyOrd V] (g : HGraph V) (predicate : NodePred V A) :
    List (V × V × PyKey × Loc) → Heap A → HGraph V → Py (Heap A × HGraph V)
  | [], H, copy => .ok (H, copy)
  | (u, v, k, l) :: rest, H, copy =>
    match (if g.directed then .ok true else PyOrd.gt u v) with
    | .error e => .error e
    | .ok false => filterNodesEdgesH g predicate rest H copy
    | .ok true =>
      match g.node.getItem v with
      | .error e => .error e
      | .ok lv =>
        match predicate v (H.read lv) with
        | .error e => .error e
        | .ok false => filterNodesEdgesH g predicate rest H copy
        | .ok true =>
          match (if g.multi then copy.addEdgeKey H u v k (H.read l) else copy.addEdge H u v (H.read l)) with
          | .error e => .error e
          | .ok (H, copy) => filterNodesEdgesH g predicate rest H copy

/-- Outer loop of `filter_nodes` (pelote/graph.py:318-343). -/
def filterNodesLoopH [AttrVal A] [PyOrd V] (g : HGraph V) (predicate : NodePred V A) :
    Dict V Loc → Heap A → HGraph V → Py (Heap A × HGraph V)
  | [], H, copy => .ok (H, copy)
  | (n, l) :: rest, H, copy =>
    match predicate n (H.read l) with
    | .error e => .error e
    | .ok false => filterNodesLoopH g predicate rest H copy
    | .ok true =>
      match copy.addNode H n (H.read l) with
      | .error e => .error e
      | .ok (H, copy) =>
        match filterNodesEdgesH g predicate (g.edgesOf n) H copy with
        | .error e => .error e
        | .ok (H, copy) => filterNodesLoopH g predicate rest H copy

/-- `filter_nodes(graph, predicate)` (pelote/graph.py:285-343), the copy being made by `create_null_copy` (lines 46-49). -/
def filterNodesH [AttrVal A] [PyOrd V] (H : Heap A) (g : HGraph V) (predicate : NodePred V A) : Py (Heap A × HGraph V) :=
  match Graph.checkKwargs ["self", "incoming_graph_data"] (H.read g.attrs) with
  | .error e => .error e
  | .ok () =>
    let r : Heap A × HGraph V := HGraph.new H g.directed g.multi (H.read g.attrs)
    filterNodesLoopH g predicate g.node r.1 r.2

/-- `filter_leaves(graph)` (pelote/graph.py:373-395). -/
def filterLeavesH [AttrVal A] [PyOrd V] (H : Heap A) (g : HGraph V) : Py (Heap A × HGraph V) :=
  filterNodesH H g (fun n _ => .ok (decide ((g.deref H).degree n ≠ 1)))

/-- `for node, attr in graph.nodes.data(): subgraph.add_node(node, **attr)` (pelote/graph.py:142-143). -/
def addNodesH : Dict V Loc → Heap A → HGraph V → Py (Heap A × HGraph V)
  | [], H, s => .ok (H, s)
  | (n, l) :: ns, H, s =>
    match s.addNode H n (H.read l) with
    | .error e => .error e
    | .ok (H, s) => addNodesH ns H s

/-- `for source, target, attr in graph.edges.data(): …` (pelote/graph.py:148-154). -/
def addComponentEdgesH [AttrVal A] (c : List V) : List (V × V × PyKey × Loc) → Heap A → HGraph V → Py (Heap A × HGraph V)
  | [], H, s => .ok (H, s)
  | (u, v, _, l) :: es, H, s =>
    if !decide (u ∈ c) then addComponentEdgesH c es H s
    else
      match s.addEdge H u v (H.read l) with
      | .error e => .error e
      | .ok (H, s) => addComponentEdgesH c es H s

/-- `largest_connected_component_subgraph(graph, as_view)` (pelote/graph.py:117-156); the component does not depend on the
identity of dicts. -/
def largestComponentSubgraphH [AttrVal A] (H : Heap A) (g : HGraph V) (asView : Bool) : Py (Heap A × HGraph V) :=
  match largestConnectedComponent (g.deref H) with
  | .error e => .error e
  | .ok lc =>
    let component := lc.getD []
    if asView then .ok (H, g.subgraph component)
    else
      let r := g.createEmptyCopy H
      match addNodesH g.node r.1 r.2 with
      | .error e => .error e
      | .ok (H, s) =>
        if component.isEmpty then .ok (H, s)
        else addComponentEdgesH component g.edgesKeys H s

/-- Loop of `Sparsifier.filter` (pelote/sparsification/utils.py:108-109) over the edges given by the generator, whose
attributes are dicts of the graph. -/
def sparsifierFilterLoopH [AttrVal A] : List (V × V × PyKey × Loc) → Option PyErr → Heap A → HGraph V →
    Py (Heap A × HGraph V)
  | [], none, H, copy => .ok (H, copy)
  | [], some e, _, _ => .error e
  | (u, v, _, l) :: es, err, H, copy =>
    match copy.addEdge H u v (H.read l) with
    | .error e => .error e
    | .ok (H, copy) => sparsifierFilterLoopH es err H copy

/-- `Sparsifier.filter` (pelote/sparsification/utils.py:103-111), given what the generator of relevant edges yields. -/
def sparsifierFilterH [AttrVal A] (H : Heap A) (g : HGraph V) (relevant : Gen (V × V × PyKey × Loc)) :
    Py (Heap A × HGraph V) :=
  let r := g.createEmptyCopy H
  sparsifierFilterLoopH relevant.yields relevant.err r.1 r.2

/-- What the default generators yield (pelote/sparsification/utils.py:60-65 with `want = true`, 87-92 with `want = false`):
the dicts of the graph themselves. -/
def yieldWhenH (H : Heap A) (want : Bool) (predicate : EdgePred V A) :
    List (V × V × PyKey × Loc) → Gen (V × V × PyKey × Loc)
  | [] => ⟨[], none⟩
  | (u, v, k, l) :: es =>
    match predicate u v (H.read l) with
    | .error e => ⟨[], some e⟩
    | .ok b =>
      let rest := yieldWhenH H want predicate es
      ⟨if b = want then (u, v, k, l) :: rest.yields else rest.yields, rest.err⟩

/-- Loop of the flagging methods when `full` is not set (pelote/sparsification/utils.py:133-134 with `want = true`, 143-144
with `want = false`) over the default generator: each edge is tested once the edges before it are flagged, and flagged in
place. -/
def flagLazyH (attr : String) (want : Bool) (value : A) (predicate : EdgePred V A) :
    List (V × V × PyKey × Loc) → Heap A → Heap A × Py Unit
  | [], H => (H, .ok ())
  | (u, v, _, l) :: es, H =>
    match predicate u v (H.read l) with
    | .error e => (H, .error e)
    | .ok b =>
      flagLazyH attr want value predicate es (if b = want then H.write l ((H.read l).set (.str attr) value) else H)

/-- Loops of the flagging methods when `full` is set (pelote/sparsification/utils.py:138-139 with `negate = false`, 148-149
with `negate = true`), in place. -/
def flagFullH (attr : String) (toVal : Bool → A) (negate : Bool) (predicate : EdgePred V A) :
    List (V × V × PyKey × Loc) → Heap A → Heap A × Py Unit
  | [], H => (H, .ok ())
  | (u, v, _, l) :: es, H =>
    match predicate u v (H.read l) with
    | .error e => (H, .error e)
    | .ok b => flagFullH attr toVal negate predicate es (H.write l ((H.read l).set (.str attr) (toVal (b != negate))))

/-- A call on a graph under construction: `add_node(n, **attr)`, `add_edge(u, v, **attr)`, `add_edge(u, v, key=k, **attr)`. -/
inductive BuildOp (V A : Type)
  | node (n : V) (attr : Attrs A)
  | edge (u v : V) (attr : Attrs A)
  | edgeKey (u v : V) (k : PyKey) (attr : Attrs A)

/-- The calls, without the identity of dicts. -/
def build [AttrVal A] : List (BuildOp V A) → Graph V A → Py (Graph V A)
  | [], g => .ok g
  | .node n a :: ops, g =>
    match g.addNode n a with
    | .error e => .error e
    | .ok g => build ops g
  | .edge u v a :: ops, g =>
    match g.addEdge u v a with
    | .error e => .error e
    | .ok g => build ops g
  | .edgeKey u v k a :: ops, g =>
    match g.addEdgeKey u v k a with
    | .error e => .error e
    | .ok g => build ops g

/-- The calls made on a new graph by `monopartite_projection` (pelote/projection.py:93-171), `self_similarity_projection`
(pelote/projection.py:206-259), `parse_graphology_json` (pelote/read.py:36-67) and the functions of
pelote/tabular_to_graph.py, in the order in which they are made. -/
def buildH [AttrVal A] : List (BuildOp V A) → Heap A → HGraph V → Py (Heap A × HGraph V)
  | [], H, g => .ok (H, g)
  | .node n a :: ops, H, g =>
    match g.addNode H n a with
    | .error e => .error e
    | .ok (H, g) => buildH ops H g
  | .edge u v a :: ops, H, g =>
    match g.addEdge H u v a with
    | .error e => .error e
    | .ok (H, g) => buildH ops H g
  | .edgeKey u v k a :: ops, H, g =>
    match g.addEdgeKey H u v k a with
    | .error e => .error e
    | .ok (H, g) => buildH ops H g

end Pelote
