import Verif.Nx.Graph

/-! Model of the copying, removing, filtering and comparing functions of `pelote/graph.py`
(lines 39-395, except the component functions, which are in `Verif/Model/Components.lean`).

The dynamic checks `check_graph(graph)` and `callable(predicate)` are not modelled: the arguments are
graphs and functions by typing.  A predicate is a pure function that may raise.  A function that mutates
its argument is modelled by the graph after the call together with what the call raised, if anything. -/
namespace Pelote
variable {V A : Type} [DecidableEq V]

/-- Python comparison of node keys: incomparable keys raise `TypeError`. -/
class PyOrd (V : Type) where
  gt : V → V → Py Bool

instance : PyOrd Int := ⟨fun a b => .ok (decide (a > b))⟩
instance : PyOrd Nat := ⟨fun a b => .ok (decide (a > b))⟩

/-- `int` and `str` node keys: only keys of one type can be compared (`bool` behaves like `int` in Python
and is left out: it never appears as a node key in the examples). -/
instance : PyOrd PyKey where
  gt
    | .int a, .int b => .ok (decide (a > b))
    | .str a, .str b => .ok (decide (a > b))
    | _, _ => .error (.typeError "'>' not supported")

/-- A predicate over nodes. -/
abbrev NodePred (V A : Type) := V → Attrs A → Py Bool

/-- A predicate over edges. -/
abbrev EdgePred (V A : Type) := V → V → Attrs A → Py Bool

/-- `check_node_exists(g, n)` (pelote/graph.py:39-43). -/
def checkNodeExists (g : Graph V A) (n : V) : Py V :=
  if g.hasNode n then .ok n else .error .keyError

/-- `create_null_copy(graph)` (pelote/graph.py:46-49): `graph.__class__(**graph.graph)`.  The only named
parameters of the constructor are `self` (raises) and `incoming_graph_data`; an attribute of the latter
name would be loaded as graph data, which is modelled as an error. -/
def createNullCopy (g : Graph V A) : Py (Graph V A) :=
  match Graph.checkKwargs ["self", "incoming_graph_data"] g.attrs with
  | .error e => .error e
  | .ok () => .ok (Graph.empty g.directed g.multi g.attrs)

/-- `attr == other` for two attribute dicts: same names, equal values, order ignored. -/
def attrsEq [DecidableEq A] (a b : Attrs A) : Bool :=
  a.length == b.length && a.all (fun kv => b.get? kv.1 == some kv.2)

/-- Loop of `have_same_nodes` (pelote/graph.py:163-170). -/
def haveSameNodesLoop [DecidableEq A] (B : Graph V A) (check : Bool) :
    Dict V (Attrs A) → Py Bool
  | [] => .ok true
  | (n, a) :: rest =>
    if !B.hasNode n then .ok false
    else
      match (if check then B.nodeData n else .ok a) with
      | .error e => .error e
      | .ok b => if check && !attrsEq a b then .ok false else haveSameNodesLoop B check rest

/-- `have_same_nodes(A, B, check_attributes)` (pelote/graph.py:159-170). -/
def haveSameNodes [DecidableEq A] (a b : Graph V A) (check : Bool) : Py Bool :=
  if a.order ≠ b.order then .ok false else haveSameNodesLoop b check a.node

/-- `attr == B[u][v]` (pelote/graph.py:181): for a simple graph `B[u][v]` is the attribute dict, for a
multigraph it is the dict key -> attributes.  Two dicts of different levels are equal only when both
are empty, or could be if attribute values were themselves attribute dicts; attribute values are not
dicts here, and key dicts are never empty. -/
def edgeDataEq [DecidableEq A] (b : Graph V A) (attr : Attrs A) (u v : V) : Py Bool :=
  match b.keydict? u v with
  | none => .error .keyError
  | some d =>
    if b.multi then .ok (attr.isEmpty && d.isEmpty)
    else .ok (attrsEq attr ((d.get? (.int 0)).getD []))

/-- Loop of `have_same_edges` (pelote/graph.py:177-184). -/
def haveSameEdgesLoop [DecidableEq A] (b : Graph V A) (check : Bool) : List (V × V × Attrs A) → Py Bool
  | [] => .ok true
  | (u, v, attr) :: rest =>
    if !b.hasEdge u v then .ok false
    else
      match (if check then edgeDataEq b attr u v else .ok true) with
      | .error e => .error e
      | .ok eq => if check && !eq then .ok false else haveSameEdgesLoop b check rest

/-- `have_same_edges(A, B, check_attributes)` (pelote/graph.py:173-184). -/
def haveSameEdges [DecidableEq A] (a b : Graph V A) (check : Bool) : Py Bool :=
  if a.size ≠ b.size then .ok false else haveSameEdgesLoop b check a.edgesData

/-- `are_same_graphs(A, B, check_attributes)` (pelote/graph.py:187-190). -/
def areSameGraphs [DecidableEq A] (a b : Graph V A) (check : Bool) : Py Bool :=
  match haveSameNodes a b check with
  | .error e => .error e
  | .ok false => .ok false
  | .ok true => haveSameEdges a b check

/-- Loop of `remove_edges` (pelote/graph.py:211-215): the pairs of the edges that do not pass. -/
def edgesToDrop (predicate : EdgePred V A) : List (V × V × Attrs A) → Py (List (V × V))
  | [] => .ok []
  | (u, v, a) :: rest =>
    match predicate u v a with
    | .error e => .error e
    | .ok b =>
      match edgesToDrop predicate rest with
      | .error e => .error e
      | .ok es => .ok (if b then es else (u, v) :: es)

/-- `remove_edges(graph, predicate)` (pelote/graph.py:193-217). -/
def removeEdges (g : Graph V A) (predicate : EdgePred V A) : Graph V A × Py Unit :=
  match edgesToDrop predicate g.edgesData with
  | .error e => (g, .error e)
  | .ok es => (g.removeEdgesFrom es, .ok ())

/-- Loop of `filter_edges` (pelote/graph.py:241-243). -/
def filterEdgesLoop [AttrVal A] (predicate : EdgePred V A) :
    List (V × V × Attrs A) → Graph V A → Py (Graph V A)
  | [], copy => .ok copy
  | (u, v, a) :: rest, copy =>
    match predicate u v a with
    | .error e => .error e
    | .ok false => filterEdgesLoop predicate rest copy
    | .ok true =>
      match copy.addEdge u v a with
      | .error e => .error e
      | .ok copy => filterEdgesLoop predicate rest copy

/-- `filter_edges(graph, predicate)` (pelote/graph.py:220-245). -/
def filterEdges [AttrVal A] (g : Graph V A) (predicate : EdgePred V A) : Py (Graph V A) :=
  filterEdgesLoop predicate g.edgesData g.createEmptyCopy

/-- Loop of `remove_nodes` (pelote/graph.py:276-280). -/
def nodesToDrop (predicate : NodePred V A) : Dict V (Attrs A) → Py (List V)
  | [] => .ok []
  | (n, a) :: rest =>
    match predicate n a with
    | .error e => .error e
    | .ok b =>
      match nodesToDrop predicate rest with
      | .error e => .error e
      | .ok ns => .ok (if b then ns else n :: ns)

/-- `remove_nodes(graph, predicate)` (pelote/graph.py:248-282). -/
def removeNodes (g : Graph V A) (predicate : NodePred V A) : Graph V A × Py Unit :=
  match nodesToDrop predicate g.node with
  | .error e => (g, .error e)
  | .ok ns => (g.removeNodesFrom ns, .ok ())

/-- Inner loops of `filter_nodes` over the edges of a kept node (pelote/graph.py:324-341): the test is
`predicate(v, graph.nodes[v])` for a directed graph and `u > v and predicate(v, graph.nodes[v])`
otherwise; the key is passed for a multigraph. -/
def filterNodesEdges [AttrVal A] [PyOrd V] (g : Graph V A) (predicate : NodePred V A) :
    List (V × V × PyKey × Attrs A) → Graph V A → Py (Graph V A)
  | [], copy => .ok copy
  | (u, v, k, a) :: rest, copy =>
    match (if g.directed then .ok true else PyOrd.gt u v) with
    | .error e => .error e
    | .ok false => filterNodesEdges g predicate rest copy
    | .ok true =>
      match g.nodeData v with
      | .error e => .error e
      | .ok av =>
        match predicate v av with
        | .error e => .error e
        | .ok false => filterNodesEdges g predicate rest copy
        | .ok true =>
          match (if g.multi then copy.addEdgeKey u v k a else copy.addEdge u v a) with
          | .error e => .error e
          | .ok copy => filterNodesEdges g predicate rest copy

/-- Outer loop of `filter_nodes` (pelote/graph.py:318-343). -/
def filterNodesLoop [AttrVal A] [PyOrd V] (g : Graph V A) (predicate : NodePred V A) :
    Dict V (Attrs A) → Graph V A → Py (Graph V A)
  | [], copy => .ok copy
  | (n, a) :: rest, copy =>
    match predicate n a with
    | .error e => .error e
    | .ok false => filterNodesLoop g predicate rest copy
    | .ok true =>
      match copy.addNode n a with
      | .error e => .error e
      | .ok copy =>
        match filterNodesEdges g predicate (g.edgesOf n) copy with
        | .error e => .error e
        | .ok copy => filterNodesLoop g predicate rest copy

/-- `filter_nodes(graph, predicate)` (pelote/graph.py:285-343). -/
def filterNodes [AttrVal A] [PyOrd V] (g : Graph V A) (predicate : NodePred V A) : Py (Graph V A) :=
  match createNullCopy g with
  | .error e => .error e
  | .ok copy => filterNodesLoop g predicate g.node copy

/-- `remove_leaves(graph)` (pelote/graph.py:346-370). -/
def removeLeaves (g : Graph V A) : Graph V A × Py Unit :=
  removeNodes g (fun n _ => .ok (decide (g.degree n ≠ 1)))

/-- `filter_leaves(graph)` (pelote/graph.py:373-395). -/
def filterLeaves [AttrVal A] [PyOrd V] (g : Graph V A) : Py (Graph V A) :=
  filterNodes g (fun n _ => .ok (decide (g.degree n ≠ 1)))

end Pelote
