import Verif.Py.Basic

/-! Model of the networkx 2.5 graph classes, as far as pelote uses them (networkx is an external
dependency: this file is part of the trusted base, see DESIGN.md).

The four classes are one structure.  networkx keeps an ordered dict `node -> attributes` and, for each
node, an ordered dict `neighbor -> key -> attributes` (`neighbor -> attributes` for simple graphs).
Both directions of an adjacency are inserted and removed together, so a single ordered list with one
entry (`Link`) per adjacent pair determines every adjacency order.  A simple graph is modelled with one
key (`0`) per link. -/
namespace Pelote

/-- An attribute dict. -/
abbrev Attrs (A : Type) := Dict PyKey A

/-- What an attribute value is when used as a multigraph edge key (`add_edge(u, v, **{"key": value})`):
`none` for `None` (a fresh key is then generated), an error for an unhashable value. -/
class AttrVal (A : Type) where
  asKey : A → Py (Option PyKey)

/-- Adjacency entry of one pair of nodes, in the orientation in which the pair was first added. -/
structure Link (V A : Type) where
  u : V
  v : V
  data : Dict PyKey (Attrs A)

/-- A networkx graph of any of the four classes. -/
structure Graph (V A : Type) where
  directed : Bool
  multi : Bool
  attrs : Attrs A
  node : Dict V (Attrs A)
  links : List (Link V A)

/-- `(u, v)` and `(x, y)` designate the same adjacency entry. -/
def samePair {V : Type} [DecidableEq V] (directed : Bool) (u v x y : V) : Bool :=
  (decide (u = x) && decide (v = y)) || (!directed && decide (u = y) && decide (v = x))

namespace Graph
variable {V A : Type} [DecidableEq V]

/-- A graph of the given class without nodes. -/
def empty (directed multi : Bool) (attrs : Attrs A) : Graph V A := ⟨directed, multi, attrs, [], []⟩

/-- `list(g)`. -/
def nodes (g : Graph V A) : List V := g.node.keys

/-- `g.order()`, `len(g)`. -/
def order (g : Graph V A) : Nat := g.node.length

/-- `n in g`. -/
def hasNode (g : Graph V A) (n : V) : Bool := g.node.has n

/-- `g.nodes[n]`. -/
def nodeData (g : Graph V A) (n : V) : Py (Attrs A) := g.node.getItem n

/-- The other end of a link seen from `n` (successor side for a directed graph). -/
def Link.from? (directed : Bool) (n : V) (l : Link V A) : Option (V × Dict PyKey (Attrs A)) :=
  if l.u = n then some (l.v, l.data)
  else if !directed && decide (l.v = n) then some (l.u, l.data)
  else none

/-- The other end of a link seen from `n`, predecessor side. -/
def Link.to? (directed : Bool) (n : V) (l : Link V A) : Option (V × Dict PyKey (Attrs A)) :=
  if directed then (if l.v = n then some (l.u, l.data) else none) else Link.from? false n l

/-- `g[n].items()` = `g.adj[n].items()` = `g.succ[n].items()`: neighbors with their key dict. -/
def adj (g : Graph V A) (n : V) : List (V × Dict PyKey (Attrs A)) :=
  g.links.filterMap (Link.from? g.directed n)

/-- `g.pred[n].items()` for a directed graph. -/
def pred (g : Graph V A) (n : V) : List (V × Dict PyKey (Attrs A)) :=
  g.links.filterMap (Link.to? g.directed n)

/-- `g.neighbors(n)`, `g.successors(n)`. -/
def neighbors (g : Graph V A) (n : V) : List V := (g.adj n).map Prod.fst

/-- `g.predecessors(n)`. -/
def predecessors (g : Graph V A) (n : V) : List V := (g.pred n).map Prod.fst

/-- The key dict of a pair. -/
def keydict? (g : Graph V A) (u v : V) : Option (Dict PyKey (Attrs A)) :=
  (g.links.find? (fun l => samePair g.directed u v l.u l.v)).map Link.data

/-- `g.has_edge(u, v)`. -/
def hasEdge (g : Graph V A) (u v : V) : Bool := (g.keydict? u v).isSome

/-- Edges `(u, v, key, attributes)` from a list of nodes still to be visited, given the nodes already
visited (networkx `EdgeDataView.__iter__` keeps a `seen` dict for undirected graphs only). -/
def edgesFrom (g : Graph V A) : List V → List V → List (V × V × PyKey × Attrs A)
  | _, [] => []
  | seen, n :: ns =>
    ((g.adj n).filter (fun p => g.directed || !decide (p.1 ∈ seen))).flatMap
      (fun p => p.2.map (fun ka => (n, p.1, ka.1, ka.2))) ++
    edgesFrom g (n :: seen) ns

/-- `g.edges(keys=True, data=True)` of a multigraph; for a simple graph every key is `0`. -/
def edgesKeys (g : Graph V A) : List (V × V × PyKey × Attrs A) := g.edgesFrom [] g.nodes

/-- `g.edges.data()` = `g.edges(data=True)`. -/
def edgesData (g : Graph V A) : List (V × V × Attrs A) :=
  g.edgesKeys.map (fun e => (e.1, e.2.1, e.2.2.2))

/-- `g.edges()`. -/
def edges (g : Graph V A) : List (V × V) := g.edgesKeys.map (fun e => (e.1, e.2.1))

/-- `g.edges(n, keys=True, data=True)` = `g.out_edges(n, keys=True, data=True)`. -/
def edgesOf (g : Graph V A) (n : V) : List (V × V × PyKey × Attrs A) :=
  (g.adj n).flatMap (fun p => p.2.map (fun ka => (n, p.1, ka.1, ka.2)))

/-- `g.degree(n)`, `g.degree[n]`: number of incident edges, a self loop counting twice. -/
def degree (g : Graph V A) (n : V) : Nat :=
  if g.directed then
    ((g.adj n).map (fun p => p.2.length)).sum + ((g.pred n).map (fun p => p.2.length)).sum
  else
    ((g.adj n).map (fun p => p.2.length)).sum +
      (((g.adj n).filter (fun p => p.1 = n)).map (fun p => p.2.length)).sum

/-- `g.size()`: half the sum of the degrees. -/
def size (g : Graph V A) : Nat := (g.nodes.map g.degree).sum / 2

/-! ### Mutations -/

/-- Keyword arguments `**attr`: every name must be a string and none may be one of the named
parameters. -/
def checkKwargs (reserved : List String) (attr : Attrs A) : Py Unit :=
  if attr.all (fun kv => kv.1.isStr) then
    if attr.any (fun kv => reserved.any (fun r => kv.1 = .str r)) then
      .error (.typeError "got multiple values for argument")
    else .ok ()
  else .error (.typeError "keywords must be strings")

/-- `add_node` once the keyword arguments are bound. -/
def addNodeCore (g : Graph V A) (n : V) (attr : Attrs A) : Graph V A :=
  { g with node := g.node.set n (((g.node.get? n).getD []).update attr) }

/-- `g.add_node(n, **attr)`. -/
def addNode (g : Graph V A) (n : V) (attr : Attrs A) : Py (Graph V A) :=
  match checkKwargs ["self", "node_for_adding"] attr with
  | .error e => .error e
  | .ok () => .ok (g.addNodeCore n attr)

/-- First free integer key from `n` on (`while key in keydict: key += 1`); the fuel is the number of
keys plus one, enough by the pigeonhole principle. -/
def freeKey (keys : List PyKey) : Nat → Nat → Nat
  | 0, n => n
  | fuel + 1, n => if PyKey.int n ∈ keys then freeKey keys fuel (n + 1) else n

/-- `new_edge_key(u, v)`. -/
def newEdgeKey (data : Dict PyKey (Attrs A)) : PyKey :=
  .int (freeKey data.keys (data.length + 1) data.length)

/-- Make sure a node exists (`if u not in self._node: …`). -/
def ensureNode (g : Graph V A) (n : V) : Graph V A :=
  if g.hasNode n then g else { g with node := g.node ++ [(n, [])] }

/-- Add an edge to a key dict, `key = none` meaning a fresh key (multigraph) or the unique key
(simple graph). -/
def addToData (multi : Bool) (data : Dict PyKey (Attrs A)) (key : Option PyKey) (attr : Attrs A) :
    Dict PyKey (Attrs A) :=
  let k := if multi then key.getD (newEdgeKey data) else .int 0
  data.set k (((data.get? k).getD []).update attr)

/-- Update the link of a pair, or append a new one. -/
def addLink (directed multi : Bool) (u v : V) (key : Option PyKey) (attr : Attrs A) :
    List (Link V A) → List (Link V A)
  | [] => [⟨u, v, addToData multi [] key attr⟩]
  | l :: ls =>
    if samePair directed u v l.u l.v then { l with data := addToData multi l.data key attr } :: ls
    else l :: addLink directed multi u v key attr ls

/-- `add_edge` once the arguments are bound. -/
def addEdgeCore (g : Graph V A) (u v : V) (key : Option PyKey) (attr : Attrs A) : Graph V A :=
  let g := (g.ensureNode u).ensureNode v
  { g with links := addLink g.directed g.multi u v key attr g.links }

/-- `g.add_edge(u, v, **attr)`.  For a multigraph, an attribute named `key` is bound to the `key`
parameter. -/
def addEdge [AttrVal A] (g : Graph V A) (u v : V) (attr : Attrs A) : Py (Graph V A) :=
  if g.multi then
    match checkKwargs ["self", "u_for_edge", "v_for_edge"] attr with
    | .error e => .error e
    | .ok () =>
      match attr.get? (.str "key") with
      | none => .ok (g.addEdgeCore u v none attr)
      | some k =>
        match AttrVal.asKey k with
        | .error e => .error e
        | .ok k => .ok (g.addEdgeCore u v k (attr.erase (.str "key")))
  else
    match checkKwargs ["self", "u_of_edge", "v_of_edge"] attr with
    | .error e => .error e
    | .ok () => .ok (g.addEdgeCore u v none attr)

/-- `g.add_edge(u, v, key=k, **attr)` on a multigraph. -/
def addEdgeKey (g : Graph V A) (u v : V) (k : PyKey) (attr : Attrs A) : Py (Graph V A) :=
  match checkKwargs ["self", "u_for_edge", "v_for_edge", "key"] attr with
  | .error e => .error e
  | .ok () => .ok (g.addEdgeCore u v (some k) attr)

/-- One iteration of `g.remove_edges_from(ebunch)` with pairs `(u, v)`: simple graphs drop the link,
multigraphs drop the last inserted key of the pair (`popitem`), and the link with its last key.  A
missing pair is silently ignored. -/
def removeEdge (g : Graph V A) (u v : V) : Graph V A :=
  { g with
    links := g.links.filterMap (fun l =>
      if samePair g.directed u v l.u l.v then
        (if g.multi && decide (1 < l.data.length) then some { l with data := l.data.dropLast } else none)
      else some l) }

/-- `g.remove_edges_from(pairs)`. -/
def removeEdgesFrom (g : Graph V A) (es : List (V × V)) : Graph V A :=
  es.foldl (fun g e => g.removeEdge e.1 e.2) g

/-- `g.remove_nodes_from(nodes)`: drop the nodes and their incident links, ignoring missing nodes. -/
def removeNodesFrom (g : Graph V A) (ns : List V) : Graph V A :=
  ns.foldl (fun g n =>
    { g with
      node := g.node.erase n
      links := g.links.filter (fun l => ¬ (l.u = n ∨ l.v = n)) }) g

/-- `nx.create_empty_copy(g)`: same class, graph attributes and nodes with data; no edges. -/
def createEmptyCopy (g : Graph V A) : Graph V A := { g with links := [] }

/-- `g.subgraph(ns)`: the induced subgraph view, nodes in graph order (networkx may list them in the order of the set `ns` when it
is small). -/
def subgraph (g : Graph V A) (ns : List V) : Graph V A :=
  { g with
    node := g.node.filter (fun p => decide (p.1 ∈ ns))
    links := g.links.filter (fun l => decide (l.u ∈ ns) && decide (l.v ∈ ns)) }

end Graph
end Pelote
