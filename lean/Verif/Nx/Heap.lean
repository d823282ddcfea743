import Verif.Nx.Graph

/-! Model of the networkx 2.5 graph classes with the identity of attribute dicts: attribute dicts live in a heap, a graph
holds their locations, two graphs may hold the same ones.  (networkx is an external dependency: this file is part of the
trusted base, see DESIGN.md.)

The dicts of nodes and edges are mutable and can be shared; node keys, edge keys and attribute values are not modified in
place. -/
namespace Pelote
variable {V A : Type} [DecidableEq V]

/-- The identity of an attribute dict. -/
abbrev Loc := Nat

/-- The attribute dicts that exist, by location. -/
abbrev Heap (A : Type) := List (Attrs A)

namespace Heap

/-- The content of a dict. -/
def read (H : Heap A) (l : Loc) : Attrs A := (H[l]?).getD []

/-- Replaces the content of a dict: any modification in place. -/
def write (H : Heap A) (l : Loc) (a : Attrs A) : Heap A := H.set l a

/-- A new dict. -/
def alloc (H : Heap A) (a : Attrs A) : Heap A × Loc := (H ++ [a], H.length)

end Heap

/-- Adjacency entry of one pair of nodes, see `Link`. -/
structure HLink (V : Type) where
  u : V
  v : V
  data : Dict PyKey Loc

/-- A networkx graph, see `Graph`: the location of the graph attributes, those of the attributes of nodes and edges. -/
structure HGraph (V : Type) where
  directed : Bool
  multi : Bool
  attrs : Loc
  node : Dict V Loc
  links : List (HLink V)

namespace HGraph

/-- The content of the dicts of an adjacency entry. -/
def derefLink (H : Heap A) (l : HLink V) : Link V A := ⟨l.u, l.v, l.data.map (fun p => (p.1, H.read p.2))⟩

/-- The content of a graph. -/
def deref (H : Heap A) (g : HGraph V) : Graph V A :=
  ⟨g.directed, g.multi, H.read g.attrs, g.node.map (fun p => (p.1, H.read p.2)), g.links.map (derefLink H)⟩

/-- `g[n].items()`, see `Graph.adj`. -/
def adj (g : HGraph V) (n : V) : List (V × Dict PyKey Loc) :=
  g.links.filterMap (fun l =>
    if l.u = n then some (l.v, l.data)
    else if !g.directed && decide (l.v = n) then some (l.u, l.data)
    else none)

/-- Edges from a list of nodes still to be visited, see `Graph.edgesFrom`. -/
def edgesFrom (g : HGraph V) : List V → List V → List (V × V × PyKey × Loc)
  | _, [] => []
  | seen, n :: ns =>
    ((g.adj n).filter (fun p => g.directed || !decide (p.1 ∈ seen))).flatMap
      (fun p => p.2.map (fun ka => (n, p.1, ka.1, ka.2))) ++
    edgesFrom g (n :: seen) ns

/-- `g.edges(keys=True, data=True)`: the attributes are the dicts of the graph themselves. -/
def edgesKeys (g : HGraph V) : List (V × V × PyKey × Loc) := g.edgesFrom [] g.node.keys

/-- `g.edges(n, keys=True, data=True)`. -/
def edgesOf (g : HGraph V) (n : V) : List (V × V × PyKey × Loc) :=
  (g.adj n).flatMap (fun p => p.2.map (fun ka => (n, p.1, ka.1, ka.2)))

/-- `add_node` once the keyword arguments are bound: the dict of an existing node is updated in place, that of a new one is
created. -/
def addNodeCore (H : Heap A) (g : HGraph V) (n : V) (attr : Attrs A) : Heap A × HGraph V :=
  match g.node.get? n with
  | some l => (H.write l ((H.read l).update attr), g)
  | none =>
    let r := H.alloc (Dict.update [] attr)
    (r.1, { g with node := g.node ++ [(n, r.2)] })

/-- `g.add_node(n, **attr)`. -/
def addNode (H : Heap A) (g : HGraph V) (n : V) (attr : Attrs A) : Py (Heap A × HGraph V) :=
  match Graph.checkKwargs ["self", "node_for_adding"] attr with
  | .error e => .error e
  | .ok () => .ok (addNodeCore H g n attr)

/-- Make sure a node exists (`if u not in self._node: …`). -/
def ensureNode (H : Heap A) (g : HGraph V) (n : V) : Heap A × HGraph V :=
  if g.node.has n then (H, g)
  else
    let r := H.alloc []
    (r.1, { g with node := g.node ++ [(n, r.2)] })

/-- `new_edge_key(u, v)`. -/
def newEdgeKey (data : Dict PyKey Loc) : PyKey :=
  .int (Graph.freeKey data.keys (data.length + 1) data.length)

/-- `datadict = keydict.get(key, {}); datadict.update(attr); keydict[key] = datadict`, see `Graph.addToData`. -/
def addToData (H : Heap A) (multi : Bool) (data : Dict PyKey Loc) (key : Option PyKey) (attr : Attrs A) :
    Heap A × Dict PyKey Loc :=
  let k := if multi then key.getD (newEdgeKey data) else .int 0
  match data.get? k with
  | some l => (H.write l ((H.read l).update attr), data)
  | none =>
    let r := H.alloc (Dict.update [] attr)
    (r.1, data ++ [(k, r.2)])

/-- Update the link of a pair, or append a new one. -/
def addLink (H : Heap A) (directed multi : Bool) (u v : V) (key : Option PyKey) (attr : Attrs A) :
    List (HLink V) → Heap A × List (HLink V)
  | [] =>
    let r := addToData H multi [] key attr
    (r.1, [⟨u, v, r.2⟩])
  | l :: ls =>
    if samePair directed u v l.u l.v then
      let r := addToData H multi l.data key attr
      (r.1, { l with data := r.2 } :: ls)
    else
      let r := addLink H directed multi u v key attr ls
      (r.1, l :: r.2)

/-- `add_edge` once the arguments are bound. -/
def addEdgeCore (H : Heap A) (g : HGraph V) (u v : V) (key : Option PyKey) (attr : Attrs A) : Heap A × HGraph V :=
  let r := ensureNode H g u
  let r := ensureNode r.1 r.2 v
  let s := addLink r.1 r.2.directed r.2.multi u v key attr r.2.links
  (s.1, { r.2 with links := s.2 })

/-- `g.add_edge(u, v, **attr)`, see `Graph.addEdge`. -/
def addEdge [AttrVal A] (H : Heap A) (g : HGraph V) (u v : V) (attr : Attrs A) : Py (Heap A × HGraph V) :=
  if g.multi then
    match Graph.checkKwargs ["self", "u_for_edge", "v_for_edge"] attr with
    | .error e => .error e
    | .ok () =>
      match attr.get? (.str "key") with
      | none => .ok (addEdgeCore H g u v none attr)
      | some k =>
        match AttrVal.asKey k with
        | .error e => .error e
        | .ok k => .ok (addEdgeCore H g u v k (attr.erase (.str "key")))
  else
    match Graph.checkKwargs ["self", "u_of_edge", "v_of_edge"] attr with
    | .error e => .error e
    | .ok () => .ok (addEdgeCore H g u v none attr)

/-- `g.add_edge(u, v, key=k, **attr)` on a multigraph. -/
def addEdgeKey (H : Heap A) (g : HGraph V) (u v : V) (k : PyKey) (attr : Attrs A) : Py (Heap A × HGraph V) :=
  match Graph.checkKwargs ["self", "u_for_edge", "v_for_edge", "key"] attr with
  | .error e => .error e
  | .ok () => .ok (addEdgeCore H g u v (some k) attr)

/-- A new graph without nodes, whose attributes are those given. -/
def new (H : Heap A) (directed multi : Bool) (attrs : Attrs A) : Heap A × HGraph V :=
  let r := H.alloc attrs
  (r.1, ⟨directed, multi, r.2, [], []⟩)

/-- Copies of the dicts of nodes: `H.add_nodes_from(G.nodes(data=True))` in a graph without nodes. -/
def copyNodes (H : Heap A) : Dict V Loc → Heap A × Dict V Loc
  | [] => (H, [])
  | (n, l) :: ns =>
    let r := H.alloc (H.read l)
    let s := copyNodes r.1 ns
    (s.1, (n, r.2) :: s.2)

/-- `nx.create_empty_copy(g)`: the dicts of the graph and of its nodes are copied. -/
def createEmptyCopy (H : Heap A) (g : HGraph V) : Heap A × HGraph V :=
  let r : Heap A × HGraph V := new H g.directed g.multi (H.read g.attrs)
  let s := copyNodes r.1 g.node
  (s.1, { r.2 with node := s.2 })

/-- `g.subgraph(ns)`: a view, whose dicts are those of the graph. -/
def subgraph (g : HGraph V) (ns : List V) : HGraph V :=
  { g with
    node := g.node.filter (fun p => decide (p.1 ∈ ns))
    links := g.links.filter (fun l => decide (l.u ∈ ns) && decide (l.v ∈ ns)) }

end HGraph
end Pelote
