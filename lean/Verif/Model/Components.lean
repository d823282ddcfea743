import Verif.Nx.Components
import Verif.Model.Graph
import Verif.Model.Traversal
import Mathlib.Data.List.Sort

/-! Model of the connected component functions of `pelote/graph.py` (lines 52-156 and 398-484). -/
namespace Pelote
variable {V A : Type} [DecidableEq V]

/-- Loop of `largest_connected_component` (pelote/graph.py:77-85) over the components. -/
def largestLoop : List (List V) → Option (List V) → Int → Option (List V)
  | [], largest, _ => largest
  | c :: cs, largest, remaining =>
    let largest := match largest with
      | none => c
      | some l => if l.length < c.length then c else l
    let remaining := remaining - largest.length
    if (largest.length : Int) > remaining then some largest
    else largestLoop cs (some largest) remaining

/-- `largest_connected_component(graph)` (pelote/graph.py:52-87).  The components are generated
lazily in Python; generating them has no effect, so they are computed first here. -/
def largestConnectedComponent (g : Graph V A) : Py (Option (List V)) :=
  match g.nxComponents with
  | .error e => .error e
  | .ok cs => .ok (largestLoop cs none g.order)

/-- `crop_to_largest_connected_component(graph)` (pelote/graph.py:90-114): the graph after the call and
the outcome. -/
def cropToLargest (g : Graph V A) : Graph V A × Py Unit :=
  match largestConnectedComponent g with
  | .error e => (g, .error e)
  | .ok none => (g, .ok ())
  | .ok (some c) => (g.removeNodesFrom (g.nodes.filter (fun n => !decide (n ∈ c))), .ok ())

/-- `for node, attr in graph.nodes.data(): subgraph.add_node(node, **attr)` (pelote/graph.py:142-143). -/
def addNodes : Dict V (Attrs A) → Graph V A → Py (Graph V A)
  | [], s => .ok s
  | (n, a) :: ns, s =>
    match s.addNode n a with
    | .error e => .error e
    | .ok s => addNodes ns s

/-- `for source, target, attr in graph.edges.data(): …` (pelote/graph.py:148-154). -/
def addComponentEdges [AttrVal A] (c : List V) : List (V × V × Attrs A) → Graph V A → Py (Graph V A)
  | [], s => .ok s
  | (u, v, a) :: es, s =>
    if !decide (u ∈ c) then addComponentEdges c es s
    else
      match s.addEdge u v a with
      | .error e => .error e
      | .ok s => addComponentEdges c es s

/-- `largest_connected_component_subgraph(graph, as_view)` (pelote/graph.py:117-156). -/
def largestComponentSubgraph [AttrVal A] (g : Graph V A) (asView : Bool) : Py (Graph V A) :=
  match largestConnectedComponent g with
  | .error e => .error e
  | .ok lc =>
    let component := lc.getD []
    if asView then .ok (g.subgraph component)
    else
      match addNodes g.node g.createEmptyCopy with
      | .error e => .error e
      | .ok s =>
        if component.isEmpty then .ok s
        else addComponentEdges component g.edgesData s

/-- `edge_filter is None or edge_filter(n1, n2, edge_attr)` (pelote/graph.py:434). -/
def follows (filter : Option (EdgePred V A)) (n1 n2 : V) (a : Attrs A) : Py Bool :=
  match filter with
  | none => .ok true
  | some f => f n1 n2 a

/-- `for _, n2, edge_attr in graph.edges(n1, data=True): …` (pelote/graph.py:433-437). -/
def pushNeighbors (filter : Option (EdgePred V A)) (n1 : V) :
    List (V × V × PyKey × Attrs A) → Traversal V V → Py (Traversal V V)
  | [], t => .ok t
  | (_, n2, _, a) :: es, t =>
    match follows filter n1 n2 a with
    | .error e => .error e
    | .ok b => pushNeighbors filter n1 es (if b then (t.append id n2 none).1 else t)

/-- `while len(stack) != 0: …` (pelote/graph.py:429-437).  At most one iteration per node. -/
def drainStack (g : Graph V A) (filter : Option (EdgePred V A)) :
    Nat → Traversal V V → Nat → Py (Nat × Traversal V V)
  | fuel, t, size =>
    if t.len = 0 then .ok (size, t)
    else
      match fuel with
      | 0 => .error .diverges
      | fuel + 1 =>
        match t.pop with
        | .error e => .error e
        | .ok (t, n1) =>
          match pushNeighbors filter n1 (g.edgesOf n1) t with
          | .error e => .error e
          | .ok t => drainStack g filter fuel t (size + 1)

/-- `for node in stack.nodes_yet_unseen(): …` (pelote/graph.py:425-439): the loop of `nodes_yet_unseen`
and its body, interleaved as the generator is. -/
def componentOrdersLoop (g : Graph V A) (filter : Option (EdgePred V A)) : List V → Traversal V V → Gen Nat
  | [], _ => ⟨[], none⟩
  | n :: ns, t =>
    if t.seenAll then ⟨[], none⟩
    else if t.contains n then componentOrdersLoop g filter ns t
    else
      match drainStack g filter g.order (t.append id n none).1 0 with
      | .error e => ⟨[], some e⟩
      | .ok (size, t) =>
        let r := componentOrdersLoop g filter ns t
        ⟨size :: r.yields, r.err⟩

/-- `connected_component_orders(graph, edge_filter)` (pelote/graph.py:398-441), run to the end. -/
def connectedComponentOrders (g : Graph V A) (filter : Option (EdgePred V A)) : Gen Nat :=
  componentOrdersLoop g filter g.nodes (Traversal.init g.nodes)

/-- `list(generator)`. -/
def Gen.toList {α : Type} (g : Gen α) : Py (List α) :=
  match g.err with
  | none => .ok g.yields
  | some e => .error e

/-- `max(generator)` over numbers; an empty generator raises `ValueError` (tagged as a type error here,
and shown unreachable). -/
def pyMax : List Nat → Py Nat
  | [] => .error (.typeError "max() arg is an empty sequence")
  | x :: xs => .ok (xs.foldl (fun m y => if m < y then y else m) x)

/-- `largest_connected_component_order(graph)` (pelote/graph.py:444-458). -/
def largestComponentOrder (g : Graph V A) : Py (Option Nat) :=
  if g.order = 0 then .ok none
  else
    match (connectedComponentOrders g none).toList with
    | .error e => .error e
    | .ok l => (pyMax l).map some

/-- `heapq.nlargest(n, iterable)`: documented as `sorted(iterable, reverse=True)[:n]`. -/
def nlargest (n : Nat) (xs : List Nat) : List Nat := (xs.mergeSort (fun a b => decide (a ≥ b))).take n

/-- `second_largest_connected_component_order(graph, edge_filter)` (pelote/graph.py:461-481). -/
def secondLargestComponentOrder (g : Graph V A) (filter : Option (EdgePred V A)) : Py (Option Nat) :=
  match (connectedComponentOrders g filter).toList with
  | .error e => .error e
  | .ok l => .ok (nlargest 2 l)[1]?

end Pelote
