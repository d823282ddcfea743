import Verif.Nx.View
import Verif.Py.Sort
import Verif.Model.Graph
import Verif.Model.Sort

/-! Model of `pelote/metrics/chiba_nishizeki.py`. -/
namespace Pelote
variable {V A : Type} [DecidableEq V]

/-- The adjacency built for one node (pelote/metrics/chiba_nishizeki.py:64-75); a `dllist` is a list. -/
def adjacencyOf (w : View V) (node : V) : List V :=
  (w.neighbors node).filter (fun m => !decide (m = node) && !decide (w.degree m < 2))

/-- Nodes of degree 2 or more, sorted (pelote/metrics/chiba_nishizeki.py:49-59). -/
def sortedNodes (w : View V) : List V :=
  pySortedRev w.degree (w.nodes.filter (fun n => decide (w.degree n > 1)))

/-- `adjacencies` (pelote/metrics/chiba_nishizeki.py:61-77). -/
def adjacenciesOf (w : View V) (ns : List V) : Dict V (List V) :=
  ns.foldl (fun d n => d.set n (adjacencyOf w n)) []

/-- `while len(marked_nodes) != 0` (pelote/metrics/chiba_nishizeki.py:87-109).  `marked` holds the marked
nodes, the next one to be popped first.  Returns the yielded triangles, the adjacencies and the exception:
`adjacencies[neighbor]` may be missing, and `remove(None)` raises when the current node is not in it. -/
def popMarked (node : V) : List V → Dict V (List V) →
    List (V × V × V) × Dict V (List V) × Option PyErr
  | [], adjs => ([], adjs, none)
  | neighbor :: marked, adjs =>
    match adjs.getItem neighbor with
    | .error e => ([], adjs, some e)
    | .ok adjacency =>
      let found := (adjacency.filter (fun x => !decide (x = node) && decide (x ∈ marked))).map
        (fun x => (node, neighbor, x))
      if node ∈ adjacency then
        let r := popMarked node marked (adjs.set neighbor (adjacency.erase node))
        (found ++ r.1, r.2)
      else (found, adjs, some (.typeError "remove: argument must be a dllistnode"))

/-- `for i in range(0, len(sorted_nodes) - 2)` (pelote/metrics/chiba_nishizeki.py:81-109); the nodes of
the range are the argument. -/
def triangleLoop : List V → Dict V (List V) → Gen (V × V × V)
  | [], _ => ⟨[], none⟩
  | node :: ns, adjs =>
    match adjs.getItem node with
    | .error e => ⟨[], some e⟩
    | .ok adjacency =>
      let marked := (adjacency.foldl (fun (m : Dict V Unit) x => m.set x ()) []).keys
      match popMarked node marked.reverse adjs with
      | (ys, _, some e) => ⟨ys, some e⟩
      | (ys, adjs, none) =>
        let r := triangleLoop ns adjs
        ⟨ys ++ r.yields, r.err⟩

/-- The generator of `triangles` (pelote/metrics/chiba_nishizeki.py:45-109) over an undirected view. -/
def trianglesOf (w : View V) : Gen (V × V × V) :=
  let ns := sortedNodes w
  triangleLoop (ns.take (ns.length - 2)) (adjacenciesOf w ns)

/-- `triangles(graph)` (pelote/metrics/chiba_nishizeki.py:21-111). -/
def triangles (g : Graph V A) : Gen (V × V × V) := trianglesOf g.undirectedView

/-- `(u, v)` with the smaller first: `if u > v: u, v = v, u`. -/
def orderedByGt [PyOrd V] (u v : V) : Py (V × V) :=
  match PyOrd.gt u v with
  | .error e => .error e
  | .ok true => .ok (v, u)
  | .ok false => .ok (u, v)

/-- The key chosen by `if u < v: (u, v) else: (v, u)` (`u < v` is `v > u`). -/
def orderedByLt [PyOrd V] (u v : V) : Py (V × V) :=
  match PyOrd.gt v u with
  | .error e => .error e
  | .ok true => .ok (u, v)
  | .ok false => .ok (v, u)

/-- `counter[key] += 1`. -/
def counterIncr {κ : Type} [DecidableEq κ] (d : Dict κ Nat) (k : κ) : Dict κ Nat :=
  d.set k ((d.get? k).getD 0 + 1)

/-- `for u, v in graph.edges(): … strengths[u, v] = 0` (pelote/metrics/chiba_nishizeki.py:182-186). -/
def zeroStrengths [PyOrd V] : List (V × V) → Dict (V × V) Nat → Py (Dict (V × V) Nat)
  | [], d => .ok d
  | (u, v) :: es, d =>
    match orderedByGt u v with
    | .error e => .error e
    | .ok k => zeroStrengths es (d.set k 0)

/-- `for u, v, w in triangles(graph): …` (pelote/metrics/chiba_nishizeki.py:188-202). -/
def countTriangles [PyOrd V] : List (V × V × V) → Dict (V × V) Nat → Py (Dict (V × V) Nat)
  | [], d => .ok d
  | (u, v, w) :: ts, d =>
    match orderedByLt u v with
    | .error e => .error e
    | .ok k =>
      let d := counterIncr d k
      match orderedByLt u w with
      | .error e => .error e
      | .ok k =>
        let d := counterIncr d k
        match orderedByLt v w with
        | .error e => .error e
        | .ok k => countTriangles ts (counterIncr d k)

/-- `triangular_strength` over the edges listed by `graph.edges()` and the undirected view. -/
def triangularStrengthOf [PyOrd V] (w : View V) (edges : List (V × V)) (full : Bool) :
    Py (Dict (V × V) Nat) :=
  match (if full then zeroStrengths edges [] else .ok []) with
  | .error e => .error e
  | .ok d =>
    let t := trianglesOf w
    match countTriangles t.yields d, t.err with
    | .error e, _ => .error e
    | .ok _, some e => .error e
    | .ok d, none => .ok d

/-- `triangular_strength(graph, full)` (pelote/metrics/chiba_nishizeki.py:166-204). -/
def triangularStrength [PyOrd V] (g : Graph V A) (full : Bool) : Py (Dict (V × V) Nat) :=
  triangularStrengthOf g.undirectedView g.edges full

/-- `neighborhoods` (pelote/metrics/chiba_nishizeki.py:132-144); a `set` is the list of its elements. -/
def neighborhoodsOf (w : View V) : Dict V (List V) :=
  w.nodes.foldl (fun d n =>
    let neighborhood := ((w.neighbors n).filter (fun m => !decide (n = m))).dedup
    if neighborhood.length > 1 then d.set n neighborhood else d) []

/-- `for u, v in graph.edges(): …` (pelote/metrics/chiba_nishizeki.py:148-161).  `n1 is n2` exactly when
the two ends are the same node. -/
def naiveLoop [PyOrd V] (full : Bool) (nbh : Dict V (List V)) :
    List (V × V) → Dict (V × V) Nat → Py (Dict (V × V) Nat)
  | [], d => .ok d
  | (u, v) :: es, d =>
    match orderedByGt u v with
    | .error e => .error e
    | .ok (u, v) =>
      match nbh.get? u, nbh.get? v with
      | some n1, some n2 =>
        naiveLoop full nbh es (d.set (u, v) (fastIntersectionSize (decide (u = v)) n1 n2))
      | _, _ => naiveLoop full nbh es (if full then d.set (u, v) 0 else d)

/-- `naive_triangular_strength(graph, full)` (pelote/metrics/chiba_nishizeki.py:114-163). -/
def naiveTriangularStrength [PyOrd V] (g : Graph V A) (full : Bool) : Py (Dict (V × V) Nat) :=
  let w := g.undirectedView
  naiveLoop full (neighborhoodsOf w) w.edges []

end Pelote
