import Verif.Model.Triangles
import Verif.Model.SpanningTrees
import Verif.Model.Components
import Verif.Nx.Heap

/-! The generators of `pelote` as Python runs them: suspended at each `yield`, the code which consumes them running
meanwhile, possibly modifying the graph.  Each access to the graph is a `read`, which gets what the graph is by then. -/
namespace Pelote
variable {V A : Type} [DecidableEq V]

/-- A generator that has not ended: it looks at the world, or yields, or stops, maybe raising. -/
inductive Co (ρ α : Type)
  | stop (err : Option PyErr)
  | read (k : ρ → Co ρ α)
  | yield (a : α) (next : Co ρ α)

namespace Co
variable {ρ α β : Type}

/-- What comes out of a generator when `world k` is the state of the world from its `k`-th suspension on (`world 0` at the first
`next()`).  Whatever the loop consuming the generator does between two `next()` makes such a sequence. -/
def run (world : Nat → ρ) : Nat → Co ρ α → Gen α
  | _, stop e => ⟨[], e⟩
  | k, read f => run world k (f (world k))
  | k, yield a c => ⟨a :: (run world (k + 1) c).yields, (run world (k + 1) c).err⟩

/-- `[f(x) for x in xs]`, each `f(x)` being an access to the world. -/
def readMap (f : β → ρ → γ) : List β → (List γ → Co ρ α) → Co ρ α
  | [], k => k []
  | x :: xs, k => read fun w => readMap f xs fun ys => k (f x w :: ys)

/-- `[x for x in xs if f(x)]`. -/
def readFilter (f : β → ρ → Bool) : List β → (List β → Co ρ α) → Co ρ α
  | [], k => k []
  | x :: xs, k => read fun w => readFilter f xs fun ys => k (if f x w then x :: ys else ys)

/-- `for x in xs: yield x`. -/
def yieldAll : List α → Co ρ α → Co ρ α
  | [], k => k
  | x :: xs, k => yield x (yieldAll xs k)

end Co

open Co

/-! ### `triangles` -/

/-- The adjacency of each node (pelote/metrics/chiba_nishizeki.py:61-77): the neighbors are read, then the degree of each
one that is not the node itself. -/
def adjacenciesCo {α : Type} : List V → Dict V (List V) → (Dict V (List V) → Co (Graph V A) α) → Co (Graph V A) α
  | [], d, k => k d
  | n :: ns, d, k =>
    read fun g =>
      readFilter (fun m g => !decide (g.undirectedView.degree m < 2))
        ((g.undirectedView.neighbors n).filter (fun m => !decide (m = n)))
        fun adjacency => adjacenciesCo ns (d.set n adjacency) k

/-- `while len(marked_nodes) != 0` (pelote/metrics/chiba_nishizeki.py:87-109), see `popMarked`. -/
def popMarkedCo (node : V) : List V → Dict V (List V) → (Dict V (List V) → Co (Graph V A) (V × V × V)) →
    Co (Graph V A) (V × V × V)
  | [], adjs, k => k adjs
  | neighbor :: marked, adjs, k =>
    match adjs.getItem neighbor with
    | .error e => stop (some e)
    | .ok adjacency =>
      yieldAll ((adjacency.filter (fun x => !decide (x = node) && decide (x ∈ marked))).map (fun x => (node, neighbor, x)))
        (if node ∈ adjacency then popMarkedCo node marked (adjs.set neighbor (adjacency.erase node)) k
         else stop (some (.typeError "remove: argument must be a dllistnode")))

/-- `for i in range(0, len(sorted_nodes) - 2)` (pelote/metrics/chiba_nishizeki.py:81-109), see `triangleLoop`. -/
def triangleLoopCo : List V → Dict V (List V) → Co (Graph V A) (V × V × V)
  | [], _ => stop none
  | node :: ns, adjs =>
    match adjs.getItem node with
    | .error e => stop (some e)
    | .ok adjacency =>
      popMarkedCo node (adjacency.foldl (fun (m : Dict V Unit) x => m.set x ()) []).keys.reverse adjs (triangleLoopCo ns)

/-- The generator returned by `triangles(graph)` (pelote/metrics/chiba_nishizeki.py:45-111): the nodes, their degrees, the
degrees again as sorting keys, the adjacencies, then the search. -/
def trianglesCo : Co (Graph V A) (V × V × V) :=
  read fun g =>
    readFilter (fun n g => decide (g.undirectedView.degree n > 1)) g.undirectedView.nodes fun valid =>
      readMap (fun n g => g.undirectedView.degree n) valid fun degrees =>
        let ns := (pySortedRev Prod.snd (valid.zip degrees)).map Prod.fst
        adjacenciesCo ns [] fun adjs => triangleLoopCo (ns.take (ns.length - 2)) adjs

/-! ### `union_of_maximum_spanning_trees` -/

/-- The world: the attribute dicts that exist, and the graph. -/
structure World (V A : Type) where
  heap : Heap A
  graph : HGraph V

/-- The content of the graph. -/
def World.deref (w : World V A) : Graph V A := w.graph.deref w.heap

/-- `graph.edges.data()`: the dicts are those of the graph. -/
def World.edges (w : World V A) : List (V × V × Loc) := w.graph.edgesKeys.map (fun e => (e.1, e.2.1, e.2.2.2))

section Trees
variable {K : Type} [Field K] [LinearOrder K]

/-- `a.get(edge_weight_attr, 1)` of the dict of an edge, as it is now. -/
def World.weightOf (w : World V (Val K)) (attr : String) (e : V × V × Loc) : Py K := Pelote.weightOf attr (w.heap.read e.2.2)

/-- The edges and their sorting keys, or the first exception. -/
def keyed {E : Type} : List E → List (Py K) → Py (List (E × K))
  | e :: es, w :: ws =>
    match w with
    | .error x => .error x
    | .ok w =>
      match keyed es ws with
      | .error x => .error x
      | .ok r => .ok ((e, w) :: r)
  | _, _ => .ok []

/-- `for relevant_edge in relevant_bucket_edges: yield relevant_edge; disjoint_set.union(…)` (pelote/graph.py:539-541). -/
def flushBucketCo {ρ : Type} : List (V × V × Loc) → DisjointSet V → (DisjointSet V → Co ρ (V × V × Loc)) →
    Co ρ (V × V × Loc)
  | [], ds, k => k ds
  | e :: es, ds, k =>
    yield e (match ds.union e.1 e.2.1 with
      | (_, .error x) => stop (some x)
      | (ds, .ok _) => flushBucketCo es ds k)

/-- The loop over the sorted edges and the final `yield from` (pelote/graph.py:528-551), see `bucketLoop`.  The weight of each
edge is read when its turn comes; it must be a number to be subtracted (the current bucket weight is what was read, number
or not). -/
def bucketLoopCo (attr : String) : DisjointSet V → Option (Py K) → List (V × V × Loc) → List (V × V × Loc) →
    Co (World V (Val K)) (V × V × Loc)
  | _, _, bucket, [] => yieldAll bucket (stop none)
  | ds, cur, bucket, e :: rest =>
    read fun world =>
      let w := world.weightOf attr e
      match (match cur, w with
        | none, _ => (.ok true : Py Bool)
        | some (.ok c), .ok w => .ok (decide (c - w > weightEpsilon))
        | some (.error x), _ => .error x
        | some (.ok _), .error x => .error x) with
      | .error x => stop (some x)
      | .ok true =>
        flushBucketCo bucket ds fun ds =>
          match ds.areInSameSet e.1 e.2.1 with
          | (_, .error x) => stop (some x)
          | (ds, .ok b) => bucketLoopCo attr ds (some w) (if b then [] else [e]) rest
      | .ok false =>
        match ds.areInSameSet e.1 e.2.1 with
        | (_, .error x) => stop (some x)
        | (ds, .ok b) => bucketLoopCo attr ds cur (if b then bucket else bucket ++ [e]) rest

/-- The generator returned by `union_of_maximum_spanning_trees(graph, edge_weight_attr)` (pelote/graph.py:513-553), see
`unionOfMaximumSpanningTrees`; it yields the ends of edges and their attribute dict. -/
def spanningTreesCo (ulongMax : Nat) (attr : String) : Co (World V (Val K)) (V × V × Loc) :=
  read fun w =>
    if w.deref.size = 0 then stop none
    else
      read fun w =>
        readMap (fun e (w : World V (Val K)) => w.weightOf attr e) w.edges fun keys =>
          match (match w.edges with
            | [e] => (.ok [(e, 1)] : Py (List ((V × V × Loc) × K)))
            | es => keyed es keys) with
          | .error x => stop (some x)
          | .ok es =>
            read fun w =>
              match DisjointSet.init ulongMax w.deref.order with
              | .error x => stop (some x)
              | .ok ds => bucketLoopCo attr ds none [] ((sortByWeight es).map Prod.fst)

end Trees

/-! ### `connected_component_orders` -/

/-- `while len(stack) != 0: …` (pelote/graph.py:429-437), see `drainStack`: the edges of each node are read when it is
visited.  No filter, as when called without one. -/
def drainStackCo : Nat → Traversal V V → Nat → (Nat → Traversal V V → Co (Graph V A) Nat) → Co (Graph V A) Nat
  | fuel, t, size, k =>
    if t.len = 0 then k size t
    else
      match fuel with
      | 0 => stop (some .diverges)
      | fuel + 1 =>
        match t.pop with
        | .error e => stop (some e)
        | .ok (t, n1) =>
          read fun g =>
            match pushNeighbors none n1 (g.edgesOf n1) t with
            | .error e => stop (some e)
            | .ok t => drainStackCo fuel t (size + 1) k

/-- `for node in stack.nodes_yet_unseen(): …` (pelote/graph.py:425-439), for a graph whose nodes stay the same. -/
def componentOrdersLoopCo (fuel : Nat) : List V → Traversal V V → Co (Graph V A) Nat
  | [], _ => stop none
  | n :: ns, t =>
    if t.seenAll then stop none
    else if t.contains n then componentOrdersLoopCo fuel ns t
    else drainStackCo fuel (t.append id n none).1 0 fun size t => yield size (componentOrdersLoopCo fuel ns t)

/-- The generator returned by `connected_component_orders(graph)` (pelote/graph.py:422-441).  Simplification: the nodes are
listed once, which is right as long as the loop consuming the generator does not add or remove nodes (Python raises
`RuntimeError` when the number of nodes changes during the iteration). -/
def connectedComponentOrdersCo : Co (Graph V A) Nat :=
  read fun g => componentOrdersLoopCo g.order g.nodes (Traversal.init g.nodes)

end Pelote
