import Verif.Model.Coroutine
import Verif.Model.Sparsification

/-! The generators `relevant_edges(graph)` and `redundant_edges(graph)` of a sparsifier as Python runs them: the edges of the
graph are not listed first, the dicts of the graph are iterated over while the loop consuming the generator runs, possibly
modifying the graph.

An iteration over a dict raises `RuntimeError` when the size of the dict is not what it was at the beginning.  What happens
when entries are replaced by as many others is not modelled: the generator goes on as any generator `other`, over which
theorems are quantified.  The same stands for a node removed while its neighbors are iterated over.  Entries which are the same
hold the same dicts, so that an edge removed then added again is not the same entry.  Simple graphs only. -/
namespace Pelote
variable {V A : Type} [DecidableEq V]
open Co

/-- One `next()` of an iteration over a dict: `before` is what the dict had at the beginning, `now` what it has. -/
def nextItem {β α ρ : Type} [DecidableEq β] (before now : List β) (other k : Co ρ α) : Co ρ α :=
  if now.length ≠ before.length then stop (some .runtimeError)
  else if now ≠ before then other
  else k

/-- `for nbr, dd in nbrs.items(): if nbr not in seen: yield n, nbr, dd`, the part of `EdgeDataView.__iter__` for one node `n`
(networkx/classes/reportviews.py; `OutEdgeDataView.__iter__` for directed graphs, without `seen`), and the body of the loop of
the generators (pelote/sparsification/utils.py:63-65 with `want = true`, 90-92 with `want = false`). -/
def neighborsCo (want : Bool) (predicate : EdgePred V A) (other : Co (World V A) (V × V × Loc)) (n : V) (l : Loc)
    (seen : List V) (before : List (V × Dict PyKey Loc)) (k : Co (World V A) (V × V × Loc)) :
    List (V × Dict PyKey Loc) → Co (World V A) (V × V × Loc)
  | [] => read fun w =>
    if w.graph.node.get? n ≠ some l then other else nextItem before (w.graph.adj n) other k
  | (m, data) :: rest => read fun w =>
    if w.graph.node.get? n ≠ some l then other
    else nextItem before (w.graph.adj n) other
      (if !w.graph.directed && decide (m ∈ seen) then neighborsCo want predicate other n l seen before k rest
       else
        match data with
        | [] => other
        | (_, d) :: _ =>
          match predicate n m (w.heap.read d) with
          | .error e => stop (some e)
          | .ok b =>
            if b = want then yield (n, m, d) (neighborsCo want predicate other n l seen before k rest)
            else neighborsCo want predicate other n l seen before k rest)

/-- `for n, nbrs in self._nodes_nbrs(): …; seen[n] = 1` (networkx/classes/reportviews.py, `EdgeDataView.__iter__`). -/
def edgesCo (want : Bool) (predicate : EdgePred V A) (other : Co (World V A) (V × V × Loc)) (before : Dict V Loc) :
    List V → Dict V Loc → Co (World V A) (V × V × Loc)
  | _, [] => read fun w => nextItem before w.graph.node other (stop none)
  | seen, (n, l) :: rest => read fun w =>
    nextItem before w.graph.node other
      (neighborsCo want predicate other n l seen (w.graph.adj n) (edgesCo want predicate other before (n :: seen) rest)
        (w.graph.adj n))

/-- The generators of a sparsifier given a predicate factory (pelote/sparsification/utils.py:60-65 with `want = true`, 87-92
with `want = false`), see `defaultGenerator`: the factory is called at the first `next()`. -/
def sparsifierEdgesCo (want : Bool) (factory : PredFactory V A) (other : Co (World V A) (V × V × Loc)) :
    Co (World V A) (V × V × Loc) :=
  read fun w =>
    match factory w.deref with
    | .error e => stop (some e)
    | .ok predicate => edgesCo want predicate other w.graph.node [] w.graph.node

/-- `for x in generator: body(x)`: what the world is at the end, what the body was given, and the exception that ended the
loop. -/
def Co.loop {ρ α : Type} (body : ρ → α → ρ) : Co ρ α → ρ → ρ × Gen α
  | stop e, w => (w, ⟨[], e⟩)
  | read f, w => loop body (f w) w
  | yield a c, w =>
    let r := loop body c (body w a)
    (r.1, ⟨a :: r.2.yields, r.2.err⟩)

/-- `graph.remove_edge(u, v)` of an edge of a simple graph; its dict goes on existing. -/
def World.removeEdge (w : World V A) (u v : V) : World V A :=
  { w with graph := { w.graph with links := w.graph.links.filter (fun l => !samePair w.graph.directed u v l.u l.v) } }

end Pelote
