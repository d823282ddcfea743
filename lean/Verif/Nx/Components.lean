import Verif.Nx.Graph

/-! Model of `networkx.connected_components` and `networkx.weakly_connected_components` (networkx 2.5),
both built on a level by level `_plain_bfs`.  Sets are duplicate free lists; the order in which Python
iterates over a set is not specified, the list order stands for any such order. -/
namespace Pelote
variable {V A : Type} [DecidableEq V]

/-- `s.update(xs)` on a set. -/
def setUpdate (s xs : List V) : List V := xs.foldl (fun s x => if x ∈ s then s else s ++ [x]) s

/-- `for v in thislevel: if v not in seen: seen.add(v); nextlevel.update(adj[v])`: the seen nodes and the
next level. -/
def bfsLevel (nbrs : V → List V) : List V → List V × List V → List V × List V
  | [], s => s
  | v :: vs, s =>
    if v ∈ s.1 then bfsLevel nbrs vs s
    else bfsLevel nbrs vs (s.1 ++ [v], setUpdate s.2 (nbrs v))

/-- `_plain_bfs`: the `while nextlevel` loop. -/
def bfsLoop (nbrs : V → List V) : Nat → List V → List V → Py (List V)
  | _, seen, [] => .ok seen
  | 0, _, _ :: _ => .error .diverges
  | fuel + 1, seen, v :: vs =>
    let s := bfsLevel nbrs (v :: vs) (seen, [])
    bfsLoop nbrs fuel s.1 s.2

/-- `_plain_bfs(G, source)`; there are at most one more levels than nodes. -/
def plainBfs (nbrs : V → List V) (order : Nat) (source : V) : Py (List V) :=
  bfsLoop nbrs (order + 1) [] [source]

/-- `for v in G: if v not in seen: c = set(_plain_bfs(G, v)); yield c; seen.update(c)`. -/
def componentsLoop (nbrs : V → List V) (order : Nat) : List V → List V → Py (List (List V))
  | [], _ => .ok []
  | v :: vs, seen =>
    if v ∈ seen then componentsLoop nbrs order vs seen
    else
      match plainBfs nbrs order v with
      | .error e => .error e
      | .ok c =>
        match componentsLoop nbrs order vs (setUpdate seen c) with
        | .error e => .error e
        | .ok cs => .ok (c :: cs)

/-- Neighbors followed by the two functions: `adj` for an undirected graph, successors and predecessors
for a directed one. -/
def Graph.anyNeighbors (g : Graph V A) (n : V) : List V :=
  if g.directed then g.neighbors n ++ g.predecessors n else g.neighbors n

/-- `nx.connected_components(g)` for an undirected graph, `nx.weakly_connected_components(g)` for a
directed one, run to the end. -/
def Graph.nxComponents (g : Graph V A) : Py (List (List V)) :=
  componentsLoop g.anyNeighbors g.order g.nodes []

end Pelote
