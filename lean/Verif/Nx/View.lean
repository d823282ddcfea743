import Verif.Nx.Graph

/-! Model of networkx `G.to_undirected(as_view=True)`, as far as `pelote/metrics` uses it. -/
namespace Pelote
variable {V A : Type} [DecidableEq V]

/-- What the triangle functions read of a graph: its nodes, the neighbors of a node and its degree. -/
structure View (V : Type) where
  nodes : List V
  neighbors : V → List V
  degree : V → Nat

/-- `graph if not graph.is_directed() else graph.to_undirected(as_view=True)`.

For a directed graph, networkx 2 builds the neighbors of a node as `set(succ) | set(pred)`, whose order
is not specified: here successors come first.  `degree` of that view depends on the version of networkx
(reciprocal edges and self loops may be counted twice): here it is the total degree.  The theorems about
triangles are stated for every order and every degree function that is at least 2 on nodes with two
neighbors, so that neither choice matters. -/
def Graph.undirectedView (g : Graph V A) : View V where
  nodes := g.nodes
  neighbors n :=
    if g.directed then
      g.neighbors n ++ (g.predecessors n).filter (fun m => !decide (m ∈ g.neighbors n))
    else g.neighbors n
  degree := g.degree

/-- `view.edges()`: each adjacent pair once.  Simplification: parallel edges, which networkx lists one by
one, are listed once; the only user, `naive_triangular_strength`, assigns one dict key per pair. -/
def View.edgesFrom (w : View V) : List V → List V → List (V × V)
  | _, [] => []
  | seen, n :: ns =>
    ((w.neighbors n).filter (fun m => !decide (m ∈ seen))).map (fun m => (n, m)) ++
    View.edgesFrom w (n :: seen) ns

/-- `view.edges()`. -/
def View.edges (w : View V) : List (V × V) := w.edgesFrom [] w.nodes

end Pelote
