import Verif.Nx.Graph

/-! Specification vocabulary about graphs: well-formedness, and sameness up to order. -/
namespace Pelote
namespace Graph
variable {V A : Type} [DecidableEq V]

/-- The shape every networkx graph has: no duplicate node, attribute name, pair or key; the ends of the
links are nodes; no empty key dict; one key, `0`, per pair of a simple graph. -/
structure WF (g : Graph V A) : Prop where
  attrs : g.attrs.keys.Nodup
  nodup : g.nodes.Nodup
  nodeAttrs : ∀ p ∈ g.node, p.2.keys.Nodup
  ends : ∀ l ∈ g.links, l.u ∈ g.nodes ∧ l.v ∈ g.nodes
  uniq : g.links.Pairwise (fun l m => samePair g.directed l.u l.v m.u m.v = false)
  nonempty : ∀ l ∈ g.links, l.data ≠ []
  keys : ∀ l ∈ g.links, l.data.keys.Nodup
  edgeAttrs : ∀ l ∈ g.links, ∀ p ∈ l.data, p.2.keys.Nodup
  simple : g.multi = false → ∀ l ∈ g.links, l.data.keys = [.int 0]

/-- The edge of the given ends and key, with its attributes. -/
def edge? (g : Graph V A) (u v : V) (k : PyKey) : Option (Attrs A) :=
  (g.keydict? u v).bind (fun d => d.get? k)

/-- Same class, graph attributes, nodes with attributes and edges with keys and attributes, up to the
order in which nodes and edges are listed. -/
structure Same (g h : Graph V A) : Prop where
  directed : g.directed = h.directed
  multi : g.multi = h.multi
  attrs : g.attrs = h.attrs
  node : ∀ n, g.node.get? n = h.node.get? n
  edge : ∀ u v k, g.edge? u v k = h.edge? u v k

/-- The subgraph induced by the nodes satisfying `p`. -/
def induced (g : Graph V A) (p : V → Bool) : Graph V A :=
  { g with
    node := g.node.filter (fun q => p q.1)
    links := g.links.filter (fun l => p l.u && p l.v) }

/-- The attribute names can be passed as keyword arguments of `add_node`. -/
def NodeKwSafe (a : Attrs A) : Prop :=
  ∀ k ∈ a.keys, ∃ s, k = .str s ∧ s ∉ ["self", "node_for_adding"]

/-- The attribute names can be passed as keyword arguments of `add_edge`. -/
def EdgeKwSafe (multi : Bool) (a : Attrs A) : Prop :=
  ∀ k ∈ a.keys, ∃ s, k = .str s ∧
    s ∉ (if multi then ["self", "u_for_edge", "v_for_edge", "key"] else ["self", "u_of_edge", "v_of_edge"])

end Graph
end Pelote
