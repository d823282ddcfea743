import Mathlib.Data.List.Forall2
import Verif.Py.Data
import Verif.Spec.Graph

/-! Specification of the graphology JSON reader and writer. -/
namespace Pelote
variable {A : Type}

/-- Every attribute name is a string. -/
def StrNames (a : Attrs A) : Prop := ∀ k ∈ a.keys, ∃ s, k = .str s

/-- A node key which is an integer (possibly a boolean) or a string. -/
def JsonKey : PyKey → Prop
  | .int _ => True
  | .str _ => True
  | .bool _ => True
  | .other _ _ => False

/-- What the writer accepts: node keys are integers or strings, of a single type unless `allowMixed`; the names
of the attributes of nodes and edges are strings unless `allowInvalid`. -/
structure Writable (g : Graph PyKey A) (allowMixed allowInvalid : Bool) : Prop where
  keys : ∀ n ∈ g.nodes, JsonKey n
  types : allowMixed = false → ∀ n ∈ g.nodes, ∀ m ∈ g.nodes, n.type = m.type
  nodeNames : allowInvalid = false → ∀ n a, g.node.get? n = some a → StrNames a
  edgeNames : allowInvalid = false → ∀ u v k a, g.edge? u v k = some a → StrNames a

/-- What the reader needs of the names of the attributes of a graph, passed as keyword arguments to networkx. -/
structure Readable (g : Graph PyKey A) : Prop where
  graphNames : ∀ k ∈ g.attrs.keys, ∃ s, k = .str s ∧ s ∉ ["self", "incoming_graph_data"]
  nodeNames : ∀ n a, g.node.get? n = some a → Graph.NodeKwSafe a
  edgeNames : ∀ u v k a, g.edge? u v k = some a → Graph.EdgeKwSafe g.multi a

/-- A node key as written. -/
def keyString (n : PyKey) : PyKey := .str n.toStr

/-- Attribute names cast to strings. -/
def stringify (a : Attrs A) : Attrs A := a.map (fun p => (keyString p.1, p.2))

/-! ### Documents -/

/-- A serialized node. -/
structure SNode where
  key : PyKey
  attrs : Attrs Data

/-- A serialized edge. -/
structure SEdge where
  source : PyKey
  target : PyKey
  key : Option PyKey
  undirected : Bool
  attrs : Attrs Data

/-- An optional `attributes` field. -/
def DescribesAttrs (f : Dict PyKey Data) (a : Attrs Data) : Prop :=
  (f.get? (.str "attributes") = none ∧ a = []) ∨ f.get? (.str "attributes") = some (.dict a)

/-- `d` is a serialization of a node; other fields are allowed. -/
def DescribesNode (d : Data) (n : SNode) : Prop :=
  ∃ f : Dict PyKey Data, d = .dict f ∧ f.get? (.str "key") = some (Data.ofKey n.key) ∧ DescribesAttrs f n.attrs

/-- `d` is a serialization of an edge; other fields are allowed. -/
def DescribesEdge (d : Data) (e : SEdge) : Prop :=
  ∃ f : Dict PyKey Data, d = .dict f ∧ f.get? (.str "source") = some (Data.ofKey e.source) ∧
    f.get? (.str "target") = some (Data.ofKey e.target) ∧
    ((e.key = none ∧ (f.get? (.str "key") = none ∨ f.get? (.str "key") = some .none)) ∨
      ∃ k, e.key = some k ∧ f.get? (.str "key") = some (Data.ofKey k)) ∧
    ((e.undirected = false ∧ f.get? (.str "undirected") = none) ∨
      f.get? (.str "undirected") = some (.bool e.undirected)) ∧
    DescribesAttrs f e.attrs

/-- An optional field holding a list. -/
def DescribesList {α : Type} (R : Data → α → Prop) (o : Option Data) (l : List α) : Prop :=
  (l = [] ∧ (o = none ∨ o = some .none)) ∨ ∃ d, o = some (.list d) ∧ List.Forall₂ R d l

/-- `data` is a graphology document of the given type and content. -/
structure DescribesGraph (data : Dict PyKey Data) (type : String) (multi : Bool) (attrs : Attrs Data)
    (N : List SNode) (E : List SEdge) : Prop where
  options : ∃ o, data.get? (.str "options") = some (.dict o) ∧ Dict.get? o (.str "type") = some (.str type) ∧
    Dict.get? o (.str "multi") = some (.bool multi)
  attributes : DescribesAttrs data attrs
  nodes : DescribesList DescribesNode (data.get? (.str "nodes")) N
  edges : DescribesList DescribesEdge (data.get? (.str "edges")) E
  /-- Python dicts have no duplicate keys. -/
  nodup : attrs.keys.Nodup ∧ (∀ n ∈ N, n.attrs.keys.Nodup) ∧ ∀ e ∈ E, e.attrs.keys.Nodup

/-- The names of the attributes can be passed as keyword arguments to networkx. -/
structure Loadable (multi : Bool) (attrs : Attrs Data) (N : List SNode) (E : List SEdge) : Prop where
  graph : ∀ k ∈ attrs.keys, ∃ s, k = .str s ∧ s ∉ ["self", "incoming_graph_data"]
  nodes : ∀ n ∈ N, Graph.NodeKwSafe n.attrs
  edges : ∀ e ∈ E, Graph.EdgeKwSafe multi e.attrs

/-- An edge as inserted in a graph; keys only matter in multigraphs. -/
def SEdge.entry (multi : Bool) (e : SEdge) : PyKey × PyKey × Option PyKey × Attrs Data :=
  (e.source, e.target, if multi then e.key else none, e.attrs)

end Pelote
