import Verif.Spec.Graphology

/-! Which values are documents that can be read as a graph. -/
namespace Pelote

/-- A value that is true in a boolean context. -/
def Truthy (x : Data) : Prop :=
  x ≠ .none ∧ x ≠ .bool false ∧ x ≠ .int 0 ∧ x ≠ .str "" ∧ x ≠ .list [] ∧ x ≠ .dict []

/-- The names can be passed as keyword arguments, but for the reserved ones. -/
def NamesOutside (reserved : List String) (a : Attrs Data) : Prop := ∀ k ∈ a.keys, ∃ s, k = .str s ∧ s ∉ reserved

/-- A node: a dict with a hashable key which is not `None` and attributes, if any, that can be passed by name. -/
def ReadNode (x : Data) : Prop :=
  ∃ (f : Dict PyKey Data) (k : PyKey) (a : Attrs Data), x = .dict f ∧ f.get? (.str "key") = some (Data.ofKey k) ∧
    DescribesAttrs f a ∧ NamesOutside ["self", "node_for_adding"] a

/-- The field is missing or `None`. -/
def NoField (o : Option Data) : Prop := o = none ∨ o = some .none

/-- The key of an edge of a multigraph: a hashable `key` field, or no `key` field and maybe a hashable attribute
named `key`. -/
def ReadKey (key attr : Option Data) : Prop :=
  (NoField key ∧ (NoField attr ∨ ∃ k, attr = some (Data.ofKey k))) ∨ (attr = none ∧ ∃ k, key = some (Data.ofKey k))

/-- An edge: a dict with hashable ends which are not `None` and attributes, if any, that can be passed by name. -/
def ReadEdge (multi : Bool) (x : Data) : Prop :=
  ∃ (f : Dict PyKey Data) (s t : PyKey) (a : Attrs Data), x = .dict f ∧
    f.get? (.str "source") = some (Data.ofKey s) ∧ f.get? (.str "target") = some (Data.ofKey t) ∧ DescribesAttrs f a ∧
    (multi = false → NamesOutside ["self", "u_of_edge", "v_of_edge"] a) ∧
    (multi = true → NamesOutside ["self", "u_for_edge", "v_for_edge"] a ∧
      ReadKey (f.get? (.str "key")) (a.get? (.str "key")))

/-- The `undirected` flag of an edge: a boolean or the number equal to it, false when missing. -/
def EdgeFlag (b : Bool) (x : Data) : Prop :=
  ∃ f : Dict PyKey Data, x = .dict f ∧
    ((b = false ∧ f.get? (.str "undirected") = none) ∨ f.get? (.str "undirected") = some (.bool b) ∨
      f.get? (.str "undirected") = some (.int (if b then 1 else 0)))

/-- A field holding nothing, or a list of such items. -/
def Listing (P : Data → Prop) (o : Option Data) : Prop :=
  NoField o ∨ o = some (.str "") ∨ o = some (.dict []) ∨ ∃ l, o = some (.list l) ∧ ∀ x ∈ l, P x

/-- A document that can be read. -/
def ReadDocument (x : Data) : Prop :=
  ∃ (d o : Dict PyKey Data) (type multi : Data) (m : Bool) (a : Attrs Data), x = .dict d ∧
    d.get? (.str "options") = some (.dict o) ∧ o.get? (.str "type") = some type ∧ o.get? (.str "multi") = some multi ∧
    (m = true ↔ Truthy multi) ∧ DescribesAttrs d a ∧ NamesOutside ["self", "incoming_graph_data"] a ∧
    Listing ReadNode (d.get? (.str "nodes")) ∧ Listing (ReadEdge m) (d.get? (.str "edges")) ∧
    (type = .str "mixed" → ∃ b, Listing (EdgeFlag b) (d.get? (.str "edges")))

end Pelote
