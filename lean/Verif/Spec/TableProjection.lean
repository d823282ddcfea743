import Verif.Spec.Tabular
import Verif.Spec.Projection

/-! Specification vocabulary for the projection of a bipartite graph read from a table. -/
namespace Pelote

/-- A value read from a table, as the functions computing with numbers see it.  The content of lists and dicts is left out:
those functions never look into them. -/
def Data.toVal {K : Type} [IntCast K] : Data → Val K
  | .none => .none
  | .bool b => .bool b
  | .int i => .num i
  | .str s => .str s
  | .list _ => .obj "list" ""
  | .dict _ => .obj "dict" ""
  | .obj ty r => .obj ty r

/-- The graph with every attribute value replaced by its image. -/
def Graph.mapAttrs {V A B : Type} (f : A → B) (g : Graph V A) : Graph V B where
  directed := g.directed
  multi := g.multi
  attrs := g.attrs.map (fun p => (p.1, f p.2))
  node := g.node.map (fun p => (p.1, p.2.map (fun q => (q.1, f q.2))))
  links := g.links.map (fun l => ⟨l.u, l.v, l.data.map (fun p => (p.1, p.2.map (fun q => (q.1, f q.2))))⟩)

/-- The values of the second column found beside a value of the first one. -/
def partners (cells : List (PyKey × PyKey)) (a : PyKey) : Finset PyKey :=
  ((cells.filter (fun c => decide (c.1 = a))).map Prod.snd).toFinset

/-- The nodes of the first column can be compared with each other: they are numbered, or are all integers or all
strings. -/
def FirstComparable (o : BipartiteOptions) (cells : List (PyKey × PyKey)) : Prop :=
  o.disjointKeys = true → (∀ c ∈ cells, ∃ i, c.1 = .int i) ∨ (∀ c ∈ cells, ∃ s, c.1 = .str s)

/-- The options of a plain table: no data beside the two columns, and different names for the attributes and for the parts
(`a != b` as Python compares the names). -/
structure PlainOptions (K : Type) [Field K] [LinearOrder K] (o : BipartiteOptions) : Prop where
  first : o.firstData = none
  second : o.secondData = none
  label : o.nodePartAttr ≠ "label"
  weight : o.nodePartAttr ≠ o.edgeWeightAttr
  parts : ¬ SameValue ((Data.ofKey (o.secondName.getD o.secondCol)).toVal : Val K)
    (Data.ofKey (o.firstName.getD o.firstCol)).toVal

end Pelote
