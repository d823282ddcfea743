import Verif.Props.TableRows
import Verif.Props.Bipartite
import Mathlib.Data.List.Perm.Basic

/-! C102: the order of the rows and of the columns of a table read by `table_to_bipartite_graph`, and `disjoint_keys`. -/
set_option linter.unusedSectionVars false
namespace Pelote
open Classical

/-! ### The specification -/

/-- `f` renames the nodes of `g` into those of `h`, and both graphs are then the same up to order. -/
structure IsRenaming (f : PyKey → PyKey) (g h : Graph PyKey Data) : Prop where
  inj : ∀ m ∈ g.nodes, ∀ n ∈ g.nodes, f m = f n → m = n
  nodes : ∀ n, n ∈ h.nodes ↔ ∃ m ∈ g.nodes, n = f m
  node : ∀ n a, g.node.get? n = some a → ∃ b, h.node.get? (f n) = some b ∧ Graph.DictEq a b
  edge : ∀ m ∈ g.nodes, ∀ n ∈ g.nodes, ∀ k, g.edge? m n k = h.edge? (f m) (f n) k

/-- The row has that value in that column. -/
def RowValue (col : PyKey) (r : Row) (v : PyKey) : Prop := ∃ x, r.item col = .ok x ∧ x.asHashable = .ok v

/-- Rows with the same value in the column have the same data (as when no data is asked for). -/
def PartRowsAgree (col : PyKey) (data : Option RowSpec) (rows : List Row) : Prop :=
  ∀ r ∈ rows, ∀ r' ∈ rows, ∀ v, RowValue col r v → RowValue col r' v → ∀ d d', CollectedData data r d → CollectedData data r' d' →
    Graph.DictEq d d'

/-- The options with the first and the second part exchanged. -/
def BipartiteOptions.swap (o : BipartiteOptions) : BipartiteOptions :=
  { o with firstCol := o.secondCol, secondCol := o.firstCol, firstData := o.secondData, secondData := o.firstData,
           firstName := o.secondName, secondName := o.firstName }

/-! ### Helpers -/

theorem asHashable_of_asNode {x : Data} {k : PyKey} (h : x.asNode = .ok k) : x.asHashable = .ok k := by
  cases x <;> simp_all [Data.asNode]

theorem RowCells.values {o : BipartiteOptions} {r : Row} {c : PyKey × PyKey} (h : RowCells o r c) :
    RowValue o.firstCol r c.1 ∧ RowValue o.secondCol r c.2 := by
  obtain ⟨⟨x, h1, h2⟩, y, h3, h4⟩ := h
  refine ⟨⟨x, h1, ?_⟩, y, h3, ?_⟩
  · split at h2
    · exact asHashable_of_asNode h2
    · exact h2
  · split at h4
    · exact asHashable_of_asNode h4
    · exact h4

theorem RowValue.unique {col : PyKey} {r : Row} {v w : PyKey} (h : RowValue col r v) (h' : RowValue col r w) : v = w := by
  obtain ⟨x, h1, h2⟩ := h
  obtain ⟨y, h3, h4⟩ := h'
  rw [h1] at h3; cases h3
  rw [h2] at h4; cases h4; rfl

/-- The name of the part of a column. -/
def nameOf (o : BipartiteOptions) (col : PyKey) : PyKey :=
  if col = o.firstCol then o.firstName.getD o.firstCol else o.secondName.getD o.secondCol

/-- The data asked for the part of a column. -/
def dataOf (o : BipartiteOptions) (col : PyKey) : Option RowSpec := if col = o.firstCol then o.firstData else o.secondData

/-- The number of rows with both values in their columns. -/
def tagWeight (o : BipartiteOptions) (cells : List (PyKey × PyKey)) (p q : PyKey × PyKey) : Nat :=
  if p.1 = o.firstCol ∧ q.1 = o.secondCol then cells.count (p.2, q.2)
  else if p.1 = o.secondCol ∧ q.1 = o.firstCol then cells.count (q.2, p.2)
  else 0

theorem first_split {α : Type} {l : List α} {P : α → Prop} (h : ∃ x ∈ l, P x) :
    ∃ pre x post, l = pre ++ x :: post ∧ P x ∧ ∀ y ∈ pre, ¬ P y := by
  cases hh : (l.filter (fun x => decide (P x))).head? with
  | none =>
    obtain ⟨x, hx, hp⟩ := h
    have : x ∈ l.filter (fun x => decide (P x)) := List.mem_filter.2 ⟨hx, decide_eq_true hp⟩
    rw [List.head?_eq_none_iff.1 hh] at this
    cases this
  | some x =>
    obtain ⟨pre, post, h1, h2, h3⟩ := head?_filter_split hh
    exact ⟨pre, x, post, h1, of_decide_eq_true h2, fun y hy => of_decide_eq_false (h3 y hy)⟩

/-- The node of a value has the data of some row with that value. -/
theorem bipartite_node_rows {rows : List Row} {o : BipartiteOptions} {cells : List (PyKey × PyKey)}
    (hc : List.Forall₂ (RowCells o) rows cells) (hs : Separate o cells) (hf1 : FuncDicts o.firstData)
    (hf2 : FuncDicts o.secondData) {g : Graph PyKey Data} (h : tableToBipartiteGraph (.rows rows) o = .ok g)
    {p : PyKey × PyKey} (hp : p ∈ tagged o cells) :
    ∃ a d, ∃ r ∈ rows, RowValue p.1 r p.2 ∧ g.node.get? (partNode o cells p.1 p.2) = some a ∧
      CollectedData (dataOf o p.1) r d ∧
      ∀ k, a.get? k = (d.get? k).or (if k = .str "label" then some (.str p.2.toStr)
        else if k = .str o.nodePartAttr then some (Data.ofKey (nameOf o p.1)) else none) := by
  have hne := (bipartite_loop h).1
  obtain ⟨c, hcc, rfl | rfl⟩ := mem_tagged.1 hp
  · obtain ⟨cpre, c', cpost, rfl, h1, h2⟩ := first_split (P := fun x => x.1 = c.1) ⟨c, hcc, rfl⟩
    obtain ⟨pre, r, post, rfl, h3, h4, h5⟩ := forall₂_split hc.flip
    obtain ⟨a, d, ha, hd, hk⟩ := bipartite_first_data h3.flip h4 h5.flip hs (fun x hx => by rw [h1]; exact h2 x hx) hf1 h
    rw [h1] at ha hk
    refine ⟨a, d, r, by simp, ?_, ha, ?_, ?_⟩
    · have := (RowCells.values h4).1
      rwa [h1] at this
    · simp only [dataOf, if_true]; exact hd
    · simp only [nameOf, if_true]; exact hk
  · obtain ⟨cpre, c', cpost, rfl, h1, h2⟩ := first_split (P := fun x => x.2 = c.2) ⟨c, hcc, rfl⟩
    obtain ⟨pre, r, post, rfl, h3, h4, h5⟩ := forall₂_split hc.flip
    obtain ⟨a, d, ha, hd, hk⟩ := bipartite_second_data h3.flip h4 h5.flip hs (fun x hx => by rw [h1]; exact h2 x hx) hf2 h
    rw [h1] at ha hk
    refine ⟨a, d, r, by simp, ?_, ha, ?_, ?_⟩
    · have := (RowCells.values h4).2
      rwa [h1] at this
    · simp only [dataOf, if_neg (Ne.symm hne)]; exact hd
    · simp only [nameOf, if_neg (Ne.symm hne)]; exact hk

theorem bipartite_no_edge {rows : List Row} {o : BipartiteOptions} {cells : List (PyKey × PyKey)}
    (hc : List.Forall₂ (RowCells o) rows cells) (hs : Separate o cells) {g : Graph PyKey Data}
    (h : tableToBipartiteGraph (.rows rows) o = .ok g) {p q : PyKey × PyKey} (hp : p ∈ tagged o cells) (hq : q ∈ tagged o cells)
    (hpq : p.1 = q.1) : g.keydict? (partNode o cells p.1 p.2) (partNode o cells q.1 q.2) = none := by
  have hne := (bipartite_loop h).1
  obtain ⟨first, second, f1, f2, -, -, f5⟩ := bipartite_bipartite hc hs h
  by_contra hk
  have he : g.hasEdge (partNode o cells p.1 p.2) (partNode o cells q.1 q.2) = true := by
    unfold Graph.hasEdge
    cases hx : g.keydict? (partNode o cells p.1 p.2) (partNode o cells q.1 q.2) with
    | none => exact absurd hx hk
    | some d => rfl
  have key1 : ∀ {p : PyKey × PyKey}, p ∈ tagged o cells → first (partNode o cells p.1 p.2) → p.1 = o.firstCol := by
    intro p hp hx
    obtain ⟨c, hcc, e⟩ := (f1 _).1 hx
    exact (Prod.mk.inj (partNode_inj hs hp (q := (o.firstCol, c.1)) (mem_tagged.2 ⟨c, hcc, .inl rfl⟩) e)).1
  have key2 : ∀ {p : PyKey × PyKey}, p ∈ tagged o cells → second (partNode o cells p.1 p.2) → p.1 = o.secondCol := by
    intro p hp hx
    obtain ⟨c, hcc, e⟩ := (f2 _).1 hx
    exact (Prod.mk.inj (partNode_inj hs hp (q := (o.secondCol, c.2)) (mem_tagged.2 ⟨c, hcc, .inr rfl⟩) e)).1
  rcases f5 _ _ he with ⟨a, b⟩ | ⟨a, b⟩
  · exact hne ((key1 hp a).symm.trans (hpq.trans (key2 hq b)))
  · exact hne ((key1 hq b).symm.trans (hpq.symm.trans (key2 hp a)))

/-- The edge between the nodes of two values counts the rows with both. -/
theorem bipartite_edge_rows {rows : List Row} {o : BipartiteOptions} {cells : List (PyKey × PyKey)}
    (hc : List.Forall₂ (RowCells o) rows cells) (hs : Separate o cells) {g : Graph PyKey Data}
    (h : tableToBipartiteGraph (.rows rows) o = .ok g) {p q : PyKey × PyKey} (hp : p ∈ tagged o cells) (hq : q ∈ tagged o cells) :
    g.keydict? (partNode o cells p.1 p.2) (partNode o cells q.1 q.2) =
      if tagWeight o cells p q = 0 then none
      else some [(.int 0, [(.str o.edgeWeightAttr, .int ((tagWeight o cells p q : Nat) : Int))])] := by
  have hne := (bipartite_loop h).1
  have hd := (bipartite_class h).2.1
  have key : ∀ c ∈ cells, ∀ d ∈ cells,
      g.keydict? (partNode o cells o.firstCol c.1) (partNode o cells o.secondCol d.2) =
        if cells.count (c.1, d.2) = 0 then none
        else some [(.int 0, [(.str o.edgeWeightAttr, .int ((cells.count (c.1, d.2) : Nat) : Int))])] := by
    intro c hcc d hdd
    rw [bipartite_weights hc hs h ⟨c, hcc, rfl⟩ ⟨d, hdd, rfl⟩]
    by_cases hm : (c.1, d.2) ∈ cells
    · rw [if_pos hm, if_neg (by rw [List.count_eq_zero]; simpa using hm)]
    · rw [if_neg hm, if_pos (by rw [List.count_eq_zero]; exact hm)]
  obtain ⟨c, hcc, rfl | rfl⟩ := mem_tagged.1 hp <;> obtain ⟨d, hdd, rfl | rfl⟩ := mem_tagged.1 hq
  · rw [bipartite_no_edge hc hs h hp hq rfl]
    simp [tagWeight, hne]
  · rw [key c hcc d hdd]
    simp [tagWeight]
  · rw [Graph.keydict?_samePair (g := g) (x := partNode o cells o.firstCol d.1) (y := partNode o cells o.secondCol c.2)
      (by rw [hd, samePair_iff]; exact .inr ⟨rfl, rfl, rfl⟩), key d hdd c hcc]
    simp [tagWeight, Ne.symm hne]
  · rw [bipartite_no_edge hc hs h hp hq rfl]
    simp [tagWeight, Ne.symm hne]

/-- Graphs described in the same way by the same tags are the same up to the names of the nodes. -/
theorem renaming_of_tags {g h : Graph PyKey Data} {T : PyKey × PyKey → Prop} {node node' : PyKey × PyKey → PyKey}
    (i1 : ∀ p q, T p → T q → node p = node q → p = q) (i2 : ∀ p q, T p → T q → node' p = node' q → p = q)
    (n1 : ∀ n, n ∈ g.nodes ↔ ∃ p, T p ∧ n = node p) (n2 : ∀ n, n ∈ h.nodes ↔ ∃ p, T p ∧ n = node' p)
    (ha : ∀ p, T p → ∃ a b, g.node.get? (node p) = some a ∧ h.node.get? (node' p) = some b ∧ Graph.DictEq a b)
    (he : ∀ p q, T p → T q → g.keydict? (node p) (node q) = h.keydict? (node' p) (node' q)) :
    ∃ f, (∀ p, T p → f (node p) = node' p) ∧ IsRenaming f g h := by
  refine ⟨fun n => if hn : ∃ p, T p ∧ n = node p then node' hn.choose else n, ?_⟩
  have hf : ∀ p, T p → (if hn : ∃ q, T q ∧ node p = node q then node' hn.choose else node p) = node' p := by
    intro p hp
    have hn : ∃ q, T q ∧ node p = node q := ⟨p, hp, rfl⟩
    rw [dif_pos hn]
    have := i1 p _ hp hn.choose_spec.1 hn.choose_spec.2
    rw [← this]
  refine ⟨hf, ?_, ?_, ?_, ?_⟩
  · intro m hm n hn e
    obtain ⟨p, hp, rfl⟩ := (n1 m).1 hm
    obtain ⟨q, hq, rfl⟩ := (n1 n).1 hn
    simp only [hf p hp, hf q hq] at e
    rw [i2 p q hp hq e]
  · intro n
    rw [n2]
    constructor
    · rintro ⟨p, hp, rfl⟩
      exact ⟨node p, (n1 _).2 ⟨p, hp, rfl⟩, (hf p hp).symm⟩
    · rintro ⟨m, hm, rfl⟩
      obtain ⟨p, hp, rfl⟩ := (n1 m).1 hm
      exact ⟨p, hp, hf p hp⟩
  · intro n a hn
    obtain ⟨p, hp, rfl⟩ := (n1 n).1 (Dict.mem_keys_of_mem (Dict.mem_of_get? hn))
    obtain ⟨a', b, h1, h2, h3⟩ := ha p hp
    rw [hn] at h1; cases h1
    simp only [hf p hp]
    exact ⟨b, h2, h3⟩
  · intro m hm n hn k
    obtain ⟨p, hp, rfl⟩ := (n1 m).1 hm
    obtain ⟨q, hq, rfl⟩ := (n1 n).1 hn
    simp only [hf p hp, hf q hq]
    unfold Graph.edge?
    rw [he p q hp hq]

theorem bipartite_nodes_tagged {rows : List Row} {o : BipartiteOptions} {cells : List (PyKey × PyKey)}
    (hc : List.Forall₂ (RowCells o) rows cells) {g : Graph PyKey Data}
    (h : tableToBipartiteGraph (.rows rows) o = .ok g) (n : PyKey) :
    n ∈ g.nodes ↔ ∃ p, p ∈ tagged o cells ∧ n = partNode o cells p.1 p.2 := by
  rw [bipartite_nodes hc h]
  constructor
  · rintro ⟨c, hcc, rfl | rfl⟩
    · exact ⟨(o.firstCol, c.1), mem_tagged.2 ⟨c, hcc, .inl rfl⟩, rfl⟩
    · exact ⟨(o.secondCol, c.2), mem_tagged.2 ⟨c, hcc, .inr rfl⟩, rfl⟩
  · rintro ⟨p, hp, rfl⟩
    obtain ⟨c, hcc, rfl | rfl⟩ := mem_tagged.1 hp
    · exact ⟨c, hcc, .inl rfl⟩
    · exact ⟨c, hcc, .inr rfl⟩

/-- Two tables with the same rows, read with options meaning the same. -/
theorem bipartite_renaming {rows rows' : List Row} {o o' : BipartiteOptions} {cells cells' : List (PyKey × PyKey)}
    {g g' : Graph PyKey Data} (hc : List.Forall₂ (RowCells o) rows cells) (hc' : List.Forall₂ (RowCells o') rows' cells')
    (hs : Separate o cells) (hs' : Separate o' cells') (hf1 : FuncDicts o.firstData) (hf2 : FuncDicts o.secondData)
    (hf1' : FuncDicts o'.firstData) (hf2' : FuncDicts o'.secondData)
    (h : tableToBipartiteGraph (.rows rows) o = .ok g) (h' : tableToBipartiteGraph (.rows rows') o' = .ok g')
    (hrows : ∀ r ∈ rows', r ∈ rows) (ht : ∀ p, p ∈ tagged o cells ↔ p ∈ tagged o' cells')
    (hpart : o'.nodePartAttr = o.nodePartAttr) (hweight : o'.edgeWeightAttr = o.edgeWeightAttr)
    (hname : ∀ p ∈ tagged o cells, nameOf o' p.1 = nameOf o p.1) (hdata : ∀ p ∈ tagged o cells, dataOf o' p.1 = dataOf o p.1)
    (hw : ∀ p q, tagWeight o' cells' p q = tagWeight o cells p q)
    (ha1 : PartRowsAgree o.firstCol o.firstData rows) (ha2 : PartRowsAgree o.secondCol o.secondData rows) :
    ∃ f, (∀ p ∈ tagged o cells, f (partNode o cells p.1 p.2) = partNode o' cells' p.1 p.2) ∧ IsRenaming f g g' := by
  have hne := (bipartite_loop h).1
  refine renaming_of_tags (T := fun p => p ∈ tagged o cells) (node := fun p => partNode o cells p.1 p.2)
    (node' := fun p => partNode o' cells' p.1 p.2) (fun p q hp hq e => partNode_inj hs hp hq e)
    (fun p q hp hq e => partNode_inj hs' ((ht p).1 hp) ((ht q).1 hq) e) (bipartite_nodes_tagged hc h) ?_ ?_ ?_
  · intro n
    rw [bipartite_nodes_tagged hc' h']
    exact exists_congr fun p => and_congr_left fun _ => (ht p).symm
  · intro p hp
    obtain ⟨a, d, r, hr, hv, ha, hd, hk⟩ := bipartite_node_rows hc hs hf1 hf2 h hp
    obtain ⟨a', d', r', hr', hv', ha', hd', hk'⟩ := bipartite_node_rows hc' hs' hf1' hf2' h' ((ht p).1 hp)
    refine ⟨a, a', ha, ha', fun k => ?_⟩
    rw [hk, hk', hname p hp, hpart]
    congr 1
    rw [hdata p hp] at hd'
    obtain ⟨c, hcc, rfl | rfl⟩ := mem_tagged.1 hp
    · simp only [dataOf, if_true] at hd hd'
      exact ha1 r hr r' (hrows r' hr') _ hv hv' d d' hd hd' k
    · simp only [dataOf, if_neg (Ne.symm hne)] at hd hd'
      exact ha2 r hr r' (hrows r' hr') _ hv hv' d d' hd hd' k
  · intro p q hp hq
    rw [bipartite_edge_rows hc hs h hp hq, bipartite_edge_rows hc' hs' h' ((ht p).1 hp) ((ht q).1 hq), hw, hweight]

/-! ### C102 -/

/-- C102.  The order of the rows only changes the numbers given to the nodes, as long as the rows do not contradict one another
about the data of a node; and `disjoint_keys`, rightly given, only replaces these numbers by the values. -/
theorem bipartite_perm {rows rows' : List Row} {o : BipartiteOptions} {b : Bool} {cells cells' : List (PyKey × PyKey)}
    {g g' : Graph PyKey Data} (hp : rows.Perm rows') (hc : List.Forall₂ (RowCells o) rows cells)
    (hc' : List.Forall₂ (RowCells { o with disjointKeys := b }) rows' cells') (hs : Separate o cells)
    (hs' : Separate { o with disjointKeys := b } cells') (hf1 : FuncDicts o.firstData) (hf2 : FuncDicts o.secondData)
    (ha1 : PartRowsAgree o.firstCol o.firstData rows) (ha2 : PartRowsAgree o.secondCol o.secondData rows)
    (h : tableToBipartiteGraph (.rows rows) o = .ok g)
    (h' : tableToBipartiteGraph (.rows rows') { o with disjointKeys := b } = .ok g') :
    ∃ f, (∀ p ∈ tagged o cells, f (partNode o cells p.1 p.2) = partNode { o with disjointKeys := b } cells' p.1 p.2) ∧
      IsRenaming f g g' := by
  have hcells : cells.Perm cells' := by
    obtain ⟨m, hm1, hm2⟩ := List.perm_comp_forall₂ hp.symm hc
    have : m = cells' := by
      have hx : List.Forall₂ (fun x y => x = y) m cells' := by
        rw [List.forall₂_iff_get]
        refine ⟨hm1.length_eq.symm.trans hc'.length_eq, fun i hi hi' => ?_⟩
        have a1 := (hm1.get (hm1.length_eq ▸ hi) hi).values
        have a2 := (hc'.get (hc'.length_eq ▸ hi') hi').values
        exact Prod.ext (a1.1.unique a2.1) (a1.2.unique a2.2)
      rwa [List.forall₂_eq_eq_eq] at hx
    exact this ▸ hm2.symm
  refine bipartite_renaming hc hc' hs hs' hf1 hf2 hf1 hf2 h h' (fun r hr => hp.mem_iff.2 hr) (fun p => ?_) rfl rfl
    (fun _ _ => rfl) (fun _ _ => rfl) (fun p q => ?_) ha1 ha2
  · rw [mem_tagged, mem_tagged]
    exact exists_congr fun c => and_congr_left fun _ => hcells.mem_iff
  · unfold tagWeight
    simp only [hcells.count_eq]

/-- C102.  Exchanging the first and the second part only changes the numbers given to the nodes. -/
theorem bipartite_swap {rows : List Row} {o : BipartiteOptions} {cells : List (PyKey × PyKey)}
    {g g' : Graph PyKey Data} (hc : List.Forall₂ (RowCells o) rows cells) (hs : Separate o cells) (hf1 : FuncDicts o.firstData)
    (hf2 : FuncDicts o.secondData) (ha1 : PartRowsAgree o.firstCol o.firstData rows)
    (ha2 : PartRowsAgree o.secondCol o.secondData rows) (h : tableToBipartiteGraph (.rows rows) o = .ok g)
    (h' : tableToBipartiteGraph (.rows rows) o.swap = .ok g') :
    ∃ f, (∀ p ∈ tagged o cells, f (partNode o cells p.1 p.2) = partNode o.swap (cells.map Prod.swap) p.1 p.2) ∧
      IsRenaming f g g' := by
  have hne := (bipartite_loop h).1
  have hc' : List.Forall₂ (RowCells o.swap) rows (cells.map Prod.swap) := by
    rw [List.forall₂_map_right_iff]
    exact hc.imp fun r c hx => ⟨hx.second, hx.first⟩
  have hcol : ∀ p ∈ tagged o cells, p.1 = o.firstCol ∨ p.1 = o.secondCol := by
    intro p hp
    obtain ⟨c, -, rfl | rfl⟩ := mem_tagged.1 hp
    · exact .inl rfl
    · exact .inr rfl
  refine bipartite_renaming hc hc' hs ?_ hf1 hf2 hf2 hf1 h h' (fun r hr => hr) (fun p => ?_) rfl rfl ?_ ?_ (fun p q => ?_) ha1 ha2
  · intro hd c hcc d hdd e
    obtain ⟨c', hc', rfl⟩ := List.mem_map.1 hcc
    obtain ⟨d', hd', rfl⟩ := List.mem_map.1 hdd
    exact hs hd d' hd' c' hc' e.symm
  · rw [mem_tagged, mem_tagged]
    constructor
    · rintro ⟨c, hcc, hx⟩
      exact ⟨c.swap, List.mem_map.2 ⟨c, hcc, rfl⟩, hx.symm⟩
    · rintro ⟨c, hcc, hx⟩
      obtain ⟨c', hc', rfl⟩ := List.mem_map.1 hcc
      exact ⟨c', hc', hx.symm⟩
  · intro p hp
    unfold nameOf BipartiteOptions.swap
    rcases hcol p hp with e | e <;> rw [e] <;> simp [hne, Ne.symm hne]
  · intro p hp
    unfold dataOf BipartiteOptions.swap
    rcases hcol p hp with e | e <;> rw [e] <;> simp [hne, Ne.symm hne]
  · have hcount : ∀ x y : PyKey, (cells.map Prod.swap).count (x, y) = cells.count (y, x) := by
      intro x y
      have := List.count_map_of_injective cells (Prod.swap : PyKey × PyKey → PyKey × PyKey) Prod.swap_injective (y, x)
      simpa using this
    unfold tagWeight BipartiteOptions.swap
    simp only [hcount]
    by_cases h1 : p.1 = o.firstCol ∧ q.1 = o.secondCol
    · rw [if_neg (fun hx => hne (h1.1.symm.trans hx.1)), if_pos h1, if_pos h1]
    · rw [if_neg h1]
      by_cases h2 : p.1 = o.secondCol ∧ q.1 = o.firstCol
      · rw [if_pos h2, if_neg h1]
      · rw [if_neg h2, if_neg h1]

theorem foldl_showKey_prefix {α : Type} [DecidableEq α] (l m : List α) : ∃ s, (l ++ m).foldl showKey [] = l.foldl showKey [] ++ s := by
  rw [List.foldl_append]
  generalize l.foldl showKey [] = k
  induction m generalizing k with
  | nil => exact ⟨[], by simp⟩
  | cons a m ih =>
    rw [List.foldl_cons]
    obtain ⟨s, hs⟩ := ih (showKey k a)
    rw [hs]
    unfold showKey
    split
    · exact ⟨s, rfl⟩
    · exact ⟨a :: s, by simp⟩

theorem rankIn_append {α : Type} [DecidableEq α] {l m : List α} {a : α} (h : a ∈ l) : rankIn (l ++ m) a = rankIn l a :=
  List.idxOf_append_of_mem h

/-- C102.  Adding rows at the end of the table changes no node of the graph, only adds some, and adds up the weights. -/
theorem bipartite_append {rows rows' : List Row} {o : BipartiteOptions} {cells cells' : List (PyKey × PyKey)}
    {g g' : Graph PyKey Data} (hc : List.Forall₂ (RowCells o) rows cells) (hc' : List.Forall₂ (RowCells o) rows' cells')
    (hs : Separate o (cells ++ cells')) (h : tableToBipartiteGraph (.rows rows) o = .ok g)
    (h' : tableToBipartiteGraph (.rows (rows ++ rows')) o = .ok g') :
    (∀ p ∈ tagged o cells, partNode o (cells ++ cells') p.1 p.2 = partNode o cells p.1 p.2) ∧
    (∀ n ∈ g.nodes, n ∈ g'.nodes) ∧
    ∀ p ∈ tagged o cells, ∀ q ∈ tagged o cells,
      g'.keydict? (partNode o cells p.1 p.2) (partNode o cells q.1 q.2) =
        if tagWeight o cells p q + tagWeight o cells' p q = 0 then none
        else some [(.int 0, [(.str o.edgeWeightAttr, .int ((tagWeight o cells p q + tagWeight o cells' p q : Nat) : Int))])] := by
  have hca := List.rel_append hc hc'
  have hnode : ∀ p ∈ tagged o cells, partNode o (cells ++ cells') p.1 p.2 = partNode o cells p.1 p.2 := by
    intro p hp
    unfold partNode
    split
    · rfl
    · have ht : tagged o (cells ++ cells') = tagged o cells ++ tagged o cells' := List.flatMap_append ..
      obtain ⟨s, hs⟩ := foldl_showKey_prefix (tagged o cells) (tagged o cells')
      rw [ht, hs]
      rw [rankIn_append (mem_foldl_showKey.2 (.inr hp))]
  have htag : ∀ p ∈ tagged o cells, p ∈ tagged o (cells ++ cells') := by
    intro p hp
    obtain ⟨c, hcc, hx⟩ := mem_tagged.1 hp
    exact mem_tagged.2 ⟨c, List.mem_append_left _ hcc, hx⟩
  refine ⟨hnode, fun n hn => ?_, fun p hp q hq => ?_⟩
  · obtain ⟨p, hp, rfl⟩ := (bipartite_nodes_tagged hc h n).1 hn
    exact (bipartite_nodes_tagged hca h' _).2 ⟨p, htag p hp, (hnode p hp).symm⟩
  · rw [← hnode p hp, ← hnode q hq, bipartite_edge_rows hca hs h' (htag p hp) (htag q hq)]
    have : tagWeight o (cells ++ cells') p q = tagWeight o cells p q + tagWeight o cells' p q := by
      unfold tagWeight
      simp only [List.count_append]
      split_ifs <;> rfl
    rw [this]

/-! ### Samples -/

/-- Plain options. -/
def bareOptions (disjointKeys : Bool) : BipartiteOptions := { sampleOptions disjointKeys with firstData := none }

/-- Non-triviality: a table and the same in another order meet the hypotheses of `bipartite_perm`, with different numbers. -/
theorem bipartite_perm_sample :
    sampleRows.Perm sampleRows.reverse ∧ Separate (bareOptions false) sampleCells ∧
    List.Forall₂ (RowCells (bareOptions false)) sampleRows sampleCells ∧
    PartRowsAgree (bareOptions false).firstCol (bareOptions false).firstData sampleRows ∧
    (∃ g, tableToBipartiteGraph (.rows sampleRows) (bareOptions false) = .ok g) ∧
    (∃ g, tableToBipartiteGraph (.rows sampleRows.reverse) (bareOptions false) = .ok g) ∧
    ∃ g, tableToBipartiteGraph (.rows sampleRows) (bareOptions false).swap = .ok g := by
  refine ⟨(List.reverse_perm _).symm, fun h => (by cases h), (sampleRows_cells false).imp (fun _ _ h => ⟨h.first, h.second⟩), ?_, ⟨_, rfl⟩,
    ⟨_, rfl⟩, ⟨_, rfl⟩⟩
  intro r _ r' _ v _ _ d d' hd hd'
  have e1 : d = [] := hd
  have e2 : d' = [] := hd'
  rw [e1, e2]
  exact fun _ => rfl

/-- The order matters when the rows of a node contradict one another: the data of `x` is that of the first row met. -/
theorem bipartite_order_matters :
    ∃ g g', tableToBipartiteGraph (.rows sampleRows) (sampleOptions false) = .ok g ∧
      tableToBipartiteGraph (.rows sampleRows.reverse) (sampleOptions false) = .ok g' ∧
      (g.node.get? (.int 0)).bind (fun a => a.get? (.str "c")) = some (.int 1) ∧
      (g'.node.get? (.int 0)).bind (fun a => a.get? (.str "c")) = some (.int 2) :=
  ⟨_, _, rfl, rfl, rfl, rfl⟩

/-- The same of the data of an edge. -/
theorem edges_table_order_matters :
    ∃ g g', edgesTableToGraph (.rows sampleEdgeRows) (sampleEdgeOptions false true) false = .ok g ∧
      edgesTableToGraph (.rows sampleEdgeRows.reverse) (sampleEdgeOptions false true) false = .ok g' ∧
      g.edgesData = [(.str "x", .str "y", [(.str "c", .int 2)])] ∧ g'.edgesData = [(.str "y", .str "x", [(.str "c", .int 1)])] :=
  ⟨_, _, rfl, rfl, rfl, rfl⟩

/-- Non-triviality of `tables_perm` and `tables_swap_undirected`: no data is asked for. -/
example : EdgeRowsAgree { sampleEdgeOptions true true with edgeData := [] } false sampleEdgeRows ∧
    NodeRowsAgree (.str "n") [] sampleNodeRows ∧
    (∃ g, tablesToGraph (.rows sampleNodeRows) (.rows sampleEdgeRows) (.str "n") [] { sampleEdgeOptions true true with edgeData := [] }
      false = .ok g ∧ g.edgesData = [(.str "x", .str "y", [(.str "weight", .int 2)])]) :=
  ⟨fun _ _ _ _ _ _ _ _ _ c hc => absurd hc List.not_mem_nil, fun _ _ _ _ _ _ _ c hc => absurd hc List.not_mem_nil,
    ⟨_, rfl, rfl⟩⟩

end Pelote
