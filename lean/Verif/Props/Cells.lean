import Verif.Lemmas.Cells
import Verif.Spec.Cells
import Verif.Props.TableRowsBipartite

/-! C113: equal cells and missing values in a table. -/
namespace Pelote

section
variable {rows : List (Cell × Cell)} {o : CellOptions}

theorem cellRows_cells (hh : ∀ c ∈ rows, c.1.hashable = true ∧ c.2.hashable = true) :
    List.Forall₂ (RowCells o.encoded) (rows.map cellRow) (rows.map (fun c => (c.1.key, c.2.key))) := by
  induction rows with
  | nil => exact .nil
  | cons c rows ih =>
    refine .cons ⟨⟨c.1.data, rfl, ?_⟩, ⟨c.2.data, rfl, ?_⟩⟩ (ih fun c hc => hh c (by simp [hc]))
    · exact Cell.data_hashable (hh c (by simp)).1
    · exact Cell.data_hashable (hh c (by simp)).2

theorem encoded_separate (cells : List (PyKey × PyKey)) : Separate o.encoded cells := fun h => by cases h

theorem labelOf_dicts (i : Int) : FuncDicts (some (.func (labelOf i))) := by
  intro f hf row d hd
  cases hf
  unfold labelOf at hd
  split at hd
  · cases hd
  · cases hd
    simp [Dict.keys]

theorem cellAttributes_safe {partAttr : String} (hp : partAttr ∉ ["self", "node_for_adding"]) (name : PyKey) (x : Cell) :
    Graph.NodeKwSafe (cellAttributes partAttr name x) := by
  intro k hk
  rw [cellAttributes, Dict.mem_keys_set] at hk
  rcases hk with hk | rfl
  · simp only [Dict.keys_cons, Dict.keys_nil, List.mem_singleton] at hk
    exact ⟨_, hk, hp⟩
  · exact ⟨_, rfl, by decide⟩

theorem count_key (hh : ∀ c ∈ rows, c.1.hashable = true ∧ c.2.hashable = true) {x y : Cell} (hx : x.hashable = true) (hy : y.hashable = true) :
    (rows.map (fun c => (c.1.key, c.2.key))).count (x.key, y.key) = rowsWith rows x y := by
  rw [List.count_eq_countP, List.countP_map, rowsWith]
  refine List.countP_congr fun c hc => ?_
  simp only [Function.comp, beq_iff_eq, Prod.mk.injEq, Bool.and_eq_true, Cell.same_iff (hh c hc).1 hx, Cell.same_iff (hh c hc).2 hy]

/-- C113.  Columns of distinct names, hashable cells: the graph has one node for each column and each class of cells of the column that
Python takes for equal, whose label is the text of the first one; two nodes are linked if they are of different columns and there are
rows with both, the number of which is the weight. -/
theorem cellTable_graph (hne : o.firstCol ≠ o.secondCol) (hh : ∀ c ∈ rows, c.1.hashable = true ∧ c.2.hashable = true)
    (hp : o.partAttr ∉ ["self", "node_for_adding"]) (hw : o.weightAttr ∉ ["self", "u_of_edge", "v_of_edge"]) :
    ∃ g, cellTable rows o = .ok g ∧ g.WF ∧ g.directed = false ∧ g.multi = false ∧
      ∃ node1 node2 : Cell → PyKey,
        (∀ n, n ∈ g.nodes ↔ (∃ c ∈ rows, n = node1 c.1) ∨ ∃ c ∈ rows, n = node2 c.2) ∧
        (∀ c ∈ rows, ∀ d ∈ rows, (node1 c.1 = node1 d.1 ↔ c.1.same d.1 = true) ∧ (node2 c.2 = node2 d.2 ↔ c.2.same d.2 = true) ∧
          node1 c.1 ≠ node2 d.2) ∧
        (∀ c ∈ rows, ∃ a t, g.node.get? (node1 c.1) = some a ∧ firstText (rows.map Prod.fst) c.1 = some t ∧
          ∀ k, a.get? k = if k = .str "label" then some (.str t)
            else if k = .str o.partAttr then some (Data.ofKey (o.firstName.getD o.firstCol)) else none) ∧
        (∀ c ∈ rows, ∃ a t, g.node.get? (node2 c.2) = some a ∧ firstText (rows.map Prod.snd) c.2 = some t ∧
          ∀ k, a.get? k = if k = .str "label" then some (.str t)
            else if k = .str o.partAttr then some (Data.ofKey (o.secondName.getD o.secondCol)) else none) ∧
        (∀ c ∈ rows, ∀ d ∈ rows, g.keydict? (node1 c.1) (node1 d.1) = none ∧ g.keydict? (node2 c.2) (node2 d.2) = none ∧
          g.keydict? (node1 c.1) (node2 d.2) = if rowsWith rows c.1 d.2 = 0 then none
            else some [(.int 0, [(.str o.weightAttr, .int ((rowsWith rows c.1 d.2 : Nat) : Int))])]) := by
  have hc := cellRows_cells (o := o) hh
  have hs := encoded_separate (o := o) (rows.map (fun c => (c.1.key, c.2.key)))
  rw [cellTable_encoded hne]
  obtain ⟨g, hg⟩ := bipartite_total hc (by simp [CellOptions.encoded]) (by
      intro row hr l
      obtain ⟨c, _, rfl⟩ := List.mem_map.1 hr
      exact ⟨_, partAttributes_first o c l, cellAttributes_safe hp _ _⟩) (by
      intro row hr l
      obtain ⟨c, _, rfl⟩ := List.mem_map.1 hr
      exact ⟨_, partAttributes_second o c l, cellAttributes_safe hp _ _⟩) hw
  obtain ⟨h1, h2, h3, -⟩ := bipartite_class hg
  have t1 : ∀ c ∈ rows, ((.int 0, c.1.key) : PyKey × PyKey) ∈ tagged o.encoded (rows.map (fun c => (c.1.key, c.2.key))) := fun c hcc =>
    mem_tagged.2 ⟨_, List.mem_map.2 ⟨c, hcc, rfl⟩, .inl rfl⟩
  have t2 : ∀ c ∈ rows, ((.int 1, c.2.key) : PyKey × PyKey) ∈ tagged o.encoded (rows.map (fun c => (c.1.key, c.2.key))) := fun c hcc =>
    mem_tagged.2 ⟨_, List.mem_map.2 ⟨c, hcc, rfl⟩, .inr rfl⟩
  refine ⟨g, hg, h1, h2, h3, fun x => partNode o.encoded (rows.map (fun c => (c.1.key, c.2.key))) (.int 0) x.key,
    fun x => partNode o.encoded (rows.map (fun c => (c.1.key, c.2.key))) (.int 1) x.key, ?_, ?_, ?_, ?_, ?_⟩
  · intro n
    rw [bipartite_nodes hc hg]
    constructor
    · rintro ⟨_, hm, hn⟩
      obtain ⟨c, hcc, rfl⟩ := List.mem_map.1 hm
      rcases hn with hn | hn
      · exact .inl ⟨c, hcc, hn⟩
      · exact .inr ⟨c, hcc, hn⟩
    · rintro (⟨c, hcc, hn⟩ | ⟨c, hcc, hn⟩)
      · exact ⟨_, List.mem_map.2 ⟨c, hcc, rfl⟩, .inl hn⟩
      · exact ⟨_, List.mem_map.2 ⟨c, hcc, rfl⟩, .inr hn⟩
  · intro c hcc d hdd
    refine ⟨?_, ?_, ?_⟩
    · rw [Cell.same_iff (hh c hcc).1 (hh d hdd).1]
      exact ⟨fun h => (Prod.mk.inj (partNode_inj hs (t1 c hcc) (t1 d hdd) h)).2, fun h => by simp only [h]⟩
    · rw [Cell.same_iff (hh c hcc).2 (hh d hdd).2]
      exact ⟨fun h => (Prod.mk.inj (partNode_inj hs (t2 c hcc) (t2 d hdd) h)).2, fun h => by simp only [h]⟩
    · intro h
      have := (Prod.mk.inj (partNode_inj hs (t1 c hcc) (t2 d hdd) h)).1
      simp at this
  · intro c hcc
    obtain ⟨cpre, c', cpost, rfl, e1, e2⟩ := first_split (P := fun x : Cell × Cell => x.1.same c.1 = true) ⟨c, hcc, by
      rw [Cell.same_iff (hh c hcc).1 (hh c hcc).1]⟩
    have hk : c'.1.key = c.1.key := (Cell.same_iff (hh c' (by simp)).1 (hh c hcc).1).1 e1
    rw [List.map_append, List.map_cons] at hg hc hs
    have a1 := cellRows_cells (o := o) (rows := cpre) (fun d hd => hh d (by simp [hd]))
    have a2 := cellRows_cells (o := o) (rows := cpost) (fun d hd => hh d (by simp [hd]))
    have a3 := cellRows_cells (o := o) (rows := [c']) (fun d hd => hh d (by simp only [List.mem_singleton] at hd; simp [hd]))
    obtain ⟨a, d, b1, b2, b3⟩ := bipartite_first_data a1 (List.forall₂_cons.1 a3).1 a2 (by simpa using hs) (by
        intro x hx
        obtain ⟨y, hy, rfl⟩ := List.mem_map.1 hx
        intro h
        exact e2 y hy ((Cell.same_iff (hh y (by simp [hy])).1 (hh c hcc).1).2 (h.trans hk))) (labelOf_dicts 2) hg
    refine ⟨a, c'.1.text, ?_, ?_, ?_⟩
    · simp only [List.map_append, List.map_cons]
      rw [← hk]
      exact b1
    · unfold firstText
      rw [List.map_append, List.map_cons, List.find?_append, List.find?_eq_none.2 (by
        intro x hx
        obtain ⟨y, hy, rfl⟩ := List.mem_map.1 hx
        exact e2 y hy), List.find?_cons, e1]
      rfl
    · have hd : d = [(.str "label", .str c'.1.text)] := by
        have : Except.ok (Data.dict [(.str "label", .str c'.1.text)]) = (.ok (.dict d) : Py Data) := b2
        injection this with this
        injection this with this
        exact this.symm
      intro k
      rw [b3, hd, Dict.get?_cons]
      by_cases hk' : k = .str "label"
      · subst hk'; simp
      · rw [if_neg (fun h => hk' h.symm), if_neg hk']
        simp only [hk', if_false, CellOptions.encoded, Dict.get?_nil, Option.none_or]
        rfl
  · intro c hcc
    obtain ⟨cpre, c', cpost, rfl, e1, e2⟩ := first_split (P := fun x : Cell × Cell => x.2.same c.2 = true) ⟨c, hcc, by
      rw [Cell.same_iff (hh c hcc).2 (hh c hcc).2]⟩
    have hk : c'.2.key = c.2.key := (Cell.same_iff (hh c' (by simp)).2 (hh c hcc).2).1 e1
    rw [List.map_append, List.map_cons] at hg hc hs
    have a1 := cellRows_cells (o := o) (rows := cpre) (fun d hd => hh d (by simp [hd]))
    have a2 := cellRows_cells (o := o) (rows := cpost) (fun d hd => hh d (by simp [hd]))
    have a3 := cellRows_cells (o := o) (rows := [c']) (fun d hd => hh d (by simp only [List.mem_singleton] at hd; simp [hd]))
    obtain ⟨a, d, b1, b2, b3⟩ := bipartite_second_data a1 (List.forall₂_cons.1 a3).1 a2 (by simpa using hs) (by
        intro x hx
        obtain ⟨y, hy, rfl⟩ := List.mem_map.1 hx
        intro h
        exact e2 y hy ((Cell.same_iff (hh y (by simp [hy])).2 (hh c hcc).2).2 (h.trans hk))) (labelOf_dicts 3) hg
    refine ⟨a, c'.2.text, ?_, ?_, ?_⟩
    · simp only [List.map_append, List.map_cons]
      rw [← hk]
      exact b1
    · unfold firstText
      rw [List.map_append, List.map_cons, List.find?_append, List.find?_eq_none.2 (by
        intro x hx
        obtain ⟨y, hy, rfl⟩ := List.mem_map.1 hx
        exact e2 y hy), List.find?_cons, e1]
      rfl
    · have hd : d = [(.str "label", .str c'.2.text)] := by
        have : Except.ok (Data.dict [(.str "label", .str c'.2.text)]) = (.ok (.dict d) : Py Data) := b2
        injection this with this
        injection this with this
        exact this.symm
      intro k
      rw [b3, hd, Dict.get?_cons]
      by_cases hk' : k = .str "label"
      · subst hk'; simp
      · rw [if_neg (fun h => hk' h.symm), if_neg hk']
        simp only [hk', if_false, CellOptions.encoded, Dict.get?_nil, Option.none_or]
        rfl
  · intro c hcc d hdd
    refine ⟨bipartite_no_edge hc hs hg (t1 c hcc) (t1 d hdd) rfl, bipartite_no_edge hc hs hg (t2 c hcc) (t2 d hdd) rfl, ?_⟩
    have := bipartite_edge_rows hc hs hg (t1 c hcc) (t2 d hdd)
    have ht : tagWeight o.encoded (rows.map (fun c => (c.1.key, c.2.key))) (.int 0, c.1.key) (.int 1, d.2.key) = rowsWith rows c.1 d.2 := by
      unfold tagWeight
      rw [if_pos ⟨rfl, rfl⟩]
      exact count_key hh (hh c hcc).1 (hh d hdd).2
    rw [ht] at this
    exact this

/-- C113.  Nothing else of the cells is looked at: other cells, equal to them and with the same texts, give the same graph. -/
theorem cellTable_congr {rows' : List (Cell × Cell)} (h : List.Forall₂ (fun c d => c.1.same d.1 = true ∧ c.2.same d.2 = true ∧
      c.1.text = d.1.text ∧ c.2.text = d.2.text) rows rows') : cellTable rows o = cellTable rows' o := by
  by_cases hne : o.firstCol = o.secondCol
  · unfold cellTable
    rw [if_pos hne, if_pos hne]
  · rw [cellTable_encoded hne, cellTable_encoded hne]
    have key : ∀ {x y : Cell}, x.same y = true → x.data = y.data := by
      intro x y hs
      have hx : x.hashable = true := by cases x <;> first | rfl | cases hs
      have hy : y.hashable = true := by cases y <;> first | rfl | (cases x <;> cases hs)
      unfold Cell.data
      rw [if_pos hx, if_pos hy, (Cell.same_iff hx hy).1 hs]
    congr 2
    induction h with
    | nil => rfl
    | cons hcd _ ih =>
      obtain ⟨h1, h2, h3, h4⟩ := hcd
      rw [List.map_cons, List.map_cons, ih]
      unfold cellRow
      rw [key h1, key h2, h3, h4]

theorem cellLoop_append (pre rest : List (Cell × Cell)) (reg : CellRegister) (g : Graph PyKey Data) :
    ∃ reg', cellLoop o (pre ++ rest) reg g = (cellLoop o pre reg g).bind (fun g' => cellLoop o rest reg' g') := by
  induction pre generalizing reg g with
  | nil => exact ⟨reg, rfl⟩
  | cons c pre ih =>
    obtain ⟨x, y⟩ := c
    simp only [List.cons_append, cellLoop]
    split
    · exact ⟨reg, rfl⟩
    · split
      · exact ⟨reg, rfl⟩
      · split
        · exact ⟨reg, rfl⟩
        · split
          · exact ⟨reg, rfl⟩
          · split
            · exact ⟨reg, rfl⟩
            · exact ih _ _

/-- C113.  A table with a cell that cannot be a dict key (a list, a dict…) in one of the columns is refused. -/
theorem cellTable_unhashable (hne : o.firstCol ≠ o.secondCol) (hp : o.partAttr ∉ ["self", "node_for_adding"])
    (hw : o.weightAttr ∉ ["self", "u_of_edge", "v_of_edge"]) (h : ∃ c ∈ rows, c.1.hashable = false ∨ c.2.hashable = false) :
    cellTable rows o = .error (.typeError "unhashable type") := by
  obtain ⟨pre, c, post, rfl, h1, h2⟩ := first_split (P := fun c : Cell × Cell => c.1.hashable = false ∨ c.2.hashable = false) h
  obtain ⟨g, hg, -⟩ := cellTable_graph (rows := pre) hne (fun d hd => by simpa using h2 d hd) hp hw
  unfold cellTable at hg ⊢
  rw [if_neg hne] at hg ⊢
  obtain ⟨reg, hr⟩ := cellLoop_append (o := o) pre (c :: post) ⟨0, []⟩ (Graph.empty false false [])
  rw [hr, hg]
  obtain ⟨x, y⟩ := c
  simp only [Except.bind]
  unfold cellLoop
  rcases h1 with h1 | h1
  · simp only at h1
    rw [h1]; rfl
  · simp only at h1
    rw [h1]
    split <;> rfl

/-- C113.  The nodes of a column of NaN cells: one for each object, each with the label `nan`, and the weights of its edges count the rows
where this very object is. -/
theorem rowsWith_nan (rows : List (Cell × Cell)) (i : Nat) (y : Cell) :
    rowsWith rows (.nan i) y = rows.countP (fun c => decide (c.1 = .nan i) && c.2.same y) := by
  refine List.countP_congr fun c _ => ?_
  obtain ⟨x, z⟩ := c
  cases x <;> simp [Cell.same]

end

/-! ### Witnesses -/

/-- Options by default. -/
def cellOptions : CellOptions := ⟨.str "who", .str "what", "part", "weight", none, none⟩

/-- A table where 1 is written in three ways, and missing values in three ways. -/
def cellSample : List (Cell × Cell) :=
  [(.num 1 "1", .str "a"), (.num 1 "True", .str "a"), (.num 1 "1.0", .none), (.nan 0, .none), (.nan 1, .none), (.nan 0, .str "1"), (.none, .str "a")]

/-- The hypotheses hold of the sample; the three ways of writing 1 are one node, of label `1`, as are the cells `None`; the two NaN objects
are two nodes of the same label. -/
theorem cellSample_graph : (∀ c ∈ cellSample, c.1.hashable = true ∧ c.2.hashable = true) ∧
    (cellTable cellSample cellOptions).map (fun g => g.node.map (fun e => (e.1, (e.2.get? (.str "label")).map (fun d =>
      match d with | .str s => s | _ => "")))) =
      .ok [(.int 0, some "1"), (.int 1, some "a"), (.int 2, some "None"), (.int 3, some "nan"), (.int 4, some "nan"), (.int 5, some "1"),
        (.int 6, some "None")] ∧
    (cellTable cellSample cellOptions).map (fun g => g.edgesData.map (fun e => (e.1, e.2.1, intWeight "weight" e.2.2))) =
      .ok [(.int 0, .int 1, 2), (.int 0, .int 2, 1), (.int 1, .int 6, 1), (.int 2, .int 3, 1), (.int 2, .int 4, 1), (.int 3, .int 5, 1)] := by
  refine ⟨by decide, by decide +kernel, by decide +kernel⟩

/-- C113, finding.  The number of nodes of a table with missing values depends on how they are made: as many rows with `float("nan")` give as
many nodes, rows with the one `numpy.nan` give one. -/
theorem missing_depends :
    (cellTable [(.nan 0, .str "a"), (.nan 1, .str "a"), (.nan 2, .str "a")] cellOptions).map (fun g => g.order) = .ok 4 ∧
    (cellTable [(.nan 0, .str "a"), (.nan 0, .str "a"), (.nan 0, .str "a")] cellOptions).map (fun g => g.order) = .ok 2 ∧
    (cellTable [(.none, .str "a"), (.none, .str "a"), (.none, .str "a")] cellOptions).map (fun g => g.order) = .ok 2 := by
  refine ⟨?_, ?_, ?_⟩ <;> decide +kernel

end Pelote
