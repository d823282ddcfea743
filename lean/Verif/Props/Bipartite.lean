import Verif.Lemmas.BipartiteSum

/-! Properties C48, C49, C50: bipartite graphs from tables. -/
namespace Pelote

/-! ### Helpers -/

theorem bipartite_loop {rows : List Row} {o : BipartiteOptions} {g : Graph PyKey Data}
    (h : tableToBipartiteGraph (.rows rows) o = .ok g) :
    o.firstCol ≠ o.secondCol ∧ bipartiteLoop o rows IdRegister.init (Graph.empty false false []) = .ok g := by
  unfold tableToBipartiteGraph at h
  split at h
  · cases h
  · rename_i hc; exact ⟨hc, h⟩

theorem bipartite_steps {rows : List Row} {o : BipartiteOptions} {cells : List (PyKey × PyKey)}
    (hc : List.Forall₂ (RowCells o) rows cells) {g : Graph PyKey Data}
    (h : tableToBipartiteGraph (.rows rows) o = .ok g) :
    o.firstCol ≠ o.secondCol ∧
      stepsLoop o (mkSteps o (partNode o cells) rows cells) (Graph.empty false false []) = .ok g := by
  obtain ⟨h1, h2⟩ := bipartite_loop h
  rw [loop_eq hc] at h2
  exact ⟨h1, h2⟩

theorem bipartite_inv {rows : List Row} {o : BipartiteOptions} {cells : List (PyKey × PyKey)}
    (hc : List.Forall₂ (RowCells o) rows cells) {g : Graph PyKey Data}
    (h : tableToBipartiteGraph (.rows rows) o = .ok g) :
    BInv o (mkSteps o (partNode o cells) rows cells) g := by
  have := (stepsLoop_inv (BInv.empty o) (bipartite_steps hc h).2).1
  rwa [List.nil_append] at this

theorem mkSteps_ends {rows : List Row} {o : BipartiteOptions} {cells : List (PyKey × PyKey)}
    {node : PyKey → PyKey → PyKey} (hl : rows.length = cells.length) {t : BStep} (ht : t ∈ mkSteps o node rows cells) :
    ∃ c ∈ cells, t.n1 = node o.firstCol c.1 ∧ t.n2 = node o.secondCol c.2 := by
  have : (t.n1, t.n2) ∈ (mkSteps o node rows cells).map (fun t => (t.n1, t.n2)) := List.mem_map.2 ⟨t, ht, rfl⟩
  rw [mem_mkSteps hl] at this
  obtain ⟨c, hc, he⟩ := List.mem_map.1 this
  exact ⟨c, hc, (Prod.mk.inj he).1.symm, (Prod.mk.inj he).2.symm⟩

theorem ends_mkSteps {rows : List Row} {o : BipartiteOptions} {cells : List (PyKey × PyKey)}
    {node : PyKey → PyKey → PyKey} (hl : rows.length = cells.length) {c : PyKey × PyKey} (hc : c ∈ cells) :
    ∃ t ∈ mkSteps o node rows cells, t.n1 = node o.firstCol c.1 ∧ t.n2 = node o.secondCol c.2 := by
  have : (node o.firstCol c.1, node o.secondCol c.2) ∈ (mkSteps o node rows cells).map (fun t => (t.n1, t.n2)) := by
    rw [mem_mkSteps hl]; exact List.mem_map.2 ⟨c, hc, rfl⟩
  obtain ⟨t, ht, he⟩ := List.mem_map.1 this
  exact ⟨t, ht, (Prod.mk.inj he).1, (Prod.mk.inj he).2⟩

theorem mem_tagged {o : BipartiteOptions} {cells : List (PyKey × PyKey)} {p : PyKey × PyKey} :
    p ∈ tagged o cells ↔ ∃ c ∈ cells, p = (o.firstCol, c.1) ∨ p = (o.secondCol, c.2) := by
  unfold tagged
  simp [List.mem_flatMap]

theorem rankIn_inj {α : Type} [DecidableEq α] {l : List α} {a b : α} (ha : a ∈ l) (h : rankIn l a = rankIn l b) :
    a = b := (List.idxOf_inj ha).1 h

/-! ### C48 -/

/-- A table is only accepted if each of its rows has both values. -/
theorem bipartite_cells {rows : List Row} {o : BipartiteOptions} {g : Graph PyKey Data}
    (h : tableToBipartiteGraph (.rows rows) o = .ok g) : ∃ cells, List.Forall₂ (RowCells o) rows cells :=
  loop_cells (bipartite_loop h).2

/-- Distinct values of a column, and values of different columns, have distinct nodes. -/
theorem partNode_inj {o : BipartiteOptions} {cells : List (PyKey × PyKey)} (hs : Separate o cells)
    {p q : PyKey × PyKey} (hp : p ∈ tagged o cells) (hq : q ∈ tagged o cells)
    (h : partNode o cells p.1 p.2 = partNode o cells q.1 q.2) : p = q := by
  unfold partNode at h
  split at h
  · rename_i hd
    obtain ⟨c, hc, rfl | rfl⟩ := mem_tagged.1 hp <;> obtain ⟨d, hd', rfl | rfl⟩ := mem_tagged.1 hq
    · simp only at h; rw [h]
    · exact absurd h (hs hd c hc d hd')
    · exact absurd h.symm (hs hd d hd' c hc)
    · simp only at h; rw [h]
  · have hi : rankIn ((tagged o cells).foldl showKey []) (p.1, p.2) =
        rankIn ((tagged o cells).foldl showKey []) (q.1, q.2) := by
      injection h with h
      exact Int.ofNat.inj h
    have hp' : p ∈ (tagged o cells).foldl showKey [] := mem_foldl_showKey.2 (.inr hp)
    exact rankIn_inj hp' hi

/-- The graph is a simple undirected one, without graph attributes. -/
theorem bipartite_class {rows : List Row} {o : BipartiteOptions} {g : Graph PyKey Data}
    (h : tableToBipartiteGraph (.rows rows) o = .ok g) :
    g.WF ∧ g.directed = false ∧ g.multi = false ∧ g.attrs = [] := by
  obtain ⟨cells, hc⟩ := bipartite_cells h
  have hi := bipartite_inv hc h
  exact ⟨hi.counted.wf, hi.directed, hi.counted.multi, hi.attrs⟩

/-- One node per value of each of both columns (distinct ones having distinct nodes: `partNode_inj`). -/
theorem bipartite_nodes {rows : List Row} {o : BipartiteOptions} {cells : List (PyKey × PyKey)}
    (hc : List.Forall₂ (RowCells o) rows cells) {g : Graph PyKey Data}
    (h : tableToBipartiteGraph (.rows rows) o = .ok g) (n : PyKey) :
    n ∈ g.nodes ↔ ∃ c ∈ cells, n = partNode o cells o.firstCol c.1 ∨ n = partNode o cells o.secondCol c.2 := by
  rw [(bipartite_inv hc h).nodes]
  constructor
  · rintro ⟨t, ht, hn⟩
    obtain ⟨c, hcc, h1, h2⟩ := mkSteps_ends hc.length_eq ht
    exact ⟨c, hcc, by rw [← h1, ← h2]; exact hn⟩
  · rintro ⟨c, hcc, hn⟩
    obtain ⟨t, ht, h1, h2⟩ := ends_mkSteps (o := o) (node := partNode o cells) hc.length_eq hcc
    exact ⟨t, ht, by rw [h1, h2]; exact hn⟩

/-- One edge per distinct pair of values, whose only attribute is the number of rows with that pair. -/
theorem bipartite_weights {rows : List Row} {o : BipartiteOptions} {cells : List (PyKey × PyKey)}
    (hc : List.Forall₂ (RowCells o) rows cells) (hs : Separate o cells) {g : Graph PyKey Data}
    (h : tableToBipartiteGraph (.rows rows) o = .ok g) {a b : PyKey} (ha : ∃ c ∈ cells, c.1 = a)
    (hb : ∃ c ∈ cells, c.2 = b) :
    g.keydict? (partNode o cells o.firstCol a) (partNode o cells o.secondCol b) =
      if (a, b) ∈ cells then
        some [(.int 0, [(.str o.edgeWeightAttr, .int ((cells.count (a, b) : Nat) : Int))])]
      else none := by
  have hne := (bipartite_loop h).1
  have hi := bipartite_inv hc h
  have hk := hi.counted.edges (partNode o cells o.firstCol a) (partNode o cells o.secondCol b)
  rw [hk, hi.directed]
  obtain ⟨ca, hca, rfl⟩ := ha
  obtain ⟨cb, hcb, rfl⟩ := hb
  have hrows : pairRows false (partNode o cells o.firstCol ca.1) (partNode o cells o.secondCol cb.2)
      ((mkSteps o (partNode o cells) rows cells).map (fun t => (t.n1, t.n2, []))) =
      (cells.filter (fun c => decide (c = (ca.1, cb.2)))).map
        (fun c => (partNode o cells o.firstCol c.1, partNode o cells o.secondCol c.2, [])) := by
    have e : (mkSteps o (partNode o cells) rows cells).map (fun t => (t.n1, t.n2, ([] : Attrs Data))) =
        cells.map (fun c => (partNode o cells o.firstCol c.1, partNode o cells o.secondCol c.2, [])) := by
      have := congrArg (List.map (fun p : PyKey × PyKey => (p.1, p.2, ([] : Attrs Data))))
        (mem_mkSteps (o := o) (node := partNode o cells) hc.length_eq)
      rw [List.map_map, List.map_map] at this
      exact this
    rw [e]
    unfold pairRows
    rw [List.filter_map]
    congr 1
    apply List.filter_congr
    intro c hcc
    simp only [Function.comp_apply]
    rw [Bool.eq_iff_iff, samePair_iff, decide_eq_true_eq]
    have m1 : ∀ x ∈ cells, (o.firstCol, x.1) ∈ tagged o cells := fun x hx => mem_tagged.2 ⟨x, hx, .inl rfl⟩
    have m2 : ∀ x ∈ cells, (o.secondCol, x.2) ∈ tagged o cells := fun x hx => mem_tagged.2 ⟨x, hx, .inr rfl⟩
    constructor
    · rintro (⟨h1, h2⟩ | ⟨_, h1, h2⟩)
      · have e1 := partNode_inj hs (m1 c hcc) (m1 ca hca) h1
        have e2 := partNode_inj hs (m2 c hcc) (m2 cb hcb) h2
        exact Prod.ext (Prod.mk.inj e1).2 (Prod.mk.inj e2).2
      · have e1 := partNode_inj hs (m1 c hcc) (m2 cb hcb) h1
        exact absurd (Prod.mk.inj e1).1 hne
    · rintro rfl
      exact .inl ⟨rfl, rfl⟩
  unfold expectedCount
  rw [hrows]
  have hcount : (cells.filter (fun c => decide (c = (ca.1, cb.2)))).length = cells.count (ca.1, cb.2) := by
    rw [List.count, List.countP_eq_length_filter]
    congr 1
    apply List.filter_congr
    intro c _
    rw [Bool.eq_iff_iff]; simp
  rcases hf : cells.filter (fun c => decide (c = (ca.1, cb.2))) with _ | ⟨c, L⟩
  · rw [if_neg]
    · rfl
    · intro hm
      have : (ca.1, cb.2) ∈ cells.filter (fun c => decide (c = (ca.1, cb.2))) := List.mem_filter.2 ⟨hm, by simp⟩
      rw [hf] at this; cases this
  · rw [if_pos]
    · rw [← hcount, hf]
      simp [Dict.set]
    · have : c ∈ cells.filter (fun c => decide (c = (ca.1, cb.2))) := by rw [hf]; exact List.mem_cons_self
      obtain ⟨h1, h2⟩ := List.mem_filter.1 this
      rw [decide_eq_true_eq] at h2
      rw [← h2]; exact h1

/-- The weights sum to the number of rows, keys being wrongly declared disjoint or not. -/
theorem bipartite_total_weight {rows : List Row} {o : BipartiteOptions} {g : Graph PyKey Data}
    (h : tableToBipartiteGraph (.rows rows) o = .ok g) :
    (g.edgesData.map (fun e => intWeight o.edgeWeightAttr e.2.2)).sum = (rows.length : Int) := by
  obtain ⟨cells, hc⟩ := bipartite_cells h
  have hi := bipartite_inv hc h
  rw [hi.counted.sum, List.length_map]
  have := congrArg List.length (mem_mkSteps (o := o) (node := partNode o cells) hc.length_eq)
  rw [List.length_map, List.length_map] at this
  rw [this, hc.length_eq]

/-- Both columns must be different. -/
theorem bipartite_same_column (table : Table) {o : BipartiteOptions} (h : o.firstCol = o.secondCol) :
    ∃ m, tableToBipartiteGraph table o = .error (.typeError m) := by
  unfold tableToBipartiteGraph
  rw [if_pos h]
  exact ⟨_, rfl⟩

/-- A row lacking one of both values, after rows which are accepted, raises `TypeError`. -/
theorem bipartite_missing {o : BipartiteOptions} {pre post : List Row} {row : Row} {g : Graph PyKey Data}
    (hp : tableToBipartiteGraph (.rows pre) o = .ok g)
    (hr : (row.item o.firstCol = .error .keyError ∨ row.item o.firstCol = .error .indexError) ∨
      ((∃ v, row.item o.firstCol = .ok v) ∧
        (row.item o.secondCol = .error .keyError ∨ row.item o.secondCol = .error .indexError))) :
    ∃ m, tableToBipartiteGraph (.rows (pre ++ row :: post)) o = .error (.typeError m) := by
  obtain ⟨hne, hloop⟩ := bipartite_loop hp
  clear hp
  rename' hloop => hp
  have hl : ∃ m, rowLabels o row = .error (.typeError m) := by
    unfold rowLabels
    rcases hr with (h | h) | ⟨⟨v, hv⟩, h | h⟩
    · rw [h]; exact ⟨_, rfl⟩
    · rw [h]; exact ⟨_, rfl⟩
    · rw [hv, h]; exact ⟨_, rfl⟩
    · rw [hv, h]; exact ⟨_, rfl⟩
  obtain ⟨m, hl⟩ := hl
  refine ⟨m, ?_⟩
  unfold tableToBipartiteGraph
  rw [if_neg hne]
  simp only [iteratorFromDataframe]
  generalize IdRegister.init = reg at hp ⊢
  generalize Graph.empty false false [] = g0 at hp ⊢
  induction pre generalizing reg g0 with
  | nil =>
    rw [List.nil_append, bipartiteLoop.eq_2, hl]
  | cons r pre ih =>
    rw [bipartiteLoop.eq_2] at hp
    rw [List.cons_append, bipartiteLoop.eq_2]
    cases hx : rowLabels o r with
    | error e => rw [hx] at hp; cases hp
    | ok p =>
      rw [hx] at hp
      obtain ⟨v1, v2⟩ := p
      simp only at hp ⊢
      split at hp
      · split at hp
        · cases hp
        · rename_i h1
          split at hp
          · cases hp
          · rename_i h2
            split at hp
            · cases hp
            · rename_i h3
              rw [if_pos ‹_›]
              exact ih _ _ hp
      · split at hp
        · cases hp
        · rename_i h1
          split at hp
          · cases hp
          · rename_i h2
            split at hp
            · cases hp
            · rename_i h3
              rw [if_neg ‹_›]
              exact ih _ _ hp

/-- When each row has both values and the data asked for can be collected, the table is accepted. -/
theorem bipartite_total {rows : List Row} {o : BipartiteOptions} {cells : List (PyKey × PyKey)}
    (hc : List.Forall₂ (RowCells o) rows cells) (hne : o.firstCol ≠ o.secondCol)
    (h1 : ∀ row ∈ rows, ∀ l, ∃ a, partAttributes o.nodePartAttr (o.firstName.getD o.firstCol) l o.firstData row = .ok a ∧
      Graph.NodeKwSafe a)
    (h2 : ∀ row ∈ rows, ∀ l, ∃ a, partAttributes o.nodePartAttr (o.secondName.getD o.secondCol) l o.secondData row =
      .ok a ∧ Graph.NodeKwSafe a)
    (hw : o.edgeWeightAttr ∉ ["self", "u_of_edge", "v_of_edge"]) :
    ∃ g, tableToBipartiteGraph (.rows rows) o = .ok g := by
  unfold tableToBipartiteGraph
  rw [if_neg hne]
  simp only [iteratorFromDataframe]
  rw [loop_eq hc]
  have hrow : ∀ (node : PyKey → PyKey → PyKey) (rows : List Row) (cells : List (PyKey × PyKey)),
      ∀ t ∈ mkSteps o node rows cells, t.row ∈ rows := by
    intro node rows
    induction rows with
    | nil => intro cells t ht; cases ht
    | cons r rows ih =>
      intro cells t ht
      cases cells with
      | nil => cases ht
      | cons c cells =>
        rcases List.mem_cons.1 ht with rfl | ht
        · exact List.mem_cons_self
        · exact List.mem_cons_of_mem _ (ih _ _ ht)
  exact stepsLoop_total (BInv.empty o) (fun t ht => h1 _ (hrow _ _ _ t ht) _) (fun t ht => h2 _ (hrow _ _ _ t ht) _) hw

/-- Without data to collect, a table all of whose rows have both values is accepted. -/
theorem bipartite_total_plain {rows : List Row} {o : BipartiteOptions} {cells : List (PyKey × PyKey)}
    (hc : List.Forall₂ (RowCells o) rows cells) (hne : o.firstCol ≠ o.secondCol) (h1 : o.firstData = none)
    (h2 : o.secondData = none) (hp : o.nodePartAttr ∉ ["self", "node_for_adding"])
    (hw : o.edgeWeightAttr ∉ ["self", "u_of_edge", "v_of_edge"]) :
    ∃ g, tableToBipartiteGraph (.rows rows) o = .ok g := by
  have key : ∀ (name l : PyKey) (row : Row), ∃ a, partAttributes o.nodePartAttr name l none row = .ok a ∧
      Graph.NodeKwSafe a := by
    intro name l row
    refine ⟨_, rfl, ?_⟩
    intro k hk
    rw [Dict.mem_keys_set] at hk
    rcases hk with hk | rfl
    · simp only [Dict.keys_cons, Dict.keys_nil, List.mem_singleton] at hk
      exact ⟨_, hk, hp⟩
    · exact ⟨_, rfl, by decide⟩
  refine bipartite_total hc hne ?_ ?_ hw
  · intro row _ l; rw [h1]; exact key _ _ _
  · intro row _ l; rw [h2]; exact key _ _ _

/-! ### C49 -/

/-- Every edge joins a node of the first part to a node of the second part, and both parts are disjoint. -/
theorem bipartite_bipartite {rows : List Row} {o : BipartiteOptions} {cells : List (PyKey × PyKey)}
    (hc : List.Forall₂ (RowCells o) rows cells) (hs : Separate o cells) {g : Graph PyKey Data}
    (h : tableToBipartiteGraph (.rows rows) o = .ok g) :
    ∃ first second : PyKey → Prop,
      (∀ n, first n ↔ ∃ c ∈ cells, n = partNode o cells o.firstCol c.1) ∧
      (∀ n, second n ↔ ∃ c ∈ cells, n = partNode o cells o.secondCol c.2) ∧
      (∀ n, n ∈ g.nodes ↔ first n ∨ second n) ∧ (∀ n, ¬ (first n ∧ second n)) ∧
      (∀ u v, g.hasEdge u v = true → (first u ∧ second v) ∨ (second u ∧ first v)) := by
  refine ⟨fun n => ∃ c ∈ cells, n = partNode o cells o.firstCol c.1,
    fun n => ∃ c ∈ cells, n = partNode o cells o.secondCol c.2, fun _ => Iff.rfl, fun _ => Iff.rfl, ?_, ?_, ?_⟩
  · intro n
    rw [bipartite_nodes hc h]
    constructor
    · rintro ⟨c, hcc, hn | hn⟩
      · exact .inl ⟨c, hcc, hn⟩
      · exact .inr ⟨c, hcc, hn⟩
    · rintro (⟨c, hcc, hn⟩ | ⟨c, hcc, hn⟩)
      · exact ⟨c, hcc, .inl hn⟩
      · exact ⟨c, hcc, .inr hn⟩
  · rintro n ⟨⟨c, hcc, h1⟩, d, hd, h2⟩
    have := partNode_inj (p := (o.firstCol, c.1)) (q := (o.secondCol, d.2)) hs (mem_tagged.2 ⟨c, hcc, .inl rfl⟩)
      (mem_tagged.2 ⟨d, hd, .inr rfl⟩) (h1.symm.trans h2)
    exact (bipartite_loop h).1 (Prod.mk.inj this).1
  · intro u v he
    have hi := bipartite_inv hc h
    obtain ⟨e, hmem, hp⟩ := (hi.counted.hasEdge_iff u v).1 he
    obtain ⟨t, ht, rfl⟩ := List.mem_map.1 hmem
    obtain ⟨c, hcc, h1, h2⟩ := mkSteps_ends hc.length_eq ht
    rcases samePair_iff.1 hp with ⟨rfl, rfl⟩ | ⟨_, rfl, rfl⟩
    · exact .inl ⟨⟨c, hcc, h1⟩, c, hcc, h2⟩
    · exact .inr ⟨⟨c, hcc, h2⟩, c, hcc, h1⟩

/-! ### C50 -/

theorem mkSteps_append {o : BipartiteOptions} {node : PyKey → PyKey → PyKey} {r s : List Row}
    {c d : List (PyKey × PyKey)} (h : r.length = c.length) :
    mkSteps o node (r ++ s) (c ++ d) = mkSteps o node r c ++ mkSteps o node s d := by
  induction r generalizing c with
  | nil => cases c with
    | nil => rfl
    | cons => simp at h
  | cons x r ih => cases c with
    | nil => simp at h
    | cons y c =>
      simp only [List.cons_append, mkSteps]
      rw [ih (by simpa using h)]

/-- The graph just after the row `row`, whose nodes keep their attributes until the end. -/
theorem bipartite_split {o : BipartiteOptions} {pre post : List Row} {row : Row} {cpre cpost : List (PyKey × PyKey)}
    {c : PyKey × PyKey} (h1 : List.Forall₂ (RowCells o) pre cpre) (h2 : RowCells o row c)
    (h3 : List.Forall₂ (RowCells o) post cpost) {g : Graph PyKey Data}
    (h : tableToBipartiteGraph (.rows (pre ++ row :: post)) o = .ok g) :
    let node := partNode o (cpre ++ c :: cpost)
    ∃ g0 g1, BInv o (mkSteps o node pre cpre) g0 ∧
      bipartiteRow o row c.1 c.2 (node o.firstCol c.1) (node o.secondCol c.2) g0 = .ok g1 ∧
      ∀ x ∈ g1.nodes, g.node.get? x = g1.node.get? x := by
  intro node
  have hc : List.Forall₂ (RowCells o) (pre ++ row :: post) (cpre ++ c :: cpost) := List.rel_append h1 (.cons h2 h3)
  have hst := (bipartite_steps hc h).2
  rw [mkSteps_append h1.length_eq, stepsLoop_append] at hst
  split at hst
  · cases hst
  · rename_i g0 hg0
    have hi0 := (stepsLoop_inv (BInv.empty o) hg0).1
    rw [List.nil_append] at hi0
    rw [mkSteps, stepsLoop] at hst
    split at hst
    · cases hst
    · rename_i g1 hg1
      refine ⟨g0, g1, hi0, hg1, ?_⟩
      exact (stepsLoop_inv (bipartiteRow_facts hi0 hg1).1 hst).2

/-- The attributes of a node of the first part are those of the first row mentioning it. -/
theorem bipartite_first_data {o : BipartiteOptions} {pre post : List Row} {row : Row}
    {cpre cpost : List (PyKey × PyKey)} {c : PyKey × PyKey} (h1 : List.Forall₂ (RowCells o) pre cpre)
    (h2 : RowCells o row c) (h3 : List.Forall₂ (RowCells o) post cpost) (hs : Separate o (cpre ++ c :: cpost))
    (hfirst : ∀ c' ∈ cpre, c'.1 ≠ c.1) (hf : FuncDicts o.firstData) {g : Graph PyKey Data}
    (h : tableToBipartiteGraph (.rows (pre ++ row :: post)) o = .ok g) :
    ∃ a d, g.node.get? (partNode o (cpre ++ c :: cpost) o.firstCol c.1) = some a ∧ CollectedData o.firstData row d ∧
      ∀ k, a.get? k = (d.get? k).or (if k = .str "label" then some (.str c.1.toStr)
        else if k = .str o.nodePartAttr then some (Data.ofKey (o.firstName.getD o.firstCol)) else none) := by
  obtain ⟨g0, g1, hi0, hg1, hk⟩ := bipartite_split h1 h2 h3 h
  have hne := (bipartite_loop h).1
  have mem1 : ∀ x ∈ cpre, x ∈ cpre ++ c :: cpost := fun x hx => List.mem_append_left _ hx
  have memc : c ∈ cpre ++ c :: cpost := by simp
  have hnot : partNode o (cpre ++ c :: cpost) o.firstCol c.1 ∉ g0.nodes := by
    rw [hi0.nodes]
    rintro ⟨t, ht, hn⟩
    obtain ⟨c', hc', e1, e2⟩ := mkSteps_ends h1.length_eq ht
    rw [e1, e2] at hn
    rcases hn with hn | hn
    · have := partNode_inj (p := (o.firstCol, c.1)) (q := (o.firstCol, c'.1)) hs
        (mem_tagged.2 ⟨c, memc, .inl rfl⟩) (mem_tagged.2 ⟨c', mem1 _ hc', .inl rfl⟩) hn
      exact hfirst c' hc' (Prod.mk.inj this).2.symm
    · have := partNode_inj (p := (o.firstCol, c.1)) (q := (o.secondCol, c'.2)) hs
        (mem_tagged.2 ⟨c, memc, .inl rfl⟩) (mem_tagged.2 ⟨c', mem1 _ hc', .inr rfl⟩) hn
      exact hne (Prod.mk.inj this).1
  obtain ⟨i1, _, f1, _⟩ := bipartiteRow_facts (t := ⟨row, c.1, c.2,
    partNode o (cpre ++ c :: cpost) o.firstCol c.1, partNode o (cpre ++ c :: cpost) o.secondCol c.2⟩) hi0 hg1
  obtain ⟨a, ha, hg⟩ := f1 hnot
  obtain ⟨d, hd, hnd, hget⟩ := partAttributes_get? hf ha
  refine ⟨a, d, ?_, hd, hget⟩
  rw [Dict.update_nil_left hnd] at hg
  rw [hk]
  · exact hg
  rw [i1.nodes]
  exact ⟨_, List.mem_append_right _ (List.mem_singleton.2 rfl), .inl rfl⟩

/-- The attributes of a node of the second part are those of the first row mentioning it. -/
theorem bipartite_second_data {o : BipartiteOptions} {pre post : List Row} {row : Row}
    {cpre cpost : List (PyKey × PyKey)} {c : PyKey × PyKey} (h1 : List.Forall₂ (RowCells o) pre cpre)
    (h2 : RowCells o row c) (h3 : List.Forall₂ (RowCells o) post cpost) (hs : Separate o (cpre ++ c :: cpost))
    (hfirst : ∀ c' ∈ cpre, c'.2 ≠ c.2) (hf : FuncDicts o.secondData) {g : Graph PyKey Data}
    (h : tableToBipartiteGraph (.rows (pre ++ row :: post)) o = .ok g) :
    ∃ a d, g.node.get? (partNode o (cpre ++ c :: cpost) o.secondCol c.2) = some a ∧ CollectedData o.secondData row d ∧
      ∀ k, a.get? k = (d.get? k).or (if k = .str "label" then some (.str c.2.toStr)
        else if k = .str o.nodePartAttr then some (Data.ofKey (o.secondName.getD o.secondCol)) else none) := by
  obtain ⟨g0, g1, hi0, hg1, hk⟩ := bipartite_split h1 h2 h3 h
  have hne := (bipartite_loop h).1
  have mem1 : ∀ x ∈ cpre, x ∈ cpre ++ c :: cpost := fun x hx => List.mem_append_left _ hx
  have memc : c ∈ cpre ++ c :: cpost := by simp
  have hnot : partNode o (cpre ++ c :: cpost) o.secondCol c.2 ∉ g0.nodes := by
    rw [hi0.nodes]
    rintro ⟨t, ht, hn⟩
    obtain ⟨c', hc', e1, e2⟩ := mkSteps_ends h1.length_eq ht
    rw [e1, e2] at hn
    rcases hn with hn | hn
    · have := partNode_inj (p := (o.secondCol, c.2)) (q := (o.firstCol, c'.1)) hs
        (mem_tagged.2 ⟨c, memc, .inr rfl⟩) (mem_tagged.2 ⟨c', mem1 _ hc', .inl rfl⟩) hn
      exact hne (Prod.mk.inj this).1.symm
    · have := partNode_inj (p := (o.secondCol, c.2)) (q := (o.secondCol, c'.2)) hs
        (mem_tagged.2 ⟨c, memc, .inr rfl⟩) (mem_tagged.2 ⟨c', mem1 _ hc', .inr rfl⟩) hn
      exact hfirst c' hc' (Prod.mk.inj this).2.symm
  obtain ⟨i1, _, _, f2⟩ := bipartiteRow_facts (t := ⟨row, c.1, c.2,
    partNode o (cpre ++ c :: cpost) o.firstCol c.1, partNode o (cpre ++ c :: cpost) o.secondCol c.2⟩) hi0 hg1
  obtain ⟨a, ha, hg⟩ := f2 hnot (fun e => by
    have := partNode_inj (p := (o.secondCol, c.2)) (q := (o.firstCol, c.1)) hs
      (mem_tagged.2 ⟨c, memc, .inr rfl⟩) (mem_tagged.2 ⟨c, memc, .inl rfl⟩) e
    exact hne (Prod.mk.inj this).1.symm)
  obtain ⟨d, hd, hnd, hget⟩ := partAttributes_get? hf ha
  refine ⟨a, d, ?_, hd, hget⟩
  rw [Dict.update_nil_left hnd] at hg
  rw [hk]
  · exact hg
  rw [i1.nodes]
  exact ⟨_, List.mem_append_right _ (List.mem_singleton.2 rfl), .inr rfl⟩

/-! ### Witnesses -/

/-- A table whose values occur in both columns: three rows, two of them equal. -/
def sampleRows : List Row :=
  [.dict [(.str "a", .str "x"), (.str "b", .str "y"), (.str "c", .int 1)],
   .dict [(.str "a", .str "y"), (.str "b", .str "x"), (.str "c", .none)],
   .dict [(.str "a", .str "x"), (.str "b", .str "y"), (.str "c", .int 2)]]

/-- Columns `a` and `b`, and the column `c` as data of the first part. -/
def sampleOptions (disjointKeys : Bool) : BipartiteOptions where
  firstCol := .str "a"
  secondCol := .str "b"
  nodePartAttr := "part"
  edgeWeightAttr := "weight"
  firstData := some (.seq [.str "c"])
  secondData := none
  firstName := none
  secondName := some (.str "B")
  disjointKeys := disjointKeys

def sampleCells : List (PyKey × PyKey) :=
  [(.str "x", .str "y"), (.str "y", .str "x"), (.str "x", .str "y")]

theorem sampleRows_cells (d : Bool) : List.Forall₂ (RowCells (sampleOptions d)) sampleRows sampleCells := by
  cases d <;>
  exact .cons ⟨⟨_, rfl, rfl⟩, _, rfl, rfl⟩ (.cons ⟨⟨_, rfl, rfl⟩, _, rfl, rfl⟩
    (.cons ⟨⟨_, rfl, rfl⟩, _, rfl, rfl⟩ .nil))

/-- A table meeting the hypotheses of the theorems above, with its graph: the data of the first row is kept, `None`
is omitted. -/
theorem sample_bipartite :
    Separate (sampleOptions false) sampleCells ∧ FuncDicts (sampleOptions false).firstData ∧
    ∃ g, tableToBipartiteGraph (.rows sampleRows) (sampleOptions false) = .ok g ∧
      g.node = [(.int 0, [(.str "part", .str "a"), (.str "label", .str "x"), (.str "c", .int 1)]),
        (.int 1, [(.str "part", .str "B"), (.str "label", .str "y")]),
        (.int 2, [(.str "part", .str "a"), (.str "label", .str "y")]),
        (.int 3, [(.str "part", .str "B"), (.str "label", .str "x")])] ∧
      g.edgesData = [(.int 0, .int 1, [(.str "weight", .int 2)]), (.int 2, .int 3, [(.str "weight", .int 1)])] := by
  refine ⟨fun h => ?_, fun f h => ?_, _, rfl, rfl, rfl⟩
  · cases h
  · cases h

/-- With keys wrongly declared disjoint, both occurrences of a value are one node: rows `x, y` and `y, x` are the same
edge, and a row with the same value twice is a self loop. -/
theorem bipartite_wrongly_disjoint :
    ∃ rows g, tableToBipartiteGraph (.rows rows) (sampleOptions true) = .ok g ∧
      g.edgesData = [(.str "x", .str "y", [(.str "weight", .int 2)]), (.str "y", .str "y", [(.str "weight", .int 1)])] :=
  ⟨[.dict [(.str "a", .str "x"), (.str "b", .str "y")], .dict [(.str "a", .str "y"), (.str "b", .str "x")],
    .dict [(.str "a", .str "y"), (.str "b", .str "y")]], _, rfl, rfl⟩

/-- Rows given as lists cannot be used with a sequence (or mapping) of columns to collect: lists have no `get`. -/
theorem bipartite_list_rows :
    ∃ (rows : List Row) (o : BipartiteOptions) (cells : List (PyKey × PyKey)),
      List.Forall₂ (RowCells o) rows cells ∧ o.firstData = some (.seq [.int 2]) ∧
      tableToBipartiteGraph (.rows rows) o = .error .attributeError :=
  ⟨[.list [.str "x", .str "y", .int 1]], { sampleOptions false with
      firstCol := .int 0, secondCol := .int 1, firstData := some (.seq [.int 2]) }, [(.str "x", .str "y")],
    .cons ⟨⟨_, rfl, rfl⟩, _, rfl, rfl⟩ .nil, rfl, rfl⟩

/-- A table meeting the hypotheses of `bipartite_missing`. -/
theorem bipartite_missing_sample :
    ∃ row : Row, row.item (sampleOptions false).firstCol = .error .keyError ∧
      ∃ m, tableToBipartiteGraph (.rows (sampleRows ++ row :: [])) (sampleOptions false) = .error (.typeError m) :=
  ⟨.dict [(.str "b", .str "y")], rfl, _, rfl⟩

end Pelote
