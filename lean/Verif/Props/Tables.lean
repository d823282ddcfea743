import Verif.Lemmas.TableResult

/-! Properties C51, C52: graphs from a table of edges, and from tables of nodes and edges.

In what follows `E` is the list of pairs (source, target) of the rows of the edge table, and `N` the list of the values
of the node column of the rows of the node table; `SameEnds directed e f` says that `e` and `f` are the ends of the same
edge. -/
namespace Pelote

/-! ### Helpers -/

theorem empty_inv (o : EdgeOptions) (directed : Bool) :
    EInv o (Graph.empty directed false []) [] (Graph.empty directed false []) :=
  EInv.init (Graph.WF.empty _ _ _ .nil) rfl rfl

theorem edges_table_inv {rows : List Row} {o : EdgeOptions} {directed : Bool} {E : List (PyKey × PyKey)}
    {g : Graph PyKey Data} (hE : List.Forall₂ (RowEnds o) rows E)
    (h : edgesTableToGraph (.rows rows) o directed = .ok g) :
    ∃ S, List.Forall₂ (EdgeRow o) rows S ∧ E = S.map (fun e => (e.1, e.2.1)) ∧
      EInv { o with addMissing := true } (Graph.empty directed false []) S g := by
  unfold edgesTableToGraph at h
  simp only [iteratorFromDataframe] at h
  obtain ⟨S, hS⟩ := edgesLoop_rows h
  have hi := (edgesLoop_ok hS (empty_inv _ _) (by rw [List.nil_append]; exact uniform_of_rows hS) h).1
  rw [List.nil_append] at hi
  have hS' : List.Forall₂ (EdgeRow o) rows S := hS.imp (fun _ _ hx => ⟨hx.ends, hx.data⟩)
  exact ⟨S, hS', rowEnds_unique hE (rowEnds_of_edgeRows hS'), hi⟩

theorem forall₂_split {α β : Type} {R : α → β → Prop} {pre post : List α} {x : α} {S : List β}
    (h : List.Forall₂ R (pre ++ x :: post) S) : ∃ T y U, S = T ++ y :: U ∧ List.Forall₂ R pre T ∧ R x y ∧
      List.Forall₂ R post U := by
  induction pre generalizing S with
  | nil => cases h with | cons h1 h2 => exact ⟨[], _, _, rfl, .nil, h1, h2⟩
  | cons p pre ih =>
    cases h with
    | cons h1 h2 =>
      obtain ⟨T, y, U, rfl, h3, h4, h5⟩ := ih h2
      exact ⟨_ :: T, y, U, rfl, .cons h1 h3, h4, h5⟩

theorem edgeRow_get? {o : EdgeOptions} {row : Row} {e : PyKey × PyKey × Attrs Data} (h : EdgeRow o row e) (k : PyKey) :
    e.2.2.get? k = columnValue o.edgeData row k := by
  rw [rowData_get? h.data]; simp

/-! ### C51 -/

/-- A table is only accepted if each of its rows has both ends and the data asked for. -/
theorem edges_table_reads {rows : List Row} {o : EdgeOptions} {directed : Bool} {g : Graph PyKey Data}
    (h : edgesTableToGraph (.rows rows) o directed = .ok g) :
    (∃ E, List.Forall₂ (RowEnds o) rows E) ∧ ∀ row ∈ rows, HasColumns o.edgeData row := by
  unfold edgesTableToGraph at h
  simp only [iteratorFromDataframe] at h
  obtain ⟨S, hS⟩ := edgesLoop_rows h
  have hS' : List.Forall₂ (EdgeRow o) rows S := hS.imp (fun _ _ hx => ⟨hx.ends, hx.data⟩)
  exact ⟨⟨_, rowEnds_of_edgeRows hS'⟩, hasColumns_of_edgeRows hS'⟩

/-- Conversely such a table is accepted. -/
theorem edges_table_total {rows : List Row} {o : EdgeOptions} {directed : Bool} {E : List (PyKey × PyKey)}
    (hE : List.Forall₂ (RowEnds o) rows E) (hc : ∀ row ∈ rows, HasColumns o.edgeData row) (hs : EdgeColumnsSafe o) :
    ∃ g, edgesTableToGraph (.rows rows) o directed = .ok g := by
  obtain ⟨S, hS, _⟩ := edgeRows_exist hE hc
  have hS' : List.Forall₂ (EdgeRow { o with addMissing := true }) rows S := hS.imp (fun _ _ hx => ⟨hx.ends, hx.data⟩)
  have hu := uniform_of_rows hS'
  unfold edgesTableToGraph
  simp only [iteratorFromDataframe]
  rw [edgesLoop_eq hS' (empty_inv _ _) (by rw [List.nil_append]; exact hu) (.inl rfl)]
  exact edgeSteps_total (empty_inv _ _) (by rw [List.nil_append]; exact hu) hs

/-- The class of the graph. -/
theorem edges_table_class {rows : List Row} {o : EdgeOptions} {directed : Bool} {g : Graph PyKey Data}
    (h : edgesTableToGraph (.rows rows) o directed = .ok g) :
    g.WF ∧ g.directed = directed ∧ g.multi = false ∧ g.attrs = [] := by
  obtain ⟨⟨E, hE⟩, _⟩ := edges_table_reads h
  obtain ⟨S, _, _, hi⟩ := edges_table_inv hE h
  exact ⟨hi.nodes.wf, hi.nodes.directed, hi.nodes.multi, hi.nodes.attrs⟩

/-- The nodes are the ends, without attributes. -/
theorem edges_table_nodes {rows : List Row} {o : EdgeOptions} {directed : Bool} {E : List (PyKey × PyKey)}
    {g : Graph PyKey Data} (hE : List.Forall₂ (RowEnds o) rows E)
    (h : edgesTableToGraph (.rows rows) o directed = .ok g) (n : PyKey) :
    g.node.get? n = if ∃ e ∈ E, n = e.1 ∨ n = e.2 then some [] else none := by
  obtain ⟨S, _, rfl, hi⟩ := edges_table_inv hE h
  have hn : n ∈ g.nodes ↔ ∃ e ∈ S.map (fun e => (e.1, e.2.1)), n = e.1 ∨ n = e.2 := by
    rw [hi.nodes.nodes]
    constructor
    · rintro (hx | ⟨e, he, hx⟩)
      · cases hx
      · exact ⟨_, List.mem_map.2 ⟨e, he, rfl⟩, hx⟩
    · rintro ⟨e, he, hx⟩
      obtain ⟨f, hf, rfl⟩ := List.mem_map.1 he
      exact .inr ⟨f, hf, hx⟩
  split
  · rename_i hx
    exact hi.nodes.new n (hn.2 hx) (by simp [Graph.empty, Graph.nodes, Dict.keys])
  · rename_i hx
    exact Dict.get?_eq_none_iff.2 (fun hc => hx (hn.1 hc))

/-- There is an edge exactly when some row has its ends, in either order if undirected. -/
theorem edges_table_edges {rows : List Row} {o : EdgeOptions} {directed : Bool} {E : List (PyKey × PyKey)}
    {g : Graph PyKey Data} (hE : List.Forall₂ (RowEnds o) rows E)
    (h : edgesTableToGraph (.rows rows) o directed = .ok g) (u v : PyKey) :
    g.hasEdge u v = true ↔ ∃ e ∈ E, SameEnds directed e (u, v) := by
  obtain ⟨S, _, rfl, hi⟩ := edges_table_inv hE h
  exact hi.hasEdge_iff u v

/-- Without counting, the attributes of an edge are those of its last row. -/
theorem edges_table_last {pre post : List Row} {row : Row} {o : EdgeOptions} {directed : Bool}
    {Epost : List (PyKey × PyKey)} {e : PyKey × PyKey} {g : Graph PyKey Data} (hc : o.countRows = false)
    (he : RowEnds o row e) (hpost : List.Forall₂ (RowEnds o) post Epost)
    (hlast : ∀ f ∈ Epost, ¬ SameEnds directed f e)
    (h : edgesTableToGraph (.rows (pre ++ row :: post)) o directed = .ok g) :
    ∃ a : Attrs Data, g.keydict? e.1 e.2 = some [(.int 0, a)] ∧ ∀ k, a.get? k = columnValue o.edgeData row k := by
  obtain ⟨⟨E, hE⟩, _⟩ := edges_table_reads h
  obtain ⟨S, hS, _, hi⟩ := edges_table_inv hE h
  obtain ⟨T, y, U, rfl, _, hy, hU⟩ := forall₂_split hS
  have e1 : e = (y.1, y.2.1) := Prod.ext (he.1.unique hy.ends.1) (he.2.unique hy.ends.2)
  have e2 : Epost = U.map (fun e => (e.1, e.2.1)) := rowEnds_unique hpost (rowEnds_of_edgeRows hU)
  subst e1 e2
  obtain ⟨a, ha, hget⟩ := hi.last hc (fun f hf => hlast _ (List.mem_map.2 ⟨f, hf, rfl⟩))
  exact ⟨a, ha, fun k => by rw [hget, edgeRow_get? hy]⟩

/-- When counting, the weight is the number of rows and the other attributes are those of the first row. -/
theorem edges_table_count {pre post : List Row} {row : Row} {o : EdgeOptions} {directed : Bool}
    {Epre Epost : List (PyKey × PyKey)} {e : PyKey × PyKey} {g : Graph PyKey Data} (hc : o.countRows = true)
    (hpre : List.Forall₂ (RowEnds o) pre Epre) (he : RowEnds o row e) (hpost : List.Forall₂ (RowEnds o) post Epost)
    (hfirst : ∀ f ∈ Epre, ¬ SameEnds directed f e)
    (h : edgesTableToGraph (.rows (pre ++ row :: post)) o directed = .ok g) :
    ∃ a : Attrs Data, g.keydict? e.1 e.2 = some [(.int 0, a)] ∧
      ∀ k, a.get? k = if k = .str o.weightAttr then
          some (.int ((((Epre ++ e :: Epost).filter (fun f => decide (SameEnds directed f e))).length : Nat) : Int))
        else columnValue o.edgeData row k := by
  have hE : List.Forall₂ (RowEnds o) (pre ++ row :: post) (Epre ++ e :: Epost) :=
    List.rel_append hpre (.cons he hpost)
  obtain ⟨S, hS, hES, hi⟩ := edges_table_inv hE h
  obtain ⟨T, y, U, rfl, hT, hy, hU⟩ := forall₂_split hS
  have e1 : e = (y.1, y.2.1) := Prod.ext (he.1.unique hy.ends.1) (he.2.unique hy.ends.2)
  have e2 : Epre = T.map (fun e => (e.1, e.2.1)) := rowEnds_unique hpre (rowEnds_of_edgeRows hT)
  rw [hES]
  subst e1 e2
  refine ⟨_, hi.first hc (fun f hf => hfirst _ (List.mem_map.2 ⟨f, hf, rfl⟩)), fun k => ?_⟩
  rw [Dict.get?_set, ← edgeRow_get? hy]
  simp only [eq_comm (a := k)]
  rfl

/-- When counting, the weights sum to the number of rows. -/
theorem edges_table_total_weight {rows : List Row} {o : EdgeOptions} {directed : Bool} {g : Graph PyKey Data}
    (hc : o.countRows = true) (h : edgesTableToGraph (.rows rows) o directed = .ok g) :
    (g.edgesData.map (fun e => intWeight o.weightAttr e.2.2)).sum = (rows.length : Int) := by
  obtain ⟨⟨E, hE⟩, _⟩ := edges_table_reads h
  obtain ⟨S, hS, _, hi⟩ := edges_table_inv hE h
  have := (hi.counted hc).sum
  rw [this, hS.length_eq]

/-! ### C52 -/

/-- The graph from a node table and an edge table. -/
theorem tables_inv {nrows erows : List Row} {nodeCol : PyKey} {nodeData : List PyKey} {o : EdgeOptions}
    {directed : Bool} {g : Graph PyKey Data}
    (h : tablesToGraph (.rows nrows) (.rows erows) nodeCol nodeData o directed = .ok g) :
    ∃ M S, List.Forall₂ (NodeRow nodeCol nodeData) nrows M ∧ List.Forall₂ (EdgeRow o) erows S ∧
      EInv o ((Graph.empty directed false []).addNodes M) S g ∧
      (o.addMissing = false → (∀ e ∈ S, e.1 ∈ M.map Prod.fst ∧ e.2.1 ∈ M.map Prod.fst)) := by
  unfold tablesToGraph at h
  simp only [iteratorFromDataframe] at h
  split at h
  · cases h
  rename_i g0 h0
  obtain ⟨M, hM, rfl⟩ := nodesLoop_rows h0
  obtain ⟨S, hS⟩ := edgesLoop_rows h
  have hfr := Graph.addNodes_frame M (Graph.empty (V := PyKey) (A := Data) directed false [])
  have hi0 : EInv o ((Graph.empty directed false []).addNodes M) [] ((Graph.empty directed false []).addNodes M) :=
    EInv.init ((Graph.WF.empty directed false [] .nil).addNodes M) hfr.2.1 hfr.2.2.2
  obtain ⟨i1, i2⟩ := edgesLoop_ok hS hi0 (by rw [List.nil_append]; exact uniform_of_rows hS) h
  rw [List.nil_append] at i1
  refine ⟨M, S, hM, hS, i1, fun ho => ?_⟩
  have := (i2 ho (fun _ hn => hn)).1
  have hmem : ∀ n, n ∈ ((Graph.empty (V := PyKey) (A := Data) directed false []).addNodes M).nodes →
      n ∈ M.map Prod.fst := by
    intro n hn
    by_contra hne
    have hx := Graph.addNodes_get? M (Graph.empty (V := PyKey) (A := Data) directed false []) n
    rw [if_neg hne] at hx
    exact (Dict.get?_eq_none_iff.1 hx) hn
  exact fun e he => ⟨hmem _ (this e he).1, hmem _ (this e he).2⟩

theorem mem_addNodes {d : Bool} {M : List (PyKey × Attrs Data)} {n : PyKey} :
    n ∈ ((Graph.empty (V := PyKey) (A := Data) d false []).addNodes M).nodes ↔ n ∈ M.map Prod.fst := by
  have hx := Graph.addNodes_get? M (Graph.empty (V := PyKey) (A := Data) d false []) n
  by_cases hn : n ∈ M.map Prod.fst
  · rw [if_pos hn] at hx
    exact ⟨fun _ => hn, fun _ => by
      by_contra hc
      have := Dict.get?_eq_none_iff.2 hc
      rw [Graph.nodes] at hc
      rw [this] at hx; cases hx⟩
  · rw [if_neg hn] at hx
    exact ⟨fun hc => absurd hc (Dict.get?_eq_none_iff.1 hx), fun hc => absurd hc hn⟩

/-- Tables are only accepted if each of their rows has what is asked for, and, unless missing nodes are added, if the
nodes of the edge table are in the node table. -/
theorem tables_reads {nrows erows : List Row} {nodeCol : PyKey} {nodeData : List PyKey} {o : EdgeOptions}
    {directed : Bool} {g : Graph PyKey Data}
    (h : tablesToGraph (.rows nrows) (.rows erows) nodeCol nodeData o directed = .ok g) :
    ∃ N E, List.Forall₂ (RowNode nodeCol) nrows N ∧ (∀ row ∈ nrows, HasColumns nodeData row) ∧
      List.Forall₂ (RowEnds o) erows E ∧ (∀ row ∈ erows, HasColumns o.edgeData row) ∧
      (o.addMissing = false → ∀ e ∈ E, e.1 ∈ N ∧ e.2 ∈ N) := by
  obtain ⟨M, S, hM, hS, _, hm⟩ := tables_inv h
  obtain ⟨h1, h2⟩ := rowNodes_of_nodeRows hM
  refine ⟨_, _, h1, h2, rowEnds_of_edgeRows hS, hasColumns_of_edgeRows hS, fun ho e he => ?_⟩
  obtain ⟨f, hf, rfl⟩ := List.mem_map.1 he
  exact hm ho f hf

/-- With `add_missing_nodes`, tables whose rows have what is asked for are accepted. -/
theorem tables_total_add {nrows erows : List Row} {nodeCol : PyKey} {nodeData : List PyKey} {o : EdgeOptions}
    {directed : Bool} {N : List PyKey} {E : List (PyKey × PyKey)} (hN : List.Forall₂ (RowNode nodeCol) nrows N)
    (hNc : ∀ row ∈ nrows, HasColumns nodeData row) (hNs : NodeColumnsSafe nodeData)
    (hE : List.Forall₂ (RowEnds o) erows E) (hEc : ∀ row ∈ erows, HasColumns o.edgeData row)
    (hEs : EdgeColumnsSafe o) (hm : o.addMissing = true ∨ ∀ e ∈ E, e.1 ∈ N ∧ e.2 ∈ N) :
    ∃ g, tablesToGraph (.rows nrows) (.rows erows) nodeCol nodeData o directed = .ok g := by
  obtain ⟨M, hM, rfl⟩ := nodeRows_exist hN hNc
  obtain ⟨S, hS, rfl⟩ := edgeRows_exist hE hEc
  unfold tablesToGraph
  simp only [iteratorFromDataframe]
  rw [nodesLoop_eq hM hNs]
  simp only
  have hfr := Graph.addNodes_frame M (Graph.empty (V := PyKey) (A := Data) directed false [])
  have hi0 : EInv o ((Graph.empty directed false []).addNodes M) [] ((Graph.empty directed false []).addNodes M) :=
    EInv.init ((Graph.WF.empty directed false [] .nil).addNodes M) hfr.2.1 hfr.2.2.2
  have hu : Uniform o ([] ++ S) := by rw [List.nil_append]; exact uniform_of_rows hS
  rw [edgesLoop_eq hS hi0 hu]
  · exact edgeSteps_total hi0 hu hEs
  · refine hm.imp id (fun hm e he => ?_)
    rw [mem_addNodes, mem_addNodes]
    exact hm _ (List.mem_map.2 ⟨e, he, rfl⟩)

/-- Without `add_missing_nodes`, `KeyError` is raised exactly when an edge mentions a node absent from the node table,
the rows having what is asked for. -/
theorem tables_key_error {nrows erows : List Row} {nodeCol : PyKey} {nodeData : List PyKey} {o : EdgeOptions}
    {directed : Bool} {N : List PyKey} {E : List (PyKey × PyKey)} (hN : List.Forall₂ (RowNode nodeCol) nrows N)
    (hNc : ∀ row ∈ nrows, HasColumns nodeData row) (hNs : NodeColumnsSafe nodeData)
    (hE : List.Forall₂ (RowEnds o) erows E) (hEc : ∀ row ∈ erows, HasColumns o.edgeData row)
    (hEs : EdgeColumnsSafe o) (ho : o.addMissing = false) :
    tablesToGraph (.rows nrows) (.rows erows) nodeCol nodeData o directed = .error .keyError ↔
      ∃ e ∈ E, e.1 ∉ N ∨ e.2 ∉ N := by
  constructor
  · intro h
    by_contra hne
    have hall : ∀ e ∈ E, e.1 ∈ N ∧ e.2 ∈ N := by
      intro e he
      constructor
      · by_contra hc; exact hne ⟨e, he, .inl hc⟩
      · by_contra hc; exact hne ⟨e, he, .inr hc⟩
    obtain ⟨g, hg⟩ := tables_total_add (directed := directed) hN hNc hNs hE hEc hEs (.inr hall)
    rw [h] at hg; cases hg
  · rintro ⟨e, he, hn⟩
    obtain ⟨M, hM, rfl⟩ := nodeRows_exist hN hNc
    obtain ⟨S, hS, rfl⟩ := edgeRows_exist hE hEc
    unfold tablesToGraph
    simp only [iteratorFromDataframe]
    rw [nodesLoop_eq hM hNs]
    simp only
    have hfr := Graph.addNodes_frame M (Graph.empty (V := PyKey) (A := Data) directed false [])
    have hi0 : EInv o ((Graph.empty directed false []).addNodes M) [] ((Graph.empty directed false []).addNodes M) :=
      EInv.init ((Graph.WF.empty directed false [] .nil).addNodes M) hfr.2.1 hfr.2.2.2
    refine edgesLoop_error hS hi0 (by rw [List.nil_append]; exact uniform_of_rows hS) hEs ho (fun _ => Iff.rfl) ?_
    intro hall
    obtain ⟨f, hf, rfl⟩ := List.mem_map.1 he
    have := hall f hf
    rw [mem_addNodes, mem_addNodes] at this
    rcases hn with hn | hn
    · exact hn this.1
    · exact hn this.2

/-- Values which cannot be nodes (`None`, lists, dicts) are missing nodes as any other: the first edge row whose ends are
not both in the node table raises `KeyError` without `add_missing_nodes`, whatever its ends and whatever follows. -/
theorem tables_key_error_values {nrows pre post : List Row} {row : Row} {nodeCol : PyKey} {nodeData : List PyKey}
    {o : EdgeOptions} {directed : Bool} {N : List PyKey} {E : List (PyKey × PyKey)}
    (hN : List.Forall₂ (RowNode nodeCol) nrows N) (hNc : ∀ row ∈ nrows, HasColumns nodeData row)
    (hNs : NodeColumnsSafe nodeData) (hE : List.Forall₂ (RowEnds o) pre E)
    (hEc : ∀ row ∈ pre, HasColumns o.edgeData row) (hEs : EdgeColumnsSafe o) (ho : o.addMissing = false)
    (hr : HasColumns [o.sourceCol, o.targetCol] row) (hne : ¬ ∃ e, RowEnds o row e ∧ e.1 ∈ N ∧ e.2 ∈ N) :
    tablesToGraph (.rows nrows) (.rows (pre ++ row :: post)) nodeCol nodeData o directed = .error .keyError := by
  obtain ⟨M, hM, rfl⟩ := nodeRows_exist hN hNc
  obtain ⟨S, hS, rfl⟩ := edgeRows_exist hE hEc
  obtain ⟨v1, h1⟩ := hr o.sourceCol (by simp)
  obtain ⟨v2, h2⟩ := hr o.targetCol (by simp)
  unfold tablesToGraph
  simp only [iteratorFromDataframe]
  rw [nodesLoop_eq hM hNs]
  simp only
  have hfr := Graph.addNodes_frame M (Graph.empty (V := PyKey) (A := Data) directed false [])
  have hi0 : EInv o ((Graph.empty directed false []).addNodes M) [] ((Graph.empty directed false []).addNodes M) :=
    EInv.init ((Graph.WF.empty directed false [] .nil).addNodes M) hfr.2.1 hfr.2.2.2
  refine edgesLoop_bad hS hi0 (by rw [List.nil_append]; exact uniform_of_rows hS) hEs ho (fun _ => Iff.rfl) h1 h2 ?_
  rintro ⟨n1, n2, e1, e2, m1, m2⟩
  exact hne ⟨(n1, n2), ⟨⟨v1, h1, e1⟩, v2, h2, e2⟩, mem_addNodes.1 m1, mem_addNodes.1 m2⟩

/-- The class of the graph. -/
theorem tables_class {nrows erows : List Row} {nodeCol : PyKey} {nodeData : List PyKey} {o : EdgeOptions}
    {directed : Bool} {g : Graph PyKey Data}
    (h : tablesToGraph (.rows nrows) (.rows erows) nodeCol nodeData o directed = .ok g) :
    g.WF ∧ g.directed = directed ∧ g.multi = false ∧ g.attrs = [] := by
  obtain ⟨M, S, _, _, hi, _⟩ := tables_inv h
  have hfr := Graph.addNodes_frame M (Graph.empty (V := PyKey) (A := Data) directed false [])
  exact ⟨hi.nodes.wf, hi.nodes.directed.trans hfr.1, hi.nodes.multi, hi.nodes.attrs.trans hfr.2.2.1⟩

/-- The nodes are the values of the node column, and the missing nodes when they are added. -/
theorem tables_nodes {nrows erows : List Row} {nodeCol : PyKey} {nodeData : List PyKey} {o : EdgeOptions}
    {directed : Bool} {N : List PyKey} {E : List (PyKey × PyKey)} {g : Graph PyKey Data}
    (hN : List.Forall₂ (RowNode nodeCol) nrows N) (hE : List.Forall₂ (RowEnds o) erows E)
    (h : tablesToGraph (.rows nrows) (.rows erows) nodeCol nodeData o directed = .ok g) (n : PyKey) :
    n ∈ g.nodes ↔ n ∈ N ∨ (o.addMissing = true ∧ ∃ e ∈ E, n = e.1 ∨ n = e.2) := by
  obtain ⟨M, S, hM, hS, hi, hm⟩ := tables_inv h
  have e1 : N = M.map Prod.fst := rowNodes_unique hN (rowNodes_of_nodeRows hM).1
  have e2 : E = S.map (fun e => (e.1, e.2.1)) := rowEnds_unique hE (rowEnds_of_edgeRows hS)
  subst e1 e2
  rw [hi.nodes.nodes, mem_addNodes]
  constructor
  · rintro (hn | ⟨e, he, hn⟩)
    · exact .inl hn
    · by_cases ho : o.addMissing = true
      · exact .inr ⟨ho, _, List.mem_map.2 ⟨e, he, rfl⟩, hn⟩
      · have := hm (by simpa using ho) e he
        rcases hn with rfl | rfl
        · exact .inl this.1
        · exact .inl this.2
  · rintro (hn | ⟨_, e, he, hn⟩)
    · exact .inl hn
    · obtain ⟨f, hf, rfl⟩ := List.mem_map.1 he
      exact .inr ⟨f, hf, hn⟩

/-- The attributes of a node are those of its last row. -/
theorem tables_node_last {pre post erows : List Row} {row : Row} {nodeCol : PyKey} {nodeData : List PyKey}
    {o : EdgeOptions} {directed : Bool} {n : PyKey} {Npost : List PyKey} {g : Graph PyKey Data}
    (hn : RowNode nodeCol row n) (hpost : List.Forall₂ (RowNode nodeCol) post Npost) (hlast : n ∉ Npost)
    (h : tablesToGraph (.rows (pre ++ row :: post)) (.rows erows) nodeCol nodeData o directed = .ok g) :
    ∃ a, g.node.get? n = some a ∧ ∀ k, a.get? k = columnValue nodeData row k := by
  obtain ⟨M, S, hM, hS, hi, _⟩ := tables_inv h
  obtain ⟨T, y, U, rfl, _, hy, hU⟩ := forall₂_split hM
  have e1 : n = y.1 := hn.unique hy.node
  have e2 : Npost = U.map Prod.fst := rowNodes_unique hpost (rowNodes_of_nodeRows hU).1
  subst e1 e2
  have hl : ((T ++ y :: U).filter (fun p => decide (p.1 = y.1))).getLast? = some y := by
    rw [List.filter_append, List.filter_cons, if_pos (by simp)]
    have : U.filter (fun p => decide (p.1 = y.1)) = [] := by
      rw [List.filter_eq_nil_iff]
      intro p hp hc
      exact hlast (List.mem_map.2 ⟨p, hp, by simpa using hc⟩)
    rw [this]; simp
  obtain ⟨a, ha, hget⟩ := addNodes_latest (g := Graph.empty directed false []) hM rfl hl
  refine ⟨a, ?_, fun k => ?_⟩
  · rw [hi.nodes.old, ha]
    exact mem_addNodes.2 (by simp)
  · rw [hget, rowData_get? hy.data]; simp

/-- The missing nodes which are added have no attributes. -/
theorem tables_missing_node {nrows erows : List Row} {nodeCol : PyKey} {nodeData : List PyKey} {o : EdgeOptions}
    {directed : Bool} {N : List PyKey} {g : Graph PyKey Data} (hN : List.Forall₂ (RowNode nodeCol) nrows N)
    (h : tablesToGraph (.rows nrows) (.rows erows) nodeCol nodeData o directed = .ok g) {n : PyKey}
    (hn : n ∈ g.nodes) (hm : n ∉ N) : g.node.get? n = some [] := by
  obtain ⟨M, S, hM, hS, hi, _⟩ := tables_inv h
  have e1 : N = M.map Prod.fst := rowNodes_unique hN (rowNodes_of_nodeRows hM).1
  subst e1
  exact hi.nodes.new n hn (fun hc => hm (mem_addNodes.1 hc))

/-- There is an edge exactly when some row has its ends, in either order if undirected. -/
theorem tables_edges {nrows erows : List Row} {nodeCol : PyKey} {nodeData : List PyKey} {o : EdgeOptions}
    {directed : Bool} {E : List (PyKey × PyKey)} {g : Graph PyKey Data} (hE : List.Forall₂ (RowEnds o) erows E)
    (h : tablesToGraph (.rows nrows) (.rows erows) nodeCol nodeData o directed = .ok g) (u v : PyKey) :
    g.hasEdge u v = true ↔ ∃ e ∈ E, SameEnds directed e (u, v) := by
  obtain ⟨M, S, _, hS, hi, _⟩ := tables_inv h
  have e2 : E = S.map (fun e => (e.1, e.2.1)) := rowEnds_unique hE (rowEnds_of_edgeRows hS)
  have hfr := Graph.addNodes_frame M (Graph.empty (V := PyKey) (A := Data) directed false [])
  have := hi.hasEdge_iff u v
  rw [hfr.1] at this
  rw [e2]; exact this

/-- Without counting, the attributes of an edge are those of its last row. -/
theorem tables_edge_last {nrows pre post : List Row} {row : Row} {nodeCol : PyKey} {nodeData : List PyKey}
    {o : EdgeOptions} {directed : Bool} {Epost : List (PyKey × PyKey)} {e : PyKey × PyKey} {g : Graph PyKey Data}
    (hc : o.countRows = false) (he : RowEnds o row e) (hpost : List.Forall₂ (RowEnds o) post Epost)
    (hlast : ∀ f ∈ Epost, ¬ SameEnds directed f e)
    (h : tablesToGraph (.rows nrows) (.rows (pre ++ row :: post)) nodeCol nodeData o directed = .ok g) :
    ∃ a : Attrs Data, g.keydict? e.1 e.2 = some [(.int 0, a)] ∧ ∀ k, a.get? k = columnValue o.edgeData row k := by
  obtain ⟨M, S, _, hS, hi, _⟩ := tables_inv h
  obtain ⟨T, y, U, rfl, _, hy, hU⟩ := forall₂_split hS
  have e1 : e = (y.1, y.2.1) := Prod.ext (he.1.unique hy.ends.1) (he.2.unique hy.ends.2)
  have e2 : Epost = U.map (fun e => (e.1, e.2.1)) := rowEnds_unique hpost (rowEnds_of_edgeRows hU)
  have hfr := Graph.addNodes_frame M (Graph.empty (V := PyKey) (A := Data) directed false [])
  subst e1 e2
  obtain ⟨a, ha, hget⟩ := hi.last hc (fun f hf => by rw [hfr.1]; exact hlast _ (List.mem_map.2 ⟨f, hf, rfl⟩))
  exact ⟨a, ha, fun k => by rw [hget, edgeRow_get? hy]⟩

/-- When counting, the weight is the number of rows and the other attributes are those of the first row. -/
theorem tables_edge_count {nrows pre post : List Row} {row : Row} {nodeCol : PyKey} {nodeData : List PyKey}
    {o : EdgeOptions} {directed : Bool} {Epre Epost : List (PyKey × PyKey)} {e : PyKey × PyKey} {g : Graph PyKey Data}
    (hc : o.countRows = true) (hpre : List.Forall₂ (RowEnds o) pre Epre) (he : RowEnds o row e)
    (hpost : List.Forall₂ (RowEnds o) post Epost) (hfirst : ∀ f ∈ Epre, ¬ SameEnds directed f e)
    (h : tablesToGraph (.rows nrows) (.rows (pre ++ row :: post)) nodeCol nodeData o directed = .ok g) :
    ∃ a : Attrs Data, g.keydict? e.1 e.2 = some [(.int 0, a)] ∧
      ∀ k, a.get? k = if k = .str o.weightAttr then
          some (.int ((((Epre ++ e :: Epost).filter (fun f => decide (SameEnds directed f e))).length : Nat) : Int))
        else columnValue o.edgeData row k := by
  obtain ⟨M, S, _, hS, hi, _⟩ := tables_inv h
  have hES : Epre ++ e :: Epost = S.map (fun e => (e.1, e.2.1)) :=
    rowEnds_unique (List.rel_append hpre (.cons he hpost)) (rowEnds_of_edgeRows hS)
  have hfr := Graph.addNodes_frame M (Graph.empty (V := PyKey) (A := Data) directed false [])
  obtain ⟨T, y, U, rfl, hT, hy, hU⟩ := forall₂_split hS
  have e1 : e = (y.1, y.2.1) := Prod.ext (he.1.unique hy.ends.1) (he.2.unique hy.ends.2)
  have e2 : Epre = T.map (fun e => (e.1, e.2.1)) := rowEnds_unique hpre (rowEnds_of_edgeRows hT)
  rw [hES]
  subst e1 e2
  have := hi.first hc (fun f hf => by rw [hfr.1]; exact hfirst _ (List.mem_map.2 ⟨f, hf, rfl⟩))
  rw [hfr.1] at this
  refine ⟨_, this, fun k => ?_⟩
  rw [Dict.get?_set, ← edgeRow_get? hy]
  simp only [eq_comm (a := k)]
  rfl

/-! ### DataFrames -/

/-- A table which is a DataFrame is used as the list of its rows. -/
theorem tables_frame {nodes edges : Table} {nrows erows : List Row} {nodeCol : PyKey} {nodeData : List PyKey}
    {o : EdgeOptions} {directed : Bool}
    (hn : iteratorFromDataframe nodes (some (nodeCol :: nodeData)) = .ok nrows)
    (he : iteratorFromDataframe edges (some ([o.sourceCol, o.targetCol] ++ o.edgeData)) = .ok erows) :
    tablesToGraph nodes edges nodeCol nodeData o directed =
      tablesToGraph (.rows nrows) (.rows erows) nodeCol nodeData o directed := by
  unfold tablesToGraph
  rw [hn, he]
  rfl

theorem edges_table_frame {table : Table} {rows : List Row} {o : EdgeOptions} {directed : Bool}
    (h : iteratorFromDataframe table (some ([o.sourceCol, o.targetCol] ++ o.edgeData)) = .ok rows) :
    edgesTableToGraph table o directed = edgesTableToGraph (.rows rows) o directed := by
  unfold edgesTableToGraph
  rw [h]
  rfl

/-! ### Samples -/

def sampleEdgeRows : List Row :=
  [.dict [(.str "s", .str "x"), (.str "t", .str "y"), (.str "c", .int 1)],
   .dict [(.str "s", .str "y"), (.str "t", .str "x"), (.str "c", .int 2)]]

def sampleEdgeOptions (count add : Bool) : EdgeOptions where
  sourceCol := .str "s"
  targetCol := .str "t"
  edgeData := [.str "c"]
  countRows := count
  weightAttr := "weight"
  addMissing := add

theorem sampleEdge_ends (c a : Bool) :
    List.Forall₂ (RowEnds (sampleEdgeOptions c a)) sampleEdgeRows
      [(.str "x", .str "y"), (.str "y", .str "x")] ∧
    (∀ row ∈ sampleEdgeRows, HasColumns (sampleEdgeOptions c a).edgeData row) ∧
    EdgeColumnsSafe (sampleEdgeOptions c a) := by
  refine ⟨.cons ⟨⟨_, rfl, rfl⟩, _, rfl, rfl⟩ (.cons ⟨⟨_, rfl, rfl⟩, _, rfl, rfl⟩ .nil), ?_, ?_, ?_⟩
  · intro row hr x hx
    simp only [sampleEdgeOptions, List.mem_singleton] at hx
    subst hx
    simp only [sampleEdgeRows, List.mem_cons, List.not_mem_nil, or_false] at hr
    rcases hr with rfl | rfl
    · exact ⟨_, rfl⟩
    · exact ⟨_, rfl⟩
  · intro x hx
    simp only [sampleEdgeOptions, List.mem_singleton] at hx
    subst hx; decide
  · intro _; cases c <;> cases a <;> decide

/-- Both ways to read the sample: the last row wins, or rows are counted and the first one wins. -/
theorem sample_edges_table :
    (∃ g, edgesTableToGraph (.rows sampleEdgeRows) (sampleEdgeOptions false true) false = .ok g ∧
      g.edgesData = [(.str "x", .str "y", [(.str "c", .int 2)])]) ∧
    (∃ g, edgesTableToGraph (.rows sampleEdgeRows) (sampleEdgeOptions true true) false = .ok g ∧
      g.edgesData = [(.str "x", .str "y", [(.str "c", .int 1), (.str "weight", .int 2)])]) ∧
    (∃ g, edgesTableToGraph (.rows sampleEdgeRows) (sampleEdgeOptions true true) true = .ok g ∧
      g.edgesData = [(.str "x", .str "y", [(.str "c", .int 1), (.str "weight", .int 1)]),
        (.str "y", .str "x", [(.str "c", .int 2), (.str "weight", .int 1)])]) :=
  ⟨⟨_, rfl, rfl⟩, ⟨_, rfl, rfl⟩, ⟨_, rfl, rfl⟩⟩

def sampleNodeRows : List Row :=
  [.dict [(.str "n", .str "x"), (.str "a", .int 1)], .dict [(.str "n", .str "z"), (.str "a", .int 2)],
   .dict [(.str "n", .str "x"), (.str "a", .int 3)]]

theorem sampleNode_nodes :
    List.Forall₂ (RowNode (.str "n")) sampleNodeRows [.str "x", .str "z", .str "x"] ∧
    (∀ row ∈ sampleNodeRows, HasColumns [.str "a"] row) ∧ NodeColumnsSafe [.str "a"] := by
  refine ⟨.cons ⟨_, rfl, rfl⟩ (.cons ⟨_, rfl, rfl⟩ (.cons ⟨_, rfl, rfl⟩ .nil)), ?_, ?_⟩
  · intro row hr x hx
    simp only [List.mem_singleton] at hx
    subst hx
    simp only [sampleNodeRows, List.mem_cons, List.not_mem_nil, or_false] at hr
    rcases hr with rfl | rfl | rfl <;> exact ⟨_, rfl⟩
  · intro x hx
    simp only [List.mem_singleton] at hx
    subst hx; decide

/-- The node `y` is missing: an error, or a node without attributes; the last row of `x` wins. -/
theorem sample_tables :
    tablesToGraph (.rows sampleNodeRows) (.rows sampleEdgeRows) (.str "n") [.str "a"] (sampleEdgeOptions false false)
      true = .error .keyError ∧
    ∃ g, tablesToGraph (.rows sampleNodeRows) (.rows sampleEdgeRows) (.str "n") [.str "a"]
      (sampleEdgeOptions false true) true = .ok g ∧
      g.node = [(.str "x", [(.str "a", .int 3)]), (.str "z", [(.str "a", .int 2)]), (.str "y", [])] :=
  ⟨rfl, _, rfl, rfl⟩

/-- An edge towards `None` or towards a list: `KeyError` without `add_missing_nodes`, else the errors of networkx. -/
theorem sample_tables_values :
    (∀ v ∈ [Data.none, .list [.int 1]],
      tablesToGraph (.rows sampleNodeRows) (.rows [.dict [(.str "s", .str "x"), (.str "t", v), (.str "c", .int 1)]])
        (.str "n") [.str "a"] (sampleEdgeOptions false false) true = .error .keyError) ∧
    tablesToGraph (.rows sampleNodeRows)
      (.rows [.dict [(.str "s", .str "x"), (.str "t", .none), (.str "c", .int 1)]])
      (.str "n") [.str "a"] (sampleEdgeOptions false true) true = .error .valueError := by
  refine ⟨fun v hv => ?_, rfl⟩
  simp only [List.mem_cons, List.not_mem_nil, or_false] at hv
  rcases hv with rfl | rfl <;> rfl

/-! ### Rows given as lists -/

/-- A column which is a natural number counts from the start of a list. -/
theorem list_row_item (l : List Data) (k : Nat) :
    (Row.list l).item (.int k) = match l[k]? with
      | some x => .ok x
      | none => .error .indexError := by
  simp only [Row.item, listItem]
  rw [if_neg (by omega : ¬ ((k : Int) < 0)), if_neg (by omega : ¬ ((k : Int) < 0))]
  rfl

/-- A negative one counts from its end, `-1` being the last element. -/
theorem list_row_item_neg (l : List Data) (k : Nat) :
    (Row.list l).item (.int (-(k : Int) - 1)) = match l.reverse[k]? with
      | some x => .ok x
      | none => .error .indexError := by
  simp only [Row.item, listItem]
  rw [if_pos (by omega : -(k : Int) - 1 < 0)]
  by_cases hk : k < l.length
  · rw [if_neg (by omega), List.getElem?_reverse hk]
    rw [show (-(k : Int) - 1 + (l.length : Int)).toNat = l.length - 1 - k by omega]
    cases l[l.length - 1 - k]? <;> rfl
  · rw [if_pos (by omega), List.getElem?_eq_none (by rw [List.length_reverse]; omega)]

/-- `False` and `True` stand for 0 and 1; any other column is refused. -/
theorem list_row_item_bool (l : List Data) (b : Bool) :
    (Row.list l).item (.bool b) = (Row.list l).item (.int (if b = true then 1 else 0)) ∧
    (∀ s, ∃ msg, (Row.list l).item (.str s) = .error (.typeError msg)) :=
  ⟨rfl, fun _ => ⟨_, rfl⟩⟩

/-- An edge table made of lists, its ends being the last two columns. -/
theorem list_rows_sample :
    ∃ g, edgesTableToGraph (.rows [.list [.int 7, .str "x", .str "y"], .list [.str "z", .str "x"]])
      { sampleEdgeOptions false true with sourceCol := .int (-2), targetCol := .int (-1), edgeData := [.int 0] } true =
        .ok g ∧
      g.edgesData = [(.str "x", .str "y", [(.str "0", .int 7)]), (.str "z", .str "x", [(.str "0", .str "z")])] :=
  ⟨_, rfl, rfl⟩

end Pelote
