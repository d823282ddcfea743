import Verif.Lemmas.BipartiteSum

/-! Lemmas about `edges_table_to_graph` and `tables_to_graph`. -/
namespace Pelote

/-! ### Row data -/

theorem rowData_ok {row : Row} {cols : List PyKey} (a : Attrs Data) :
    (∃ d, rowData row cols a = .ok d) ↔ HasColumns cols row := by
  induction cols generalizing a with
  | nil => simp [rowData, HasColumns]
  | cons c cols ih =>
    unfold rowData
    cases hv : row.item c with
    | error e => simp [HasColumns, hv]
    | ok v =>
      simp only
      rw [ih]
      simp [HasColumns, hv]

theorem rowData_get? {row : Row} {cols : List PyKey} {d a : Attrs Data} (h : rowData row cols a = .ok d) (k : PyKey) :
    d.get? k = (columnValue cols row k).or (a.get? k) := by
  induction cols generalizing a with
  | nil => cases h; simp [columnValue]
  | cons c cols ih =>
    unfold rowData at h
    cases hv : row.item c with
    | error e => rw [hv] at h; cases h
    | ok v =>
      rw [hv] at h
      rw [ih h, Dict.get?_set]
      have hall : ∀ c' ∈ cols, ∃ v, row.item c' = .ok v := (rowData_ok _).1 ⟨d, h⟩
      unfold columnValue
      rw [List.filter_cons]
      by_cases hn : PyKey.str c.toStr = k
      · simp only [hn, decide_true, if_true]
        rw [List.getLast?_cons]
        cases hl : (cols.filter (fun c => decide (PyKey.str c.toStr = k))).getLast? with
        | none => simp [hv, Except.toOption]
        | some x =>
          have hx : x ∈ cols := (List.mem_filter.1 (List.mem_of_getLast? hl)).1
          obtain ⟨y, hy⟩ := hall x hx
          simp [hy, Except.toOption]
      · simp [hn]

theorem rowData_nodup {row : Row} {cols : List PyKey} {d a : Attrs Data} (h : rowData row cols a = .ok d)
    (ha : a.keys.Nodup) : d.keys.Nodup := by
  induction cols generalizing a with
  | nil => cases h; exact ha
  | cons c cols ih =>
    unfold rowData at h
    split at h
    · cases h
    · exact ih h (Dict.nodup_set _ _ ha)

theorem rowData_keys {row : Row} {cols : List PyKey} {d a : Attrs Data} (h : rowData row cols a = .ok d) (k : PyKey) :
    k ∈ d.keys ↔ k ∈ a.keys ∨ ∃ c ∈ cols, k = .str c.toStr := by
  induction cols generalizing a with
  | nil => cases h; simp
  | cons c cols ih =>
    unfold rowData at h
    split at h
    · cases h
    · rw [ih h, Dict.mem_keys_set]
      simp only [List.mem_cons, exists_eq_or_imp]
      tauto

/-! ### Rows -/

/-- What a row of an edge table gives. -/
structure EdgeRow (o : EdgeOptions) (row : Row) (e : PyKey × PyKey × Attrs Data) : Prop where
  ends : RowEnds o row (e.1, e.2.1)
  data : rowData row o.edgeData [] = .ok e.2.2

/-- The rows one by one, once read. -/
def edgeSteps (o : EdgeOptions) : List (PyKey × PyKey × Attrs Data) → Graph PyKey Data → Py (Graph PyKey Data)
  | [], g => .ok g
  | e :: S, g =>
    match addTableEdge o g e.1 e.2.1 e.2.2 with
    | .error x => .error x
    | .ok g => edgeSteps o S g

theorem edgesLoop_row {o : EdgeOptions} {row : Row} {rest : List Row} {e : PyKey × PyKey × Attrs Data}
    (h : EdgeRow o row e) (g : Graph PyKey Data) (hm : o.addMissing = true ∨ (e.1 ∈ g.nodes ∧ e.2.1 ∈ g.nodes)) :
    edgesLoop o (row :: rest) g = match addTableEdge o g e.1 e.2.1 e.2.2 with
      | .error x => .error x
      | .ok g => edgesLoop o rest g := by
  obtain ⟨⟨⟨v1, h1, h2⟩, v2, h3, h4⟩, h5⟩ := h
  have hc : checkEnds o g v1 v2 = .ok () := by
    unfold checkEnds
    rcases hm with hm | ⟨m1, m2⟩
    · rw [if_pos hm]
    · split
      · rfl
      · unfold checkValueExists checkNodeExists
        rw [h2, h4]
        simp [Graph.hasNode_iff.2 m1, Graph.hasNode_iff.2 m2]
  rw [edgesLoop.eq_2]
  simp only [h1, h3, hc, h5, h2, h4]
  rfl

theorem edgesLoop_missing {o : EdgeOptions} {row : Row} {rest : List Row} {e : PyKey × PyKey × Attrs Data}
    (h : EdgeRow o row e) (g : Graph PyKey Data) (ho : o.addMissing = false)
    (hm : ¬ (e.1 ∈ g.nodes ∧ e.2.1 ∈ g.nodes)) : edgesLoop o (row :: rest) g = .error .keyError := by
  obtain ⟨⟨⟨v1, h1, h2⟩, v2, h3, h4⟩, h5⟩ := h
  have hc : checkEnds o g v1 v2 = .error .keyError := by
    unfold checkEnds checkValueExists checkNodeExists
    rw [ho, h2, h4]
    simp only [Bool.false_eq_true, if_false]
    by_cases m1 : e.1 ∈ g.nodes
    · have m2 : e.2.1 ∉ g.nodes := fun m2 => hm ⟨m1, m2⟩
      rw [if_pos (Graph.hasNode_iff.2 m1)]
      simp only
      rw [if_neg (fun hh => m2 (Graph.hasNode_iff.1 hh))]
    · rw [if_neg (fun hh => m1 (Graph.hasNode_iff.1 hh))]
  rw [edgesLoop.eq_2]
  simp only [h1, h3, hc]

/-- A successful run read every row. -/
theorem edgesLoop_rows {o : EdgeOptions} {rows : List Row} {g g' : Graph PyKey Data}
    (h : edgesLoop o rows g = .ok g') : ∃ S, List.Forall₂ (EdgeRow o) rows S := by
  induction rows generalizing g with
  | nil => exact ⟨[], .nil⟩
  | cons row rows ih =>
    rw [edgesLoop.eq_2] at h
    split at h
    · cases h
    rename_i v1 h1
    split at h
    · cases h
    rename_i v2 h2
    split at h
    · cases h
    split at h
    · cases h
    rename_i d h3
    split at h
    · cases h
    rename_i n1 h4
    split at h
    · cases h
    rename_i n2 h5
    split at h
    · cases h
    obtain ⟨S, hS⟩ := ih h
    exact ⟨(n1, n2, d) :: S, .cons ⟨⟨⟨v1, h1, h4⟩, v2, h2, h5⟩, h3⟩ hS⟩

/-! ### The graph -/

theorem addTableEdge_count {o : EdgeOptions} (hc : o.countRows = true) (g : Graph PyKey Data) (u v : PyKey)
    (d : Attrs Data) : addTableEdge o g u v d = countRow g u v d o.weightAttr := by
  unfold addTableEdge countRow
  rw [if_pos hc]

/-- Facts about the nodes after some rows, the graph being `g0` before. -/
structure NodesInv (g0 : Graph PyKey Data) (S : List (PyKey × PyKey × Attrs Data)) (g : Graph PyKey Data) : Prop where
  wf : g.WF
  directed : g.directed = g0.directed
  multi : g.multi = false
  attrs : g.attrs = g0.attrs
  nodes : ∀ n, n ∈ g.nodes ↔ n ∈ g0.nodes ∨ ∃ e ∈ S, n = e.1 ∨ n = e.2.1
  old : ∀ n ∈ g0.nodes, g.node.get? n = g0.node.get? n
  new : ∀ n ∈ g.nodes, n ∉ g0.nodes → g.node.get? n = some []

theorem NodesInv.init {g0 : Graph PyKey Data} (h : g0.WF) (hm : g0.multi = false) : NodesInv g0 [] g0 :=
  ⟨h, rfl, hm, rfl, by simp, fun _ _ => rfl, fun _ h1 h2 => absurd h1 h2⟩

theorem NodesInv.step {g0 g : Graph PyKey Data} {S : List (PyKey × PyKey × Attrs Data)} (h : NodesInv g0 S g)
    (u v : PyKey) (d a : Attrs Data) : NodesInv g0 (S ++ [(u, v, d)]) (g.addEdgeCore u v none a) where
  wf := h.wf.addEdgeCore _ _ _ _
  directed := by rw [Graph.addEdgeCore_directed, h.directed]
  multi := by rw [Graph.addEdgeCore_multi, h.multi]
  attrs := by rw [Graph.addEdgeCore_attrs, h.attrs]
  nodes := by
    intro n
    rw [Graph.mem_nodes_addEdgeCore, h.nodes]
    constructor
    · rintro ((hn | ⟨e, he, hn⟩) | hn | hn)
      · exact .inl hn
      · exact .inr ⟨e, List.mem_append_left _ he, hn⟩
      · exact .inr ⟨_, List.mem_append_right _ (List.mem_singleton.2 rfl), .inl hn⟩
      · exact .inr ⟨_, List.mem_append_right _ (List.mem_singleton.2 rfl), .inr hn⟩
    · rintro (hn | ⟨e, he, hn⟩)
      · exact .inl (.inl hn)
      · rcases List.mem_append.1 he with he | he
        · exact .inl (.inr ⟨e, he, hn⟩)
        · rw [List.mem_singleton] at he; subst he
          exact .inr hn
  old := by
    intro n hn
    have hg : n ∈ g.nodes := (h.nodes n).2 (.inl hn)
    obtain ⟨b, hb⟩ := Dict.exists_get?_of_mem_keys hg
    rw [Graph.get?_addEdgeCore, hb, ← h.old n hn, hb]
    split <;> rfl
  new := by
    intro n hn h0
    rw [Graph.get?_addEdgeCore]
    by_cases hg : n ∈ g.nodes
    · rw [h.new n hg h0]; split <;> rfl
    · have hnone : g.node.get? n = none := Dict.get?_eq_none_iff.2 hg
      rcases Graph.mem_nodes_addEdgeCore.1 hn with hn | hn
      · exact absurd hn hg
      · rw [if_pos hn, hnone]; rfl

/-- What `add_edge` is called with. -/
theorem addTableEdge_core {o : EdgeOptions} {g g' : Graph PyKey Data} {S : List (PyKey × PyKey × Attrs Data)}
    (hm : g.multi = false) (hc : o.countRows = true → Counted g o.weightAttr S) {u v : PyKey} {d : Attrs Data}
    (h : addTableEdge o g u v d = .ok g') :
    g' = g.addEdgeCore u v none (if o.countRows then countAttrs g u v d o.weightAttr S else d) := by
  by_cases ho : o.countRows = true
  · rw [addTableEdge_count ho] at h
    rw [if_pos ho]
    exact countRow_ok (hc ho) h
  · unfold addTableEdge at h
    rw [if_neg ho] at h ⊢
    exact ((addEdge_simple_ok_iff hm).1 h).2

theorem addTableEdge_total {o : EdgeOptions} {g : Graph PyKey Data} {S : List (PyKey × PyKey × Attrs Data)}
    (hm : g.multi = false) (hc : o.countRows = true → Counted g o.weightAttr S) {u v : PyKey} {d : Attrs Data}
    (hs : EdgeColumnsSafe o) (hd : ∀ k, k ∈ d.keys ↔ ∃ c ∈ o.edgeData, k = .str c.toStr) :
    ∃ g', addTableEdge o g u v d = .ok g' := by
  by_cases ho : o.countRows = true
  · rw [addTableEdge_count ho, countRow_eq (hc ho)]
    split
    · exact ⟨_, rfl⟩
    · rename_i hne
      refine ⟨_, (addEdge_simple_ok_iff hm).2 ⟨?_, rfl⟩⟩
      unfold countAttrs
      rw [if_neg hne]
      intro k hk
      rcases Dict.mem_keys_set.1 hk with hk | rfl
      · obtain ⟨c, hc, rfl⟩ := (hd k).1 hk
        exact ⟨_, rfl, hs.1 c hc⟩
      · exact ⟨_, rfl, hs.2 ho⟩
  · unfold addTableEdge
    rw [if_neg ho]
    refine ⟨_, (addEdge_simple_ok_iff hm).2 ⟨?_, rfl⟩⟩
    intro k hk
    obtain ⟨c, hc, rfl⟩ := (hd k).1 hk
    exact ⟨_, rfl, hs.1 c hc⟩

/-- The edges when rows are not counted: the attributes are those of the last row. -/
structure Latest (g : Graph PyKey Data) (S : List (PyKey × PyKey × Attrs Data)) : Prop where
  no : ∀ x y, (pairRows g.directed x y S).getLast? = none → g.keydict? x y = none
  yes : ∀ x y e, (pairRows g.directed x y S).getLast? = some e →
    ∃ a : Attrs Data, g.keydict? x y = some [(.int 0, a)] ∧ ∀ k, a.get? k = e.2.2.get? k

/-- All rows give the same attribute names. -/
def Uniform (o : EdgeOptions) (S : List (PyKey × PyKey × Attrs Data)) : Prop :=
  ∀ e ∈ S, e.2.2.keys.Nodup ∧ ∀ k, k ∈ e.2.2.keys ↔ ∃ c ∈ o.edgeData, k = .str c.toStr

theorem Latest.step {o : EdgeOptions} {g : Graph PyKey Data} {S : List (PyKey × PyKey × Attrs Data)} (h : Latest g S)
    (hm : g.multi = false) {u v : PyKey} {d : Attrs Data} (hu : Uniform o (S ++ [(u, v, d)])) :
    Latest (g.addEdgeCore u v none d) (S ++ [(u, v, d)]) := by
  have hnd : d.keys.Nodup := (hu (u, v, d) (by simp)).1
  have key : ∀ x y, samePair g.directed u v x y = true →
      (pairRows g.directed x y (S ++ [(u, v, d)])).getLast? = some (u, v, d) := by
    intro x y hs
    rw [pairRows_append]
    have : pairRows g.directed x y [(u, v, d)] = [(u, v, d)] := by simp [pairRows, hs]
    rw [this]; simp
  have key2 : ∀ x y, samePair g.directed u v x y = false →
      pairRows g.directed x y (S ++ [(u, v, d)]) = pairRows g.directed x y S := by
    intro x y hs
    rw [pairRows_append]
    have : pairRows g.directed x y [(u, v, d)] = [] := by simp [pairRows, hs]
    rw [this, List.append_nil]
  constructor
  · intro x y hl
    rw [Graph.addEdgeCore_directed] at hl
    rw [Graph.keydict?_addEdgeCore]
    cases hs : samePair g.directed u v x y with
    | true => rw [key x y hs] at hl; cases hl
    | false =>
      rw [key2 x y hs] at hl
      rw [if_neg (by simp)]
      exact h.no x y hl
  · intro x y e hl
    rw [Graph.addEdgeCore_directed] at hl
    rw [Graph.keydict?_addEdgeCore]
    cases hs : samePair g.directed u v x y with
    | false =>
      rw [key2 x y hs] at hl
      rw [if_neg (by simp)]
      exact h.yes x y e hl
    | true =>
      rw [key x y hs] at hl
      cases hl
      rw [if_pos rfl, hm]
      cases ho : (pairRows g.directed u v S).getLast? with
      | none =>
        rw [h.no u v ho]
        simp only [Graph.addToData, Bool.false_eq_true, if_false, Option.getD_none, Dict.get?_nil, Dict.set]
        refine ⟨_, rfl, ?_⟩
        intro k
        rw [Dict.update_nil_left hnd]
      | some f =>
        obtain ⟨a, ha, hget⟩ := h.yes u v f ho
        have hf : f ∈ S := (List.mem_filter.1 (List.mem_of_getLast? ho)).1
        rw [ha]
        simp only [Graph.addToData, Bool.false_eq_true, if_false, Option.getD_some, Dict.get?_cons, if_true, Dict.set]
        refine ⟨_, rfl, ?_⟩
        intro k
        rw [Dict.get?_update _ _ hnd, hget]
        cases hk : d.get? k with
        | some x => rfl
        | none =>
          have h1 : k ∉ d.keys := Dict.get?_eq_none_iff.1 hk
          have h2 : k ∉ f.2.2.keys := fun hc =>
            h1 (((hu (u, v, d) (by simp)).2 k).2 (((hu f (List.mem_append_left _ hf)).2 k).1 hc))
          rw [Dict.get?_eq_none_iff.2 h2]; rfl

/-- The graph after some rows. -/
structure EInv (o : EdgeOptions) (g0 : Graph PyKey Data) (S : List (PyKey × PyKey × Attrs Data))
    (g : Graph PyKey Data) : Prop where
  nodes : NodesInv g0 S g
  counted : o.countRows = true → Counted g o.weightAttr S
  latest : o.countRows = false → Latest g S

theorem EInv.init {o : EdgeOptions} {g0 : Graph PyKey Data} (h : g0.WF) (hm : g0.multi = false)
    (hl : g0.links = []) : EInv o g0 [] g0 := by
  have hk : ∀ x y, g0.keydict? x y = none := by intro x y; unfold Graph.keydict?; rw [hl]; rfl
  exact ⟨NodesInv.init h hm, fun _ => ⟨h, hm, fun x y => by rw [hk]; rfl, by simp⟩,
    fun _ => ⟨fun x y _ => hk x y, fun x y e he => by simp [pairRows] at he⟩⟩

theorem EInv.step {o : EdgeOptions} {g0 g g' : Graph PyKey Data} {S : List (PyKey × PyKey × Attrs Data)}
    (h : EInv o g0 S g) {e : PyKey × PyKey × Attrs Data} (hu : Uniform o (S ++ [e]))
    (he : addTableEdge o g e.1 e.2.1 e.2.2 = .ok g') : EInv o g0 (S ++ [e]) g' := by
  obtain ⟨u, v, d⟩ := e
  have hc := addTableEdge_core h.nodes.multi h.counted he
  refine ⟨?_, ?_, ?_⟩
  · rw [hc]; exact h.nodes.step u v d _
  · intro ho
    rw [hc, if_pos ho]
    exact (h.counted ho).step (hu (u, v, d) (by simp)).1
  · intro ho
    rw [hc, if_neg (by simp [ho])]
    exact (h.latest ho).step h.nodes.multi hu

theorem edgeSteps_inv {o : EdgeOptions} {g0 g g' : Graph PyKey Data} {S T : List (PyKey × PyKey × Attrs Data)}
    (h : EInv o g0 S g) (hu : Uniform o (S ++ T)) (he : edgeSteps o T g = .ok g') : EInv o g0 (S ++ T) g' := by
  induction T generalizing S g with
  | nil => cases he; rw [List.append_nil]; exact h
  | cons e T ih =>
    unfold edgeSteps at he
    split at he
    · cases he
    · rename_i g1 h1
      have hu' : Uniform o ((S ++ [e]) ++ T) := by rw [List.append_assoc]; exact hu
      have := ih (h.step (fun x hx => hu' x (List.mem_append_left _ hx)) h1) hu' he
      rwa [List.append_assoc] at this

theorem edgeSteps_total {o : EdgeOptions} {g0 g : Graph PyKey Data} {S T : List (PyKey × PyKey × Attrs Data)}
    (h : EInv o g0 S g) (hu : Uniform o (S ++ T)) (hs : EdgeColumnsSafe o) : ∃ g', edgeSteps o T g = .ok g' := by
  induction T generalizing S g with
  | nil => exact ⟨g, rfl⟩
  | cons e T ih =>
    have hu' : Uniform o ((S ++ [e]) ++ T) := by rw [List.append_assoc]; exact hu
    obtain ⟨g1, h1⟩ := addTableEdge_total (d := e.2.2) (u := e.1) (v := e.2.1) h.nodes.multi h.counted hs
      (hu e (by simp)).2
    unfold edgeSteps
    rw [h1]
    exact ih (h.step (fun x hx => hu' x (List.mem_append_left _ hx)) h1) hu'

theorem uniform_of_rows {o : EdgeOptions} {rows : List Row} {S : List (PyKey × PyKey × Attrs Data)}
    (h : List.Forall₂ (EdgeRow o) rows S) : Uniform o S := by
  induction h with
  | nil => intro e he; cases he
  | cons hd _ ih =>
    intro e he
    rcases List.mem_cons.1 he with rfl | he
    · refine ⟨rowData_nodup hd.data (by simp [Dict.keys]), fun k => ?_⟩
      rw [rowData_keys hd.data]; simp [Dict.keys]
    · exact ih e he

/-- The rows one by one, when no end is missing. -/
theorem edgesLoop_eq {o : EdgeOptions} {g0 g : Graph PyKey Data} {rows : List Row}
    {S T : List (PyKey × PyKey × Attrs Data)} (h : List.Forall₂ (EdgeRow o) rows T) (hi : EInv o g0 S g)
    (hu : Uniform o (S ++ T))
    (hm : o.addMissing = true ∨ ∀ e ∈ T, e.1 ∈ g0.nodes ∧ e.2.1 ∈ g0.nodes) :
    edgesLoop o rows g = edgeSteps o T g := by
  induction h generalizing S g with
  | nil => rfl
  | cons hd _ ih =>
    rename_i row e rows T _h
    rw [edgesLoop_row hd g]
    · unfold edgeSteps
      split
      · rfl
      · rename_i g1 h1
        have hu' : Uniform o ((S ++ [e]) ++ T) := by rw [List.append_assoc]; exact hu
        exact ih (hi.step (fun x hx => hu' x (List.mem_append_left _ hx)) h1) hu'
          (hm.imp id (fun hm e he => hm e (List.mem_cons_of_mem _ he)))
    · refine hm.imp id (fun hm => ?_)
      obtain ⟨h1, h2⟩ := hm e List.mem_cons_self
      exact ⟨(hi.nodes.nodes _).2 (.inl h1), (hi.nodes.nodes _).2 (.inl h2)⟩

/-- A missing end. -/
theorem edgesLoop_error {o : EdgeOptions} {g0 g : Graph PyKey Data} {rows : List Row}
    {S T : List (PyKey × PyKey × Attrs Data)} (h : List.Forall₂ (EdgeRow o) rows T) (hi : EInv o g0 S g)
    (hu : Uniform o (S ++ T)) (hs : EdgeColumnsSafe o) (ho : o.addMissing = false)
    (h0 : ∀ n, n ∈ g.nodes ↔ n ∈ g0.nodes)
    (hm : ¬ ∀ e ∈ T, e.1 ∈ g0.nodes ∧ e.2.1 ∈ g0.nodes) : edgesLoop o rows g = .error .keyError := by
  induction h generalizing S g with
  | nil => exact absurd (by simp) hm
  | cons hd _ ih =>
    rename_i row e rows T _h
    by_cases he : e.1 ∈ g.nodes ∧ e.2.1 ∈ g.nodes
    · rw [edgesLoop_row hd g (.inr he)]
      have hu' : Uniform o ((S ++ [e]) ++ T) := by rw [List.append_assoc]; exact hu
      obtain ⟨g1, h1⟩ := addTableEdge_total (d := e.2.2) (u := e.1) (v := e.2.1) hi.nodes.multi hi.counted hs
        (hu e (by simp)).2
      rw [h1]
      have hc := addTableEdge_core hi.nodes.multi hi.counted h1
      refine ih (hi.step (fun x hx => hu' x (List.mem_append_left _ hx)) h1) hu' ?_ ?_
      · intro n
        rw [hc, Graph.mem_nodes_addEdgeCore, h0]
        constructor
        · rintro (hn | rfl | rfl)
          · exact hn
          · exact (h0 _).1 he.1
          · exact (h0 _).1 he.2
        · exact .inl
      · intro hall
        apply hm
        intro f hf
        rcases List.mem_cons.1 hf with rfl | hf
        · exact ⟨(h0 _).1 he.1, (h0 _).1 he.2⟩
        · exact hall f hf
    · exact edgesLoop_missing hd g ho he

theorem checkEnds_bad {o : EdgeOptions} {g : Graph PyKey Data} {v1 v2 : Data} (ho : o.addMissing = false)
    (hv : ¬ ∃ n1 n2, v1.asNode = .ok n1 ∧ v2.asNode = .ok n2 ∧ n1 ∈ g.nodes ∧ n2 ∈ g.nodes) :
    checkEnds o g v1 v2 = .error .keyError := by
  unfold checkEnds checkValueExists checkNodeExists
  rw [ho]
  simp only [Bool.false_eq_true, if_false]
  cases h1 : v1.asNode with
  | error e => rfl
  | ok n1 =>
    simp only
    by_cases m1 : n1 ∈ g.nodes
    · rw [if_pos (Graph.hasNode_iff.2 m1)]
      simp only
      cases h2 : v2.asNode with
      | error e => rfl
      | ok n2 =>
        simp only
        rw [if_neg (fun hh => hv ⟨n1, n2, h1, h2, m1, Graph.hasNode_iff.1 hh⟩)]
    · rw [if_neg (fun hh => m1 (Graph.hasNode_iff.1 hh))]

/-- A row whose ends are not nodes, after rows whose ends are. -/
theorem edgesLoop_bad {o : EdgeOptions} {g0 g : Graph PyKey Data} {rows post : List Row} {row : Row} {v1 v2 : Data}
    {S T : List (PyKey × PyKey × Attrs Data)} (h : List.Forall₂ (EdgeRow o) rows T) (hi : EInv o g0 S g)
    (hu : Uniform o (S ++ T)) (hs : EdgeColumnsSafe o) (ho : o.addMissing = false)
    (h0 : ∀ n, n ∈ g.nodes ↔ n ∈ g0.nodes) (h1 : row.item o.sourceCol = .ok v1) (h2 : row.item o.targetCol = .ok v2)
    (hv : ¬ ∃ n1 n2, v1.asNode = .ok n1 ∧ v2.asNode = .ok n2 ∧ n1 ∈ g0.nodes ∧ n2 ∈ g0.nodes) :
    edgesLoop o (rows ++ row :: post) g = .error .keyError := by
  induction h generalizing S g with
  | nil =>
    rw [List.nil_append, edgesLoop.eq_2]
    have hc : checkEnds o g v1 v2 = .error .keyError :=
      checkEnds_bad ho (by simpa only [h0] using hv)
    simp only [h1, h2, hc]
  | cons hd _ ih =>
    rename_i row' e rows T _h
    by_cases he : e.1 ∈ g.nodes ∧ e.2.1 ∈ g.nodes
    · rw [List.cons_append, edgesLoop_row hd g (.inr he)]
      have hu' : Uniform o ((S ++ [e]) ++ T) := by rw [List.append_assoc]; exact hu
      obtain ⟨g1, h1⟩ := addTableEdge_total (d := e.2.2) (u := e.1) (v := e.2.1) hi.nodes.multi hi.counted hs
        (hu e (by simp)).2
      rw [h1]
      have hc := addTableEdge_core hi.nodes.multi hi.counted h1
      refine ih (hi.step (fun x hx => hu' x (List.mem_append_left _ hx)) h1) hu' ?_
      intro n
      rw [hc, Graph.mem_nodes_addEdgeCore, h0]
      constructor
      · rintro (hn | rfl | rfl)
        · exact hn
        · exact (h0 _).1 he.1
        · exact (h0 _).1 he.2
      · exact .inl
    · rw [List.cons_append]
      exact edgesLoop_missing hd g ho he

/-! ### Node tables -/

/-- What a row of a node table gives. -/
structure NodeRow (col : PyKey) (cols : List PyKey) (row : Row) (p : PyKey × Attrs Data) : Prop where
  node : RowNode col row p.1
  data : rowData row cols [] = .ok p.2

theorem nodesLoop_eq {col : PyKey} {cols : List PyKey} {rows : List Row} {N : List (PyKey × Attrs Data)}
    (h : List.Forall₂ (NodeRow col cols) rows N) (hs : NodeColumnsSafe cols) (g : Graph PyKey Data) :
    nodesLoop col cols rows g = .ok (g.addNodes N) := by
  induction h generalizing g with
  | nil => rfl
  | cons hd _ ih =>
    rename_i row p rows N _h
    obtain ⟨⟨v, h1, h2⟩, h3⟩ := hd
    have hk : Graph.NodeKwSafe p.2 := by
      intro k hk
      rcases (rowData_keys h3 k).1 hk with hk | ⟨c, hc, rfl⟩
      · cases hk
      · exact ⟨_, rfl, hs c hc⟩
    rw [nodesLoop.eq_2]
    simp only [h1, h3, h2, addNode_ok_iff.2 ⟨hk, rfl⟩]
    exact ih _

theorem nodesLoop_rows {col : PyKey} {cols : List PyKey} {rows : List Row} {g g' : Graph PyKey Data}
    (h : nodesLoop col cols rows g = .ok g') : ∃ N, List.Forall₂ (NodeRow col cols) rows N ∧ g' = g.addNodes N := by
  induction rows generalizing g with
  | nil => cases h; exact ⟨[], .nil, rfl⟩
  | cons row rows ih =>
    rw [nodesLoop.eq_2] at h
    split at h
    · cases h
    rename_i v h1
    split at h
    · cases h
    rename_i d h2
    split at h
    · cases h
    rename_i n h3
    split at h
    · cases h
    rename_i g1 h4
    obtain ⟨N, hN, hg⟩ := ih h
    obtain ⟨_, rfl⟩ := addNode_ok_iff.1 h4
    exact ⟨(n, d) :: N, .cons ⟨⟨v, h1, h3⟩, h2⟩ hN, hg⟩

/-- The attributes of a node are those of its last row. -/
theorem addNodes_latest {col : PyKey} {cols : List PyKey} {rows : List Row} {N : List (PyKey × Attrs Data)}
    (h : List.Forall₂ (NodeRow col cols) rows N) {g : Graph PyKey Data} {n : PyKey} {p : PyKey × Attrs Data}
    (hg : g.node.get? n = none) (hl : (N.filter (fun p => decide (p.1 = n))).getLast? = some p) :
    ∃ a, (g.addNodes N).node.get? n = some a ∧ ∀ k, a.get? k = p.2.get? k := by
  have hkeys : ∀ q ∈ N, q.2.keys.Nodup ∧ ∀ k, k ∈ q.2.keys ↔ ∃ c ∈ cols, k = .str c.toStr := by
    clear hl
    induction h with
    | nil => intro q hq; cases hq
    | cons hd _ ih =>
      intro q hq
      rcases List.mem_cons.1 hq with rfl | hq
      · refine ⟨rowData_nodup hd.data (by simp [Dict.keys]), fun k => ?_⟩
        rw [rowData_keys hd.data]; simp [Dict.keys]
      · exact ih q hq
  have hmem := List.mem_filter.1 (List.mem_of_getLast? hl)
  have hn : n ∈ N.map Prod.fst := List.mem_map.2 ⟨p, hmem.1, by simpa using hmem.2⟩
  rw [Graph.addNodes_get?, if_pos hn, hg]
  refine ⟨_, rfl, ?_⟩
  have gen : ∀ (M : List (PyKey × Attrs Data)) (b : Attrs Data) (q : PyKey × Attrs Data), (∀ q ∈ M, q ∈ N) →
      (∀ k, k ∈ b.keys → ∃ c ∈ cols, k = .str c.toStr) →
      M.getLast? = some q → ∀ k, (Graph.merged (M.map Prod.snd) b).get? k = q.2.get? k := by
    intro M
    induction M with
    | nil => intro b q _ _ hq; cases hq
    | cons r M ih =>
      intro b q hM hb hq k
      have hr := hkeys r (hM r List.mem_cons_self)
      have e : Graph.merged ((r :: M).map Prod.snd) b = Graph.merged (M.map Prod.snd) (b.update r.2) := rfl
      rw [e]
      cases hMl : M.getLast? with
      | none =>
        rw [List.getLast?_eq_none_iff] at hMl
        subst hMl
        simp only [List.getLast?_singleton, Option.some.injEq] at hq
        subst hq
        show (b.update r.2).get? k = _
        rw [Dict.get?_update _ _ hr.1]
        cases hk : Dict.get? r.2 k with
        | some x => rfl
        | none =>
          have : k ∉ b.keys := fun hc => (Dict.get?_eq_none_iff.1 hk) ((hr.2 k).2 (hb k hc))
          rw [Dict.get?_eq_none_iff.2 this]; rfl
      | some x =>
        rw [List.getLast?_cons, hMl] at hq
        simp only [Option.getD_some, Option.some.injEq] at hq
        subst hq
        refine ih _ _ (fun q hq => hM q (List.mem_cons_of_mem _ hq)) ?_ hMl k
        intro k hk
        rcases Dict.mem_keys_update.1 hk with hk | hk
        · exact hb k hk
        · exact (hr.2 k).1 hk
  exact gen _ [] p (fun q hq => (List.mem_filter.1 hq).1) (by simp [Dict.keys]) hl

end Pelote
