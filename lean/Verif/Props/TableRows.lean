import Verif.Props.Tables
import Verif.Spec.Compare

/-! C102: the order of the rows of a table, and the order of its columns. -/
set_option linter.unusedSectionVars false
namespace Pelote
open Classical

/-! ### The specification -/

/-- The same graph, up to the order of the nodes, of the edges and of the attributes. -/
structure SameUpToOrder (g h : Graph PyKey Data) : Prop where
  directed : g.directed = h.directed
  multi : g.multi = h.multi
  attrs : g.attrs = h.attrs
  shape : Graph.SameShape g h
  attributes : Graph.SameAttributes g h

/-- The rows describing the edge from `u` to `v`, in order. -/
noncomputable def rowsOf (o : EdgeOptions) (directed : Bool) (rows : List Row) (u v : PyKey) : List Row :=
  rows.filter (fun r => decide (∃ e, RowEnds o r e ∧ SameEnds directed e (u, v)))

/-- The rows describing the node `n`, in order. -/
noncomputable def nodeRowsOf (col : PyKey) (rows : List Row) (n : PyKey) : List Row :=
  rows.filter (fun r => decide (RowNode col r n))

/-- Rows with the same ends have the same data (as when no data is asked for, or when each edge has one row). -/
def EdgeRowsAgree (o : EdgeOptions) (directed : Bool) (rows : List Row) : Prop :=
  ∀ r ∈ rows, ∀ r' ∈ rows, ∀ e e', RowEnds o r e → RowEnds o r' e' → SameEnds directed e e' →
    ∀ c ∈ o.edgeData, r.item c = r'.item c

/-- Rows of the same node have the same data. -/
def NodeRowsAgree (col : PyKey) (data : List PyKey) (rows : List Row) : Prop :=
  ∀ r ∈ rows, ∀ r' ∈ rows, ∀ n, RowNode col r n → RowNode col r' n → ∀ c ∈ data, r.item c = r'.item c

/-- The options with both columns exchanged. -/
def EdgeOptions.swap (o : EdgeOptions) : EdgeOptions := { o with sourceCol := o.targetCol, targetCol := o.sourceCol }

/-! ### Helpers -/

theorem sameEnds_symm {d : Bool} {e f : PyKey × PyKey} (h : SameEnds d e f) : SameEnds d f e := by
  rcases h with rfl | ⟨hd, rfl⟩
  · exact .inl rfl
  · exact .inr ⟨hd, rfl⟩

theorem sameEnds_trans {d : Bool} {e f k : PyKey × PyKey} (h : SameEnds d e f) (h' : SameEnds d f k) : SameEnds d e k := by
  rcases h with rfl | ⟨hd, rfl⟩
  · exact h'
  · rcases h' with rfl | ⟨_, rfl⟩
    · exact .inr ⟨hd, rfl⟩
    · exact .inl rfl

theorem RowEnds.unique {o : EdgeOptions} {r : Row} {e f : PyKey × PyKey} (h : RowEnds o r e) (h' : RowEnds o r f) : e = f :=
  Prod.ext (h.1.unique h'.1) (h.2.unique h'.2)

theorem head?_filter_split {α : Type} {l : List α} {p : α → Bool} {x : α} (h : (l.filter p).head? = some x) :
    ∃ pre post, l = pre ++ x :: post ∧ p x = true ∧ ∀ y ∈ pre, p y = false := by
  rw [List.head?_filter, List.find?_eq_some_iff_append] at h
  obtain ⟨h1, pre, post, h2, h3⟩ := h
  exact ⟨pre, post, h2, h1, fun y hy => by simpa using h3 y hy⟩

theorem getLast?_filter_split {α : Type} {l : List α} {p : α → Bool} {x : α} (h : (l.filter p).getLast? = some x) :
    ∃ pre post, l = pre ++ x :: post ∧ p x = true ∧ ∀ y ∈ post, p y = false := by
  rw [← List.head?_reverse, ← List.filter_reverse] at h
  obtain ⟨pre, post, h1, h2, h3⟩ := head?_filter_split h
  refine ⟨post.reverse, pre.reverse, ?_, h2, fun y hy => h3 y (List.mem_reverse.1 hy)⟩
  rw [← List.reverse_reverse l, h1]
  simp

theorem rowsOf_length {o : EdgeOptions} {d : Bool} {rows : List Row} {E : List (PyKey × PyKey)}
    (hE : List.Forall₂ (RowEnds o) rows E) (u v : PyKey) :
    (rowsOf o d rows u v).length = (E.filter (fun e => decide (SameEnds d e (u, v)))).length := by
  unfold rowsOf
  induction hE with
  | nil => rfl
  | cons h1 _ ih =>
    rw [List.filter_cons, List.filter_cons]
    have : (∃ e, RowEnds o _ e ∧ SameEnds d e (u, v)) ↔ SameEnds d _ (u, v) :=
      ⟨fun ⟨e, he, hs⟩ => by rw [h1.unique he]; exact hs, fun hs => ⟨_, h1, hs⟩⟩
    simp only [this]
    split
    · rw [List.length_cons, List.length_cons, ih]
    · exact ih

theorem sameEnds_pair {d : Bool} {e : PyKey × PyKey} {u v : PyKey} (h : SameEnds d e (u, v)) :
    samePair d e.1 e.2 u v = true := by
  rw [samePair_iff]
  rcases h with rfl | ⟨hd, rfl⟩
  · exact .inl ⟨rfl, rfl⟩
  · exact .inr ⟨hd, rfl, rfl⟩

/-! ### The content of a graph read from tables -/

/-- The edge from `u` to `v` is that of the first of its rows when counting, of the last one otherwise. -/
theorem tables_edge_rows {nrows erows : List Row} {nodeCol : PyKey} {nodeData : List PyKey} {o : EdgeOptions}
    {directed : Bool} {g : Graph PyKey Data}
    (h : tablesToGraph (.rows nrows) (.rows erows) nodeCol nodeData o directed = .ok g) (u v : PyKey) :
    match (if o.countRows then (rowsOf o directed erows u v).head? else (rowsOf o directed erows u v).getLast?) with
    | none => g.keydict? u v = none
    | some row => ∃ a : Attrs Data, g.keydict? u v = some [(.int 0, a)] ∧
        ∀ k, a.get? k = if o.countRows = true ∧ k = .str o.weightAttr then
          some (.int ((rowsOf o directed erows u v).length : Int)) else columnValue o.edgeData row k := by
  obtain ⟨N, E, hN, -, hE, -, -⟩ := tables_reads h
  have hdir := (tables_class h).2.1
  have hnone : rowsOf o directed erows u v = [] → g.keydict? u v = none := by
    intro hr
    by_contra hc
    obtain ⟨e, he, hs⟩ := (tables_edges hE h u v).1 (by
      unfold Graph.hasEdge
      cases hk : g.keydict? u v with
      | none => exact absurd hk hc
      | some d => rfl)
    have := rowsOf_length (d := directed) hE u v
    rw [hr] at this
    have hm : e ∈ E.filter (fun e => decide (SameEnds directed e (u, v))) := List.mem_filter.2 ⟨he, by simpa using hs⟩
    rw [List.eq_nil_of_length_eq_zero this.symm] at hm
    cases hm
  cases hcount : o.countRows with
  | true =>
    simp only [if_true]
    cases hrow : (rowsOf o directed erows u v).head? with
    | none => exact hnone (List.head?_eq_none_iff.1 hrow)
    | some row =>
      obtain ⟨pre, post, rfl, hp, hpre⟩ := head?_filter_split hrow
      obtain ⟨Epre, e, Epost, rfl, h1, h2, h3⟩ := forall₂_split hE
      obtain ⟨e', he', hs⟩ := of_decide_eq_true hp
      rw [← h2.unique he'] at hs
      obtain ⟨a, ha, hget⟩ := tables_edge_count hcount h1 h2 h3 (fun f hf hsf => by
        obtain ⟨r, hr, hrf⟩ : ∃ r ∈ pre, RowEnds o r f := by
          obtain ⟨i, hi, rfl⟩ := List.getElem_of_mem hf
          exact ⟨pre[i]'(h1.length_eq ▸ hi), List.getElem_mem _, h1.get _ _⟩
        have := hpre r hr
        rw [decide_eq_false_iff_not] at this
        exact this ⟨f, hrf, sameEnds_trans hsf hs⟩) h
      refine ⟨a, ?_, fun k => ?_⟩
      · rw [← ha]
        exact (Graph.keydict?_samePair (by rw [hdir]; exact sameEnds_pair hs)).symm
      · rw [hget, rowsOf_length hE]
        simp only [true_and]
        have : ∀ f : PyKey × PyKey, SameEnds directed f e ↔ SameEnds directed f (u, v) :=
          fun f => ⟨fun hf => sameEnds_trans hf hs, fun hf => sameEnds_trans hf (sameEnds_symm hs)⟩
        simp only [this]
  | false =>
    simp only [Bool.false_eq_true, if_false, false_and]
    cases hrow : (rowsOf o directed erows u v).getLast? with
    | none => exact hnone (List.getLast?_eq_none_iff.1 hrow)
    | some row =>
      obtain ⟨pre, post, rfl, hp, hpost⟩ := getLast?_filter_split hrow
      obtain ⟨Epre, e, Epost, rfl, h1, h2, h3⟩ := forall₂_split hE
      obtain ⟨e', he', hs⟩ := of_decide_eq_true hp
      rw [← h2.unique he'] at hs
      obtain ⟨a, ha, hget⟩ := tables_edge_last hcount h2 h3 (fun f hf hsf => by
        obtain ⟨r, hr, hrf⟩ : ∃ r ∈ post, RowEnds o r f := by
          obtain ⟨i, hi, rfl⟩ := List.getElem_of_mem hf
          exact ⟨post[i]'(h3.length_eq ▸ hi), List.getElem_mem _, h3.get _ _⟩
        have := hpost r hr
        rw [decide_eq_false_iff_not] at this
        exact this ⟨f, hrf, sameEnds_trans hsf hs⟩) h
      refine ⟨a, ?_, hget⟩
      rw [← ha]
      exact (Graph.keydict?_samePair (by rw [hdir]; exact sameEnds_pair hs)).symm

/-- The node `n` is that of the last of its rows. -/
theorem tables_node_rows {nrows erows : List Row} {nodeCol : PyKey} {nodeData : List PyKey} {o : EdgeOptions}
    {directed : Bool} {g : Graph PyKey Data}
    (h : tablesToGraph (.rows nrows) (.rows erows) nodeCol nodeData o directed = .ok g) (n : PyKey) :
    match (nodeRowsOf nodeCol nrows n).getLast? with
    | none => g.node.get? n = if o.addMissing = true ∧ ∃ r ∈ erows, ∃ e, RowEnds o r e ∧ (n = e.1 ∨ n = e.2) then some [] else none
    | some row => ∃ a : Attrs Data, g.node.get? n = some a ∧ ∀ k, a.get? k = columnValue nodeData row k := by
  obtain ⟨N, E, hN, -, hE, -, -⟩ := tables_reads h
  cases hrow : (nodeRowsOf nodeCol nrows n).getLast? with
  | none =>
    have hr : nodeRowsOf nodeCol nrows n = [] := List.getLast?_eq_none_iff.1 hrow
    have hnN : n ∉ N := by
      intro hn
      obtain ⟨i, hi, rfl⟩ := List.getElem_of_mem hn
      have : nrows[i]'(hN.length_eq ▸ hi) ∈ nodeRowsOf nodeCol nrows N[i] :=
        List.mem_filter.2 ⟨List.getElem_mem _, decide_eq_true (hN.get (hN.length_eq ▸ hi) hi)⟩
      rw [hr] at this
      cases this
    have hiff : (∃ r ∈ erows, ∃ e, RowEnds o r e ∧ (n = e.1 ∨ n = e.2)) ↔ ∃ e ∈ E, n = e.1 ∨ n = e.2 := by
      constructor
      · rintro ⟨r, hr, e, he, hn⟩
        obtain ⟨i, hi, rfl⟩ := List.getElem_of_mem hr
        have := he.unique (hE.get hi (hE.length_eq ▸ hi))
        subst this
        exact ⟨_, List.getElem_mem _, hn⟩
      · rintro ⟨e, he, hn⟩
        obtain ⟨i, hi, rfl⟩ := List.getElem_of_mem he
        exact ⟨_, List.getElem_mem _, _, hE.get (hE.length_eq ▸ hi) hi, hn⟩
    simp only [hiff]
    split
    · rename_i hx
      exact tables_missing_node hN h ((tables_nodes hN hE h n).2 (.inr hx)) hnN
    · rename_i hx
      refine Dict.get?_eq_none_iff.2 fun hc => ?_
      rcases (tables_nodes hN hE h n).1 hc with hc | hc
      · exact hnN hc
      · exact hx hc
  | some row =>
    obtain ⟨pre, post, rfl, hp, hpost⟩ := getLast?_filter_split hrow
    obtain ⟨Npre, m, Npost, rfl, h1, h2, h3⟩ := forall₂_split hN
    refine tables_node_last (of_decide_eq_true hp) h3 (fun hm => ?_) h
    obtain ⟨i, hi, rfl⟩ := List.getElem_of_mem hm
    have := hpost _ (List.getElem_mem (h3.length_eq ▸ hi))
    rw [decide_eq_false_iff_not] at this
    exact this (h3.get _ _)

theorem sameUpToOrder_of {g h : Graph PyKey Data} (hd : g.directed = h.directed) (hm : g.multi = h.multi) (ha : g.attrs = h.attrs)
    (hn : ∀ n, (g.node.get? n = none ∧ h.node.get? n = none) ∨
      ∃ a b, g.node.get? n = some a ∧ h.node.get? n = some b ∧ Graph.DictEq a b)
    (he : ∀ u v, (g.keydict? u v = none ∧ h.keydict? u v = none) ∨
      ∃ a b, g.keydict? u v = some [(.int 0, a)] ∧ h.keydict? u v = some [(.int 0, b)] ∧ Graph.DictEq a b) :
    SameUpToOrder g h := by
  refine ⟨hd, hm, ha, ⟨fun n => ?_, fun u v => ?_⟩, ⟨fun n a h1 => ?_, fun u v k a h1 => ?_⟩⟩
  · rcases hn n with ⟨h1, h2⟩ | ⟨a, b, h1, h2, -⟩
    · exact ⟨fun h => absurd h (Dict.get?_eq_none_iff.1 h1), fun h => absurd h (Dict.get?_eq_none_iff.1 h2)⟩
    · exact ⟨fun _ => Dict.mem_keys_of_mem (Dict.mem_of_get? h2), fun _ => Dict.mem_keys_of_mem (Dict.mem_of_get? h1)⟩
  · unfold Graph.hasEdge
    rcases he u v with ⟨h1, h2⟩ | ⟨a, b, h1, h2, -⟩
    · rw [h1, h2]
    · rw [h1, h2]; rfl
  · rcases hn n with ⟨h2, -⟩ | ⟨a', b, h2, h3, h4⟩
    · rw [h1] at h2; cases h2
    · rw [h1] at h2; cases h2
      exact ⟨b, h3, h4⟩
  · unfold Graph.edge? at h1 ⊢
    rcases he u v with ⟨h2, -⟩ | ⟨a', b, h2, h3, h4⟩
    · rw [h2] at h1; cases h1
    · rw [h2] at h1
      rw [h3]
      simp only [Option.bind_some, Dict.get?_cons, Dict.get?_nil] at h1 ⊢
      split_ifs at h1 ⊢
      cases h1
      exact ⟨b, rfl, h4⟩

theorem columnValue_congr {cols : List PyKey} {r r' : Row} (h : ∀ c ∈ cols, r.item c = r'.item c) (k : PyKey) :
    columnValue cols r k = columnValue cols r' k := by
  unfold columnValue
  cases hl : (cols.filter (fun c => decide (PyKey.str c.toStr = k))).getLast? with
  | none => rfl
  | some c =>
    simp only [Option.bind_some]
    rw [h c (List.mem_filter.1 (List.mem_of_getLast? hl)).1]

theorem exists_forall₂ {α β : Type} {R : α → β → Prop} {l : List α} (h : ∀ x ∈ l, ∃ y, R x y) : ∃ m, List.Forall₂ R l m := by
  induction l with
  | nil => exact ⟨[], .nil⟩
  | cons x l ih =>
    obtain ⟨y, hy⟩ := h x (by simp)
    obtain ⟨m, hm⟩ := ih (fun z hz => h z (by simp [hz]))
    exact ⟨y :: m, .cons hy hm⟩

theorem forall₂_left {α β : Type} {R : α → β → Prop} {l : List α} {m : List β} (h : List.Forall₂ R l m) {x : α} (hx : x ∈ l) :
    ∃ y ∈ m, R x y := by
  obtain ⟨i, hi, rfl⟩ := List.getElem_of_mem hx
  exact ⟨_, List.getElem_mem (h.length_eq ▸ hi), h.get _ _⟩

theorem forall₂_right {α β : Type} {R : α → β → Prop} {l : List α} {m : List β} (h : List.Forall₂ R l m) {y : β} (hy : y ∈ m) :
    ∃ x ∈ l, R x y := by
  obtain ⟨i, hi, rfl⟩ := List.getElem_of_mem hy
  exact ⟨_, List.getElem_mem (h.length_eq ▸ hi), h.get _ _⟩

/-- A table of edges is a pair of tables without nodes. -/
theorem edgesTable_eq_tables (rows : List Row) (o : EdgeOptions) (directed : Bool) :
    edgesTableToGraph (.rows rows) o directed =
      tablesToGraph (.rows []) (.rows rows) (.str "") [] { o with addMissing := true } directed := rfl

/-- Rows in another order are accepted as well. -/
theorem tables_perm_ok {nrows nrows' erows erows' : List Row} {nodeCol : PyKey} {nodeData : List PyKey} {o o' : EdgeOptions}
    {directed : Bool} {g : Graph PyKey Data} (hNs : NodeColumnsSafe nodeData) (hEs : EdgeColumnsSafe o)
    (ho : o' = o ∨ o' = o.swap) (hn : ∀ r ∈ nrows', r ∈ nrows) (hn' : ∀ r ∈ nrows, r ∈ nrows') (he : ∀ r ∈ erows', r ∈ erows)
    (h : tablesToGraph (.rows nrows) (.rows erows) nodeCol nodeData o directed = .ok g) :
    ∃ g', tablesToGraph (.rows nrows') (.rows erows') nodeCol nodeData o' directed = .ok g' := by
  obtain ⟨N, E, hN, hNc, hE, hEc, hm⟩ := tables_reads h
  have hends : ∀ r e, RowEnds o r e → ∃ e', RowEnds o' r e' ∧ (e' = e ∨ e' = (e.2, e.1)) := by
    intro r e hr
    rcases ho with rfl | rfl
    · exact ⟨e, hr, .inl rfl⟩
    · exact ⟨(e.2, e.1), ⟨hr.2, hr.1⟩, .inr rfl⟩
  have hback : ∀ r e, RowEnds o' r e → ∃ e', RowEnds o r e' ∧ (e' = e ∨ e' = (e.2, e.1)) := by
    intro r e hr
    rcases ho with rfl | rfl
    · exact ⟨e, hr, .inl rfl⟩
    · exact ⟨(e.2, e.1), ⟨hr.2, hr.1⟩, .inr rfl⟩
  have hdata : o'.edgeData = o.edgeData := by rcases ho with rfl | rfl <;> rfl
  have hadd : o'.addMissing = o.addMissing := by rcases ho with rfl | rfl <;> rfl
  obtain ⟨N', hN'⟩ := exists_forall₂ (R := RowNode nodeCol) (l := nrows') (fun r hr =>
    (forall₂_left hN (hn r hr)).imp fun _ => And.right)
  obtain ⟨E', hE'⟩ := exists_forall₂ (R := RowEnds o') (l := erows') (fun r hr => by
    obtain ⟨e, -, hre⟩ := forall₂_left hE (he r hr)
    obtain ⟨e', h1, -⟩ := hends r e hre
    exact ⟨e', h1⟩)
  refine tables_total_add hN' (fun r hr => hNc r (hn r hr)) hNs hE' (fun r hr => by rw [hdata]; exact hEc r (he r hr)) ?_ ?_
  · rcases ho with rfl | rfl <;> exact hEs
  · cases hadd' : o.addMissing with
    | true => exact .inl (hadd.trans hadd')
    | false =>
      refine .inr fun e' hee => ?_
      obtain ⟨r, hr, hre⟩ := forall₂_right hE' hee
      obtain ⟨e, h1, h2⟩ := hback r e' hre
      obtain ⟨f, hf, hrf⟩ := forall₂_left hE (he r hr)
      have := h1.unique hrf
      subst this
      have hmem := hm hadd' e hf
      have key : ∀ n, n ∈ N → n ∈ N' := by
        intro n hnN
        obtain ⟨r', hr', hrn⟩ := forall₂_right hN hnN
        obtain ⟨n', hn'', hrn'⟩ := forall₂_left hN' (hn' r' hr')
        rwa [hrn.unique hrn']
      rcases h2 with rfl | rfl
      · exact ⟨key _ hmem.1, key _ hmem.2⟩
      · exact ⟨key _ hmem.2, key _ hmem.1⟩

/-! ### C102 -/

/-- C102.  The order of the rows of a table of nodes and of a table of edges does not matter, as long as the rows of the same
node, and those of the same edge, do not contradict one another. -/
theorem tables_perm {nrows nrows' erows erows' : List Row} {nodeCol : PyKey} {nodeData : List PyKey} {o : EdgeOptions}
    {directed : Bool} {g : Graph PyKey Data} (hNs : NodeColumnsSafe nodeData) (hEs : EdgeColumnsSafe o)
    (hn : nrows.Perm nrows') (he : erows.Perm erows') (hNa : NodeRowsAgree nodeCol nodeData nrows)
    (hEa : EdgeRowsAgree o directed erows)
    (h : tablesToGraph (.rows nrows) (.rows erows) nodeCol nodeData o directed = .ok g) :
    ∃ g', tablesToGraph (.rows nrows') (.rows erows') nodeCol nodeData o directed = .ok g' ∧ SameUpToOrder g g' := by
  obtain ⟨g', h'⟩ := tables_perm_ok hNs hEs (.inl rfl) (fun r hr => hn.mem_iff.2 hr) (fun r hr => hn.mem_iff.1 hr)
    (fun r hr => he.mem_iff.2 hr) h
  refine ⟨g', h', ?_⟩
  obtain ⟨-, d1, m1, a1⟩ := tables_class h
  obtain ⟨-, d2, m2, a2⟩ := tables_class h'
  refine sameUpToOrder_of (d1.trans d2.symm) (m1.trans m2.symm) (a1.trans a2.symm) (fun n => ?_) (fun u v => ?_)
  · have hp : (nodeRowsOf nodeCol nrows n).Perm (nodeRowsOf nodeCol nrows' n) := hn.filter _
    have k1 := tables_node_rows h n
    have k2 := tables_node_rows h' n
    cases hr : (nodeRowsOf nodeCol nrows n).getLast? with
    | none =>
      have hnil : nodeRowsOf nodeCol nrows n = [] := List.getLast?_eq_none_iff.1 hr
      rw [hnil] at hp
      rw [hr] at k1
      rw [hp.nil_eq.symm] at k2
      simp only [List.getLast?_nil, he.mem_iff] at k1 k2
      rw [← k1] at k2
      rw [k2]
      split at k1
      · exact .inr ⟨_, _, k1, k1, fun _ => rfl⟩
      · exact .inl ⟨k1, k1⟩
    | some r =>
      cases hr' : (nodeRowsOf nodeCol nrows' n).getLast? with
      | none =>
        rw [List.getLast?_eq_none_iff.1 hr'] at hp
        rw [hp.eq_nil] at hr
        cases hr
      | some r' =>
        rw [hr] at k1
        rw [hr'] at k2
        obtain ⟨a, ha, ka⟩ := k1
        obtain ⟨b, hb, kb⟩ := k2
        have m1 := List.mem_filter.1 (List.mem_of_getLast? hr)
        have m2 := List.mem_filter.1 (List.mem_of_getLast? hr')
        refine .inr ⟨a, b, ha, hb, fun k => ?_⟩
        rw [ka, kb]
        exact columnValue_congr (hNa r m1.1 r' (hn.mem_iff.2 m2.1) n (of_decide_eq_true m1.2) (of_decide_eq_true m2.2)) k
  · have hp : (rowsOf o directed erows u v).Perm (rowsOf o directed erows' u v) := he.filter _
    have k1 := tables_edge_rows h u v
    have k2 := tables_edge_rows h' u v
    have mem : ∀ {l : List Row} {r : Row}, (if o.countRows then l.head? else l.getLast?) = some r → r ∈ l := by
      intro l r hl
      split at hl
      · exact List.mem_of_head? hl
      · exact List.mem_of_getLast? hl
    have nil : ∀ {l : List Row}, (if o.countRows then l.head? else l.getLast?) = none → l = [] := by
      intro l hl
      split at hl
      · exact List.head?_eq_none_iff.1 hl
      · exact List.getLast?_eq_none_iff.1 hl
    cases hr : (if o.countRows then (rowsOf o directed erows u v).head? else (rowsOf o directed erows u v).getLast?) with
    | none =>
      rw [nil hr] at hp
      rw [hr] at k1
      rw [hp.nil_eq.symm] at k2
      exact .inl ⟨k1, by simpa using k2⟩
    | some r =>
      cases hr' : (if o.countRows then (rowsOf o directed erows' u v).head? else (rowsOf o directed erows' u v).getLast?) with
      | none =>
        have := mem hr
        rw [nil hr'] at hp
        rw [hp.eq_nil] at this
        cases this
      | some r' =>
        rw [hr] at k1
        rw [hr'] at k2
        obtain ⟨a, ha, ka⟩ := k1
        obtain ⟨b, hb, kb⟩ := k2
        have m1 := List.mem_filter.1 (mem hr)
        have m2 := List.mem_filter.1 (mem hr')
        obtain ⟨e, e1, e2⟩ := of_decide_eq_true m1.2
        obtain ⟨e', e1', e2'⟩ := of_decide_eq_true m2.2
        refine .inr ⟨a, b, ha, hb, fun k => ?_⟩
        rw [ka, kb, hp.length_eq]
        split
        · rfl
        · exact columnValue_congr (hEa r m1.1 r' (he.mem_iff.2 m2.1) e e' e1 e1' (sameEnds_trans e2 (sameEnds_symm e2'))) k

/-- C102.  The same of a table of edges alone. -/
theorem edges_table_perm {rows rows' : List Row} {o : EdgeOptions} {directed : Bool} {g : Graph PyKey Data}
    (hEs : EdgeColumnsSafe o) (he : rows.Perm rows') (hEa : EdgeRowsAgree o directed rows)
    (h : edgesTableToGraph (.rows rows) o directed = .ok g) :
    ∃ g', edgesTableToGraph (.rows rows') o directed = .ok g' ∧ SameUpToOrder g g' := by
  rw [edgesTable_eq_tables] at h ⊢
  exact tables_perm (by simp [NodeColumnsSafe]) hEs (.refl _) he (by simp [NodeRowsAgree]) hEa h

theorem rowsOf_swap (o : EdgeOptions) (directed : Bool) (rows : List Row) (u v : PyKey) :
    rowsOf o.swap directed rows u v = rowsOf o directed rows v u := by
  unfold rowsOf
  congr 1
  funext r
  congr 1
  refine propext ⟨?_, ?_⟩
  · rintro ⟨e, he, hs⟩
    refine ⟨(e.2, e.1), ⟨he.2, he.1⟩, ?_⟩
    rcases hs with rfl | ⟨hd, rfl⟩
    · exact .inl rfl
    · exact .inr ⟨hd, rfl⟩
  · rintro ⟨e, he, hs⟩
    refine ⟨(e.2, e.1), ⟨he.2, he.1⟩, ?_⟩
    rcases hs with rfl | ⟨hd, rfl⟩
    · exact .inl rfl
    · exact .inr ⟨hd, rfl⟩

theorem rowsOf_comm (o : EdgeOptions) (rows : List Row) (u v : PyKey) : rowsOf o false rows u v = rowsOf o false rows v u := by
  unfold rowsOf
  congr 1
  funext r
  congr 1
  refine propext (exists_congr fun e => and_congr_right fun _ => ?_)
  exact ⟨fun h => sameEnds_trans h (.inr ⟨rfl, rfl⟩), fun h => sameEnds_trans h (.inr ⟨rfl, rfl⟩)⟩

/-- The content of both graphs when the columns of the ends are exchanged. -/
theorem tables_swap {nrows erows : List Row} {nodeCol : PyKey} {nodeData : List PyKey} {o : EdgeOptions}
    {directed : Bool} {g g' : Graph PyKey Data}
    (h : tablesToGraph (.rows nrows) (.rows erows) nodeCol nodeData o directed = .ok g)
    (h' : tablesToGraph (.rows nrows) (.rows erows) nodeCol nodeData o.swap directed = .ok g') :
    (∀ n, (g.node.get? n = none ∧ g'.node.get? n = none) ∨
      ∃ a b, g.node.get? n = some a ∧ g'.node.get? n = some b ∧ Graph.DictEq a b) ∧
    ∀ u v, (g.keydict? u v = none ∧ g'.keydict? v u = none) ∨
      ∃ a b, g.keydict? u v = some [(.int 0, a)] ∧ g'.keydict? v u = some [(.int 0, b)] ∧ Graph.DictEq a b := by
  refine ⟨fun n => ?_, fun u v => ?_⟩
  · have k1 := tables_node_rows h n
    have k2 := tables_node_rows h' n
    cases hr : (nodeRowsOf nodeCol nrows n).getLast? with
    | none =>
      rw [hr] at k1 k2
      have hiff : (∃ r ∈ erows, ∃ e, RowEnds o.swap r e ∧ (n = e.1 ∨ n = e.2)) ↔
          ∃ r ∈ erows, ∃ e, RowEnds o r e ∧ (n = e.1 ∨ n = e.2) := by
        refine exists_congr fun r => and_congr_right fun _ => ⟨?_, ?_⟩ <;>
          exact fun ⟨e, he, hn⟩ => ⟨(e.2, e.1), ⟨he.2, he.1⟩, hn.symm⟩
      simp only [hiff] at k1 k2
      have k3 : g'.node.get? n = g.node.get? n := by rw [k1]; exact k2
      rw [k3]
      split at k1
      · exact .inr ⟨_, _, k1, k1, fun _ => rfl⟩
      · exact .inl ⟨k1, k1⟩
    | some r =>
      rw [hr] at k1 k2
      obtain ⟨a, ha, ka⟩ := k1
      obtain ⟨b, hb, kb⟩ := k2
      exact .inr ⟨a, b, ha, hb, fun k => by rw [ka, kb]⟩
  · have k1 := tables_edge_rows h u v
    have k2 := tables_edge_rows h' v u
    rw [rowsOf_swap] at k2
    cases hr : (if o.countRows then (rowsOf o directed erows u v).head? else (rowsOf o directed erows u v).getLast?) with
    | none =>
      rw [hr] at k1
      rw [show o.swap.countRows = o.countRows from rfl, hr] at k2
      exact .inl ⟨k1, k2⟩
    | some r =>
      rw [hr] at k1
      rw [show o.swap.countRows = o.countRows from rfl, hr] at k2
      obtain ⟨a, ha, ka⟩ := k1
      obtain ⟨b, hb, kb⟩ := k2
      exact .inr ⟨a, b, ha, hb, fun k => by rw [ka, kb]; rfl⟩

/-- C102.  Exchanging the columns of the ends gives the same undirected graph. -/
theorem tables_swap_undirected {nrows erows : List Row} {nodeCol : PyKey} {nodeData : List PyKey} {o : EdgeOptions}
    {g : Graph PyKey Data} (hNs : NodeColumnsSafe nodeData) (hEs : EdgeColumnsSafe o)
    (h : tablesToGraph (.rows nrows) (.rows erows) nodeCol nodeData o false = .ok g) :
    ∃ g', tablesToGraph (.rows nrows) (.rows erows) nodeCol nodeData o.swap false = .ok g' ∧ SameUpToOrder g g' := by
  obtain ⟨g', h'⟩ := tables_perm_ok hNs hEs (.inr rfl) (fun r hr => hr) (fun r hr => hr) (fun r hr => hr) h
  refine ⟨g', h', ?_⟩
  obtain ⟨-, d1, m1, a1⟩ := tables_class h
  obtain ⟨-, d2, m2, a2⟩ := tables_class h'
  refine sameUpToOrder_of (d1.trans d2.symm) (m1.trans m2.symm) (a1.trans a2.symm) (tables_swap h h').1 (fun u v => ?_)
  have := (tables_swap h h').2 u v
  rwa [Graph.keydict?_samePair (g := g') (u := v) (v := u) (x := u) (y := v) (by
    rw [d2, samePair_iff]; exact .inr ⟨rfl, rfl, rfl⟩)] at this

/-- C102.  Exchanging the columns of the ends reverses a directed graph. -/
theorem tables_swap_directed {nrows erows : List Row} {nodeCol : PyKey} {nodeData : List PyKey} {o : EdgeOptions}
    {g : Graph PyKey Data} (hNs : NodeColumnsSafe nodeData) (hEs : EdgeColumnsSafe o)
    (h : tablesToGraph (.rows nrows) (.rows erows) nodeCol nodeData o true = .ok g) :
    ∃ g', tablesToGraph (.rows nrows) (.rows erows) nodeCol nodeData o.swap true = .ok g' ∧
      (∀ n, n ∈ g.nodes ↔ n ∈ g'.nodes) ∧
      (∀ n a, g.node.get? n = some a → ∃ b, g'.node.get? n = some b ∧ Graph.DictEq a b) ∧
      (∀ u v, g.hasEdge u v = g'.hasEdge v u) ∧
      ∀ u v k a, g.edge? u v k = some a → ∃ b, g'.edge? v u k = some b ∧ Graph.DictEq a b := by
  obtain ⟨g', h'⟩ := tables_perm_ok hNs hEs (.inr rfl) (fun r hr => hr) (fun r hr => hr) (fun r hr => hr) h
  obtain ⟨hn, he⟩ := tables_swap h h'
  refine ⟨g', h', fun n => ?_, fun n a h1 => ?_, fun u v => ?_, fun u v k a h1 => ?_⟩
  · rcases hn n with ⟨h1, h2⟩ | ⟨a, b, h1, h2, -⟩
    · exact ⟨fun h => absurd h (Dict.get?_eq_none_iff.1 h1), fun h => absurd h (Dict.get?_eq_none_iff.1 h2)⟩
    · exact ⟨fun _ => Dict.mem_keys_of_mem (Dict.mem_of_get? h2), fun _ => Dict.mem_keys_of_mem (Dict.mem_of_get? h1)⟩
  · rcases hn n with ⟨h2, -⟩ | ⟨a', b, h2, h3, h4⟩
    · rw [h1] at h2; cases h2
    · rw [h1] at h2; cases h2
      exact ⟨b, h3, h4⟩
  · unfold Graph.hasEdge
    rcases he u v with ⟨h1, h2⟩ | ⟨a, b, h1, h2, -⟩
    · rw [h1, h2]
    · rw [h1, h2]; rfl
  · unfold Graph.edge? at h1 ⊢
    rcases he u v with ⟨h2, -⟩ | ⟨a', b, h2, h3, h4⟩
    · rw [h2] at h1; cases h1
    · rw [h2] at h1
      rw [h3]
      simp only [Option.bind_some, Dict.get?_cons, Dict.get?_nil] at h1 ⊢
      split_ifs at h1 ⊢
      cases h1
      exact ⟨b, rfl, h4⟩

/-- The weight of an edge read from a table, 0 if there is none. -/
def rowsWeight (o : EdgeOptions) (g : Graph PyKey Data) (u v : PyKey) : Int :=
  ((g.edge? u v (.int 0)).map (intWeight o.weightAttr)).getD 0

theorem rowsWeight_rows {nrows erows : List Row} {nodeCol : PyKey} {nodeData : List PyKey} {o : EdgeOptions}
    {directed : Bool} {g : Graph PyKey Data} (hc : o.countRows = true)
    (h : tablesToGraph (.rows nrows) (.rows erows) nodeCol nodeData o directed = .ok g) (u v : PyKey) :
    rowsWeight o g u v = (rowsOf o directed erows u v).length := by
  have k := tables_edge_rows h u v
  simp only [hc, if_true, true_and] at k
  unfold rowsWeight Graph.edge?
  cases hr : (rowsOf o directed erows u v).head? with
  | none =>
    rw [hr] at k
    simp only at k
    rw [k, List.head?_eq_none_iff.1 hr]
    rfl
  | some r =>
    rw [hr] at k
    obtain ⟨a, ha, hk⟩ := k
    rw [ha]
    simp only [Option.bind_some, Dict.get?_cons, if_true, Option.map_some, Option.getD_some]
    unfold intWeight
    rw [hk, if_pos rfl]

/-- C102.  When counting rows, the weights of the graph of two tables of edges put one after the other are the sums of both
weights, and whichever comes first. -/
theorem tables_append_weight {nrows erows erows' : List Row} {nodeCol : PyKey} {nodeData : List PyKey} {o : EdgeOptions}
    {directed : Bool} {g g' g'' : Graph PyKey Data} (hc : o.countRows = true)
    (h : tablesToGraph (.rows nrows) (.rows erows) nodeCol nodeData o directed = .ok g)
    (h' : tablesToGraph (.rows nrows) (.rows erows') nodeCol nodeData o directed = .ok g')
    (h'' : tablesToGraph (.rows nrows) (.rows (erows ++ erows')) nodeCol nodeData o directed = .ok g'') (u v : PyKey) :
    rowsWeight o g'' u v = rowsWeight o g u v + rowsWeight o g' u v := by
  rw [rowsWeight_rows hc h, rowsWeight_rows hc h', rowsWeight_rows hc h'']
  unfold rowsOf
  rw [List.filter_append, List.length_append]
  push_cast
  rfl

/-- C102.  Otherwise the edges of the second table replace those of the first. -/
theorem tables_append_last {nrows erows erows' : List Row} {nodeCol : PyKey} {nodeData : List PyKey} {o : EdgeOptions}
    {directed : Bool} {g g' g'' : Graph PyKey Data} (hc : o.countRows = false)
    (h : tablesToGraph (.rows nrows) (.rows erows) nodeCol nodeData o directed = .ok g)
    (h' : tablesToGraph (.rows nrows) (.rows erows') nodeCol nodeData o directed = .ok g')
    (h'' : tablesToGraph (.rows nrows) (.rows (erows ++ erows')) nodeCol nodeData o directed = .ok g'') (u v : PyKey) :
    (g''.hasEdge u v = (g.hasEdge u v || g'.hasEdge u v)) ∧
    (∀ a, g'.edge? u v (.int 0) = some a → ∃ b, g''.edge? u v (.int 0) = some b ∧ Graph.DictEq a b) ∧
    (g'.hasEdge u v = false → ∀ a, g.edge? u v (.int 0) = some a → ∃ b, g''.edge? u v (.int 0) = some b ∧ Graph.DictEq a b) := by
  have k := tables_edge_rows h u v
  have k' := tables_edge_rows h' u v
  have k'' := tables_edge_rows h'' u v
  simp only [hc, Bool.false_eq_true, if_false, false_and] at k k' k''
  have happ : rowsOf o directed (erows ++ erows') u v = rowsOf o directed erows u v ++ rowsOf o directed erows' u v :=
    List.filter_append ..
  rw [happ, List.getLast?_append] at k''
  unfold Graph.hasEdge Graph.edge?
  cases hr' : (rowsOf o directed erows' u v).getLast? with
  | some r' =>
    rw [hr'] at k' k''
    obtain ⟨a', ha', hk'⟩ := k'
    obtain ⟨a'', ha'', hk''⟩ := k''
    rw [ha', ha'']
    refine ⟨by simp, fun a ha => ?_, fun hf => by simp at hf⟩
    simp only [Option.bind_some, Dict.get?_cons, if_true, Option.some.injEq] at ha ⊢
    subst ha
    exact ⟨_, rfl, fun k => by rw [hk', hk'']⟩
  | none =>
    rw [hr'] at k' k''
    simp only [Option.none_or] at k' k''
    rw [k']
    refine ⟨?_, fun a ha => by simp at ha, fun _ a ha => ?_⟩
    · cases hr : (rowsOf o directed erows u v).getLast? with
      | none =>
        rw [hr] at k k''
        simp only at k k''
        rw [k, k'']; rfl
      | some r =>
        rw [hr] at k k''
        obtain ⟨a, ha, -⟩ := k
        obtain ⟨b, hb, -⟩ := k''
        rw [ha, hb]; rfl
    · cases hr : (rowsOf o directed erows u v).getLast? with
      | none =>
        rw [hr] at k
        simp only at k
        rw [k] at ha; cases ha
      | some r =>
        rw [hr] at k k''
        obtain ⟨a1, ha1, hk1⟩ := k
        obtain ⟨b, hb, hk2⟩ := k''
        rw [ha1] at ha
        rw [hb]
        simp only [Option.bind_some, Dict.get?_cons, if_true, Option.some.injEq] at ha ⊢
        subst ha
        exact ⟨_, rfl, fun k => by rw [hk1, hk2]⟩

end Pelote
