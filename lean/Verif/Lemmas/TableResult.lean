import Verif.Lemmas.EdgeTable

/-! The graph made from tables, in terms of the rows. -/
namespace Pelote

theorem samePair_sameEnds {d : Bool} {a b x y : PyKey} :
    samePair d a b x y = true ↔ SameEnds d (a, b) (x, y) := by
  rw [samePair_iff]
  simp [SameEnds]

theorem RowNode.unique {col : PyKey} {row : Row} {m n : PyKey} (h : RowNode col row m) (h' : RowNode col row n) :
    m = n := by
  obtain ⟨v, h1, h2⟩ := h
  obtain ⟨w, h3, h4⟩ := h'
  rw [h1] at h3; cases h3
  rw [h2] at h4; cases h4
  rfl

theorem rowEnds_of_edgeRows {o : EdgeOptions} {rows : List Row} {S : List (PyKey × PyKey × Attrs Data)}
    (h : List.Forall₂ (EdgeRow o) rows S) : List.Forall₂ (RowEnds o) rows (S.map (fun e => (e.1, e.2.1))) := by
  induction h with
  | nil => exact .nil
  | cons hd _ ih => exact .cons hd.ends ih

theorem hasColumns_of_edgeRows {o : EdgeOptions} {rows : List Row} {S : List (PyKey × PyKey × Attrs Data)}
    (h : List.Forall₂ (EdgeRow o) rows S) : ∀ row ∈ rows, HasColumns o.edgeData row := by
  induction h with
  | nil => intro row hr; cases hr
  | cons hd _ ih =>
    intro row hr
    rcases List.mem_cons.1 hr with rfl | hr
    · exact (rowData_ok _).1 ⟨_, hd.data⟩
    · exact ih row hr

theorem rowEnds_unique {o : EdgeOptions} {rows : List Row} {E F : List (PyKey × PyKey)}
    (h : List.Forall₂ (RowEnds o) rows E) (h' : List.Forall₂ (RowEnds o) rows F) : E = F := by
  induction h generalizing F with
  | nil => cases h'; rfl
  | cons hd _ ih =>
    cases h' with
    | cons hd' ht' =>
      rw [ih ht']
      congr 1
      exact Prod.ext (hd.1.unique hd'.1) (hd.2.unique hd'.2)

theorem edgeRows_exist {o : EdgeOptions} {rows : List Row} {E : List (PyKey × PyKey)}
    (h : List.Forall₂ (RowEnds o) rows E) (hc : ∀ row ∈ rows, HasColumns o.edgeData row) :
    ∃ S, List.Forall₂ (EdgeRow o) rows S ∧ E = S.map (fun e => (e.1, e.2.1)) := by
  induction h with
  | nil => exact ⟨[], .nil, rfl⟩
  | cons hd _ ih =>
    rename_i row e rows E _h
    obtain ⟨S, hS, hE⟩ := ih (fun r hr => hc r (List.mem_cons_of_mem _ hr))
    obtain ⟨d, hd'⟩ := (rowData_ok (row := row) (cols := o.edgeData) []).2 (hc row List.mem_cons_self)
    exact ⟨(e.1, e.2, d) :: S, .cons ⟨hd, hd'⟩ hS, by rw [List.map_cons, ← hE]⟩

theorem nodeRows_exist {col : PyKey} {cols : List PyKey} {rows : List Row} {N : List PyKey}
    (h : List.Forall₂ (RowNode col) rows N) (hc : ∀ row ∈ rows, HasColumns cols row) :
    ∃ S, List.Forall₂ (NodeRow col cols) rows S ∧ N = S.map Prod.fst := by
  induction h with
  | nil => exact ⟨[], .nil, rfl⟩
  | cons hd _ ih =>
    rename_i row n rows N _h
    obtain ⟨S, hS, hN⟩ := ih (fun r hr => hc r (List.mem_cons_of_mem _ hr))
    obtain ⟨d, hd'⟩ := (rowData_ok (row := row) (cols := cols) []).2 (hc row List.mem_cons_self)
    exact ⟨(n, d) :: S, .cons ⟨hd, hd'⟩ hS, by rw [List.map_cons, ← hN]⟩

theorem rowNodes_of_nodeRows {col : PyKey} {cols : List PyKey} {rows : List Row} {S : List (PyKey × Attrs Data)}
    (h : List.Forall₂ (NodeRow col cols) rows S) :
    List.Forall₂ (RowNode col) rows (S.map Prod.fst) ∧ ∀ row ∈ rows, HasColumns cols row := by
  induction h with
  | nil => exact ⟨.nil, fun row hr => by cases hr⟩
  | cons hd _ ih =>
    refine ⟨.cons hd.node ih.1, ?_⟩
    intro row hr
    rcases List.mem_cons.1 hr with rfl | hr
    · exact (rowData_ok _).1 ⟨_, hd.data⟩
    · exact ih.2 row hr

theorem rowNodes_unique {col : PyKey} {rows : List Row} {M N : List PyKey}
    (h : List.Forall₂ (RowNode col) rows M) (h' : List.Forall₂ (RowNode col) rows N) : M = N := by
  induction h generalizing N with
  | nil => cases h'; rfl
  | cons hd _ ih =>
    cases h' with
    | cons hd' ht' => rw [ih ht', hd.unique hd']

/-- A successful run, and the nodes it needed. -/
theorem edgesLoop_ok {o : EdgeOptions} {g0 g g' : Graph PyKey Data} {rows : List Row}
    {S T : List (PyKey × PyKey × Attrs Data)} (h : List.Forall₂ (EdgeRow o) rows T) (hi : EInv o g0 S g)
    (hu : Uniform o (S ++ T)) (he : edgesLoop o rows g = .ok g') :
    EInv o g0 (S ++ T) g' ∧
      (o.addMissing = false → (∀ n ∈ g.nodes, n ∈ g0.nodes) →
        (∀ e ∈ T, e.1 ∈ g0.nodes ∧ e.2.1 ∈ g0.nodes) ∧ ∀ n ∈ g'.nodes, n ∈ g0.nodes) := by
  induction h generalizing S g with
  | nil =>
    cases he
    rw [List.append_nil]
    exact ⟨hi, fun _ hn => ⟨by simp, hn⟩⟩
  | cons hd _ ih =>
    rename_i row e rows T _h
    have hm : o.addMissing = true ∨ (e.1 ∈ g.nodes ∧ e.2.1 ∈ g.nodes) := by
      by_cases ho : o.addMissing = true
      · exact .inl ho
      · right
        by_contra hne
        rw [edgesLoop_missing hd g (by simpa using ho) hne] at he
        cases he
    rw [edgesLoop_row hd g hm] at he
    split at he
    · cases he
    rename_i g1 h1
    have hu' : Uniform o ((S ++ [e]) ++ T) := by rw [List.append_assoc]; exact hu
    obtain ⟨i1, i2⟩ := ih (hi.step (fun x hx => hu' x (List.mem_append_left _ hx)) h1) hu' he
    rw [List.append_assoc] at i1
    refine ⟨i1, fun ho hn => ?_⟩
    have hc := addTableEdge_core hi.nodes.multi hi.counted h1
    have hend : e.1 ∈ g0.nodes ∧ e.2.1 ∈ g0.nodes := by
      rcases hm with hm | hm
      · rw [ho] at hm; cases hm
      · exact ⟨hn _ hm.1, hn _ hm.2⟩
    obtain ⟨j1, j2⟩ := i2 ho (by
      intro n hx
      rw [hc, Graph.mem_nodes_addEdgeCore] at hx
      rcases hx with hx | rfl | rfl
      · exact hn n hx
      · exact hend.1
      · exact hend.2)
    refine ⟨?_, j2⟩
    intro f hf
    rcases List.mem_cons.1 hf with rfl | hf
    · exact hend
    · exact j1 f hf

/-! ### The edges -/

theorem pairRows_eq_nil_iff {d : Bool} {x y : PyKey} {S : List (PyKey × PyKey × Attrs Data)} :
    pairRows d x y S = [] ↔ ∀ e ∈ S, ¬ SameEnds d (e.1, e.2.1) (x, y) := by
  unfold pairRows
  rw [List.filter_eq_nil_iff]
  simp only [samePair_sameEnds]

theorem EInv.hasEdge_iff {o : EdgeOptions} {g0 g : Graph PyKey Data} {S : List (PyKey × PyKey × Attrs Data)}
    (h : EInv o g0 S g) (u v : PyKey) :
    g.hasEdge u v = true ↔ ∃ e ∈ S.map (fun e => (e.1, e.2.1)), SameEnds g0.directed e (u, v) := by
  have h1 : (∃ e ∈ S.map (fun e => (e.1, e.2.1)), SameEnds g0.directed e (u, v)) ↔
      ∃ e ∈ S, samePair g.directed e.1 e.2.1 u v = true := by
    rw [h.nodes.directed]
    simp only [samePair_sameEnds]
    constructor
    · rintro ⟨e, he, hs⟩
      obtain ⟨f, hf, rfl⟩ := List.mem_map.1 he
      exact ⟨f, hf, hs⟩
    · rintro ⟨f, hf, hs⟩
      exact ⟨_, List.mem_map.2 ⟨f, hf, rfl⟩, hs⟩
  rw [h1]
  cases hc : o.countRows with
  | true => exact (h.counted hc).hasEdge_iff u v
  | false =>
    have hl := h.latest hc
    unfold Graph.hasEdge
    cases hp : (pairRows g.directed u v S).getLast? with
    | none =>
      rw [hl.no u v hp]
      simp only [Option.isSome_none, Bool.false_eq_true, false_iff]
      rintro ⟨e, he, hs⟩
      rw [List.getLast?_eq_none_iff] at hp
      have : e ∈ pairRows g.directed u v S := List.mem_filter.2 ⟨he, hs⟩
      rw [hp] at this; cases this
    | some e =>
      obtain ⟨a, ha, _⟩ := hl.yes u v e hp
      rw [ha]
      simp only [Option.isSome_some, true_iff]
      have := List.mem_filter.1 (List.mem_of_getLast? hp)
      exact ⟨e, this.1, this.2⟩

theorem EInv.last {o : EdgeOptions} {g0 g : Graph PyKey Data} {T U : List (PyKey × PyKey × Attrs Data)}
    {e : PyKey × PyKey × Attrs Data} (h : EInv o g0 (T ++ e :: U) g) (hc : o.countRows = false)
    (hU : ∀ f ∈ U, ¬ SameEnds g0.directed (f.1, f.2.1) (e.1, e.2.1)) :
    ∃ a : Attrs Data, g.keydict? e.1 e.2.1 = some [(.int 0, a)] ∧ ∀ k, a.get? k = e.2.2.get? k := by
  apply (h.latest hc).yes
  have e1 : pairRows g.directed e.1 e.2.1 U = [] := by
    rw [pairRows_eq_nil_iff, h.nodes.directed]; exact hU
  have e2 : pairRows g.directed e.1 e.2.1 (e :: U) = [e] := by
    have : pairRows g.directed e.1 e.2.1 (e :: U) = e :: pairRows g.directed e.1 e.2.1 U := by
      unfold pairRows
      rw [List.filter_cons, if_pos (samePair_refl _ _ _)]
    rw [this, e1]
  rw [pairRows_append, e2]
  simp

theorem EInv.first {o : EdgeOptions} {g0 g : Graph PyKey Data} {T U : List (PyKey × PyKey × Attrs Data)}
    {e : PyKey × PyKey × Attrs Data} (h : EInv o g0 (T ++ e :: U) g) (hc : o.countRows = true)
    (hT : ∀ f ∈ T, ¬ SameEnds g0.directed (f.1, f.2.1) (e.1, e.2.1)) :
    g.keydict? e.1 e.2.1 = some [(.int 0, e.2.2.set (.str o.weightAttr)
      (.int (((((T ++ e :: U).map (fun e => (e.1, e.2.1))).filter
        (fun f => decide (SameEnds g0.directed f (e.1, e.2.1)))).length : Nat) : Int)))] := by
  rw [(h.counted hc).edges]
  unfold expectedCount
  have e1 : pairRows g.directed e.1 e.2.1 T = [] := by
    rw [pairRows_eq_nil_iff, h.nodes.directed]; exact hT
  have e2 : pairRows g.directed e.1 e.2.1 (T ++ e :: U) = e :: pairRows g.directed e.1 e.2.1 U := by
    rw [pairRows_append, e1, List.nil_append]
    unfold pairRows
    rw [List.filter_cons, if_pos (samePair_refl _ _ _)]
  have e3 : (((T ++ e :: U).map (fun e => (e.1, e.2.1))).filter
        (fun f => decide (SameEnds g0.directed f (e.1, e.2.1)))).length =
      (pairRows g.directed e.1 e.2.1 (T ++ e :: U)).length := by
    rw [List.filter_map, List.length_map]
    unfold pairRows
    congr 1
    apply List.filter_congr
    intro f _
    rw [h.nodes.directed, Bool.eq_iff_iff]
    simp only [Function.comp_apply, decide_eq_true_eq]
    rw [samePair_sameEnds]
  rw [e3, e2]
  rfl

end Pelote
