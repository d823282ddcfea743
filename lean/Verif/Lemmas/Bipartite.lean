import Verif.Spec.Tabular
import Verif.Lemmas.Tabular
import Verif.Lemmas.Register

/-! Lemmas about `table_to_bipartite_graph`. -/
namespace Pelote

/-- One row, once the nodes are known. -/
structure BStep where
  row : Row
  l1 : PyKey
  l2 : PyKey
  n1 : PyKey
  n2 : PyKey

/-- The rows one by one, once the nodes are known. -/
def stepsLoop (o : BipartiteOptions) : List BStep → Graph PyKey Data → Py (Graph PyKey Data)
  | [], g => .ok g
  | t :: T, g =>
    match bipartiteRow o t.row t.l1 t.l2 t.n1 t.n2 g with
    | .error e => .error e
    | .ok g => stepsLoop o T g

theorem stepsLoop_append (o : BipartiteOptions) (T U : List BStep) (g : Graph PyKey Data) :
    stepsLoop o (T ++ U) g = match stepsLoop o T g with
      | .error e => .error e
      | .ok g => stepsLoop o U g := by
  induction T generalizing g with
  | nil => rfl
  | cons t T ih =>
    rw [List.cons_append, stepsLoop.eq_2, stepsLoop.eq_2]
    cases bipartiteRow o t.row t.l1 t.l2 t.n1 t.n2 g with
    | error e => rfl
    | ok g => exact ih g

/-! ### The nodes -/

/-- The steps of a table, given the node of each value. -/
def mkSteps (o : BipartiteOptions) (node : PyKey → PyKey → PyKey) : List Row → List (PyKey × PyKey) → List BStep
  | row :: rows, c :: cells =>
    ⟨row, c.1, c.2, node o.firstCol c.1, node o.secondCol c.2⟩ :: mkSteps o node rows cells
  | _, _ => []

theorem rowLabels_cells {o : BipartiteOptions} {row : Row} {c : PyKey × PyKey} (h : RowCells o row c) :
    ∃ v1 v2, rowLabels o row = .ok (v1, v2) ∧ (if o.disjointKeys then v1.asNode else v1.asHashable) = .ok c.1 ∧
      (if o.disjointKeys then v2.asNode else v2.asHashable) = .ok c.2 := by
  obtain ⟨⟨v1, h1, h2⟩, v2, h3, h4⟩ := h
  refine ⟨v1, v2, ?_, h2, h4⟩
  unfold rowLabels
  simp only [h1, h3]

theorem loop_disjoint {o : BipartiteOptions} (ho : o.disjointKeys = true) {rows : List Row}
    {cells : List (PyKey × PyKey)} (h : List.Forall₂ (RowCells o) rows cells) (reg : IdRegister (PyKey × PyKey))
    (g : Graph PyKey Data) :
    bipartiteLoop o rows reg g = stepsLoop o (mkSteps o (fun _ v => v) rows cells) g := by
  induction h generalizing reg g with
  | nil => rfl
  | cons hd _ ih =>
    obtain ⟨v1, v2, h1, h2, h3⟩ := rowLabels_cells hd
    rw [if_pos ho] at h2 h3
    unfold bipartiteLoop mkSteps stepsLoop
    simp only [h1, if_pos ho, h2, h3]
    split
    · rename_i e; rw [e]
    · rename_i e; rw [e]; exact ih _ _

theorem loop_ids {o : BipartiteOptions} (ho : o.disjointKeys = false) {rows : List Row}
    {cells : List (PyKey × PyKey)} (h : List.Forall₂ (RowCells o) rows cells) {reg : IdRegister (PyKey × PyKey)}
    {seen : List (PyKey × PyKey)} (hr : reg.Inv seen) (g : Graph PyKey Data) :
    bipartiteLoop o rows reg g = stepsLoop o (mkSteps o (fun col v =>
      .int (rankIn ((tagged o cells).foldl showKey seen) (col, v))) rows cells) g := by
  induction h generalizing reg g seen with
  | nil => rfl
  | cons hd _ ih =>
    rename_i row c rows cells _h
    obtain ⟨v1, v2, h1, h2, h3⟩ := rowLabels_cells hd
    simp only [ho, Bool.false_eq_true, if_false] at h2 h3
    obtain ⟨a1, a2⟩ := hr.lookup (o.firstCol, c.1)
    obtain ⟨b1, b2⟩ := a2.lookup (o.secondCol, c.2)
    have hfold : (tagged o (c :: cells)).foldl showKey seen =
        (tagged o cells).foldl showKey (showKey (showKey seen (o.firstCol, c.1)) (o.secondCol, c.2)) := rfl
    have e1 : rankIn ((tagged o (c :: cells)).foldl showKey seen) (o.firstCol, c.1) =
        (reg.lookup (o.firstCol, c.1)).1 := by
      rw [hfold]; unfold rankIn
      rw [idxOf_foldl_showKey (mem_showKey.2 (.inl (mem_showKey.2 (.inr rfl)))),
        idxOf_showKey (mem_showKey.2 (.inr rfl)), a1]
    have e2 : rankIn ((tagged o (c :: cells)).foldl showKey seen) (o.secondCol, c.2) =
        ((reg.lookup (o.firstCol, c.1)).2.lookup (o.secondCol, c.2)).1 := by
      rw [hfold]; unfold rankIn
      rw [idxOf_foldl_showKey (mem_showKey.2 (.inr rfl)), b1]
    unfold bipartiteLoop mkSteps stepsLoop
    simp only [h1, ho, Bool.false_eq_true, if_false, h2, h3, e1, e2]
    split
    · rename_i e; rw [e]
    · rename_i e; rw [e]
      simp only
      rw [hfold]
      exact ih b2 _

theorem loop_eq {o : BipartiteOptions} {rows : List Row} {cells : List (PyKey × PyKey)}
    (h : List.Forall₂ (RowCells o) rows cells) (g : Graph PyKey Data) :
    bipartiteLoop o rows IdRegister.init g = stepsLoop o (mkSteps o (partNode o cells) rows cells) g := by
  by_cases ho : o.disjointKeys = true
  · rw [loop_disjoint ho h]
    congr 2
    funext _ v
    unfold partNode
    rw [if_pos ho]
  · have ho' : o.disjointKeys = false := by simpa using ho
    rw [loop_ids ho' h IdRegister.Inv.init]
    congr 2
    funext _ v
    unfold partNode
    rw [if_neg ho]

/-- A successful run found both values in each row. -/
theorem loop_cells {o : BipartiteOptions} {rows : List Row} {reg : IdRegister (PyKey × PyKey)}
    {g g' : Graph PyKey Data} (h : bipartiteLoop o rows reg g = .ok g') :
    ∃ cells, List.Forall₂ (RowCells o) rows cells := by
  induction rows generalizing reg g with
  | nil => exact ⟨[], .nil⟩
  | cons row rows ih =>
    unfold bipartiteLoop at h
    cases hl : rowLabels o row with
    | error e => rw [hl] at h; cases h
    | ok p =>
      obtain ⟨v1, v2⟩ := p
      rw [hl] at h
      have hi : row.item o.firstCol = .ok v1 ∧ row.item o.secondCol = .ok v2 := by
        unfold rowLabels at hl
        cases h1 : row.item o.firstCol with
        | error e => rw [h1] at hl; cases e <;> cases hl
        | ok x =>
          rw [h1] at hl
          cases h2 : row.item o.secondCol with
          | error e => rw [h2] at hl; cases e <;> cases hl
          | ok y => rw [h2] at hl; cases hl; exact ⟨rfl, rfl⟩
      by_cases ho : o.disjointKeys = true
      · simp only [if_pos ho] at h
        cases h1 : v1.asNode with
        | error e => rw [h1] at h; cases h
        | ok n1 =>
          cases h2 : v2.asNode with
          | error e => rw [h1, h2] at h; cases h
          | ok n2 =>
            rw [h1, h2] at h
            simp only at h
            split at h
            · cases h
            · obtain ⟨cells, hc⟩ := ih h
              exact ⟨(n1, n2) :: cells, .cons ⟨⟨v1, hi.1, by rw [if_pos ho]; exact h1⟩,
                ⟨v2, hi.2, by rw [if_pos ho]; exact h2⟩⟩ hc⟩
      · simp only [if_neg ho] at h
        cases h1 : v1.asHashable with
        | error e => rw [h1] at h; cases h
        | ok n1 =>
          cases h2 : v2.asHashable with
          | error e => rw [h1, h2] at h; cases h
          | ok n2 =>
            rw [h1, h2] at h
            simp only at h
            split at h
            · cases h
            · obtain ⟨cells, hc⟩ := ih h
              exact ⟨(n1, n2) :: cells, .cons ⟨⟨v1, hi.1, by rw [if_neg ho]; exact h1⟩,
                ⟨v2, hi.2, by rw [if_neg ho]; exact h2⟩⟩ hc⟩

/-! ### The graph -/

theorem checkKwargs_ok_iff {A : Type} {reserved : List String} {a : Attrs A} :
    Graph.checkKwargs reserved a = .ok () ↔ ∀ k ∈ a.keys, ∃ s, k = .str s ∧ s ∉ reserved := by
  constructor
  · intro h
    unfold Graph.checkKwargs at h
    split at h
    · rename_i h1
      split at h
      · cases h
      · rename_i h2
        intro k hk
        obtain ⟨p, hp, rfl⟩ := List.mem_map.1 hk
        have := List.all_eq_true.1 h1 p hp
        obtain ⟨k, v⟩ := p
        cases k with
        | str s =>
          refine ⟨s, rfl, ?_⟩
          intro hs
          apply h2
          rw [List.any_eq_true]
          refine ⟨_, hp, ?_⟩
          rw [List.any_eq_true]
          exact ⟨s, hs, by simp⟩
        | _ => simp [PyKey.isStr] at this
    · cases h
  · exact Graph.checkKwargs_ok

theorem addNode_ok_iff {A : Type} {g g' : Graph PyKey A} {n : PyKey} {a : Attrs A} :
    g.addNode n a = .ok g' ↔ Graph.NodeKwSafe a ∧ g' = g.addNodeCore n a := by
  unfold Graph.addNode
  cases h : Graph.checkKwargs ["self", "node_for_adding"] a with
  | error e =>
    constructor
    · intro hx; cases hx
    · rintro ⟨h1, _⟩
      rw [Graph.checkKwargs_ok h1] at h; cases h
  | ok u =>
    constructor
    · intro hx; cases hx; exact ⟨checkKwargs_ok_iff.1 h, rfl⟩
    · rintro ⟨_, rfl⟩; rfl

theorem addEdge_simple_ok_iff {g g' : Graph PyKey Data} (hm : g.multi = false) {u v : PyKey} {a : Attrs Data} :
    g.addEdge u v a = .ok g' ↔ Graph.EdgeKwSafe false a ∧ g' = g.addEdgeCore u v none a := by
  unfold Graph.addEdge
  rw [hm]
  simp only [Bool.false_eq_true, if_false]
  cases h : Graph.checkKwargs ["self", "u_of_edge", "v_of_edge"] a with
  | error e =>
    constructor
    · intro hx; cases hx
    · rintro ⟨h1, _⟩
      have := Graph.checkKwargs_ok h1
      rw [if_neg (by simp)] at this
      rw [this] at h; cases h
  | ok u =>
    constructor
    · intro hx; cases hx; exact ⟨checkKwargs_ok_iff.1 h, rfl⟩
    · rintro ⟨_, rfl⟩; rfl

theorem keydict?_addNodeCore {A : Type} (g : Graph PyKey A) (n : PyKey) (a : Attrs A) (x y : PyKey) :
    (g.addNodeCore n a).keydict? x y = g.keydict? x y := rfl

theorem mem_nodes_addNodeCore {A : Type} {g : Graph PyKey A} {n x : PyKey} {a : Attrs A} :
    x ∈ (g.addNodeCore n a).nodes ↔ x ∈ g.nodes ∨ x = n := by
  rw [Graph.nodes_addNodeCore]
  split
  · constructor
    · exact .inl
    · rintro (h | rfl) <;> assumption
  · simp

theorem Counted.addNodeCore {g : Graph PyKey Data} {w : String} {S : List (PyKey × PyKey × Attrs Data)}
    (h : Counted g w S) (n : PyKey) (a : Attrs Data) : Counted (g.addNodeCore n a) w S :=
  ⟨h.wf.addNodeCore n a, h.multi, h.edges, h.nodup⟩

/-- What `addPartNode` does. -/
theorem addPartNode_ok {g g' : Graph PyKey Data} {n : PyKey} {attr : Py (Attrs Data)}
    (h : addPartNode g n attr = .ok g') :
    (n ∈ g.nodes ∧ g' = g) ∨ (n ∉ g.nodes ∧ ∃ a, attr = .ok a ∧ Graph.NodeKwSafe a ∧ g' = g.addNodeCore n a) := by
  unfold addPartNode at h
  split at h
  · rename_i hn; cases h
    exact .inl ⟨Graph.hasNode_iff.1 hn, rfl⟩
  · rename_i hn
    refine .inr ⟨fun hc => hn (Graph.hasNode_iff.2 hc), ?_⟩
    cases attr with
    | error e => cases h
    | ok a =>
      obtain ⟨h1, h2⟩ := addNode_ok_iff.1 h
      exact ⟨a, rfl, h1, h2⟩

theorem addPartNode_total {g : Graph PyKey Data} {n : PyKey} {attr : Py (Attrs Data)}
    (h : n ∉ g.nodes → ∃ a, attr = .ok a ∧ Graph.NodeKwSafe a) : ∃ g', addPartNode g n attr = .ok g' := by
  unfold addPartNode
  split
  · exact ⟨_, rfl⟩
  · rename_i hn
    obtain ⟨a, rfl, h2⟩ := h (fun hc => hn (Graph.hasNode_iff.2 hc))
    exact ⟨_, addNode_ok_iff.2 ⟨h2, rfl⟩⟩

/-- Facts about a graph after `addPartNode`. -/
theorem addPartNode_facts {g g' : Graph PyKey Data} {n : PyKey} {attr : Py (Attrs Data)}
    (h : addPartNode g n attr = .ok g') {w : String} {S : List (PyKey × PyKey × Attrs Data)} (hc : Counted g w S) :
    Counted g' w S ∧ g'.directed = g.directed ∧ g'.attrs = g.attrs ∧ (∀ x, x ∈ g'.nodes ↔ x ∈ g.nodes ∨ x = n) ∧
      (∀ x ∈ g.nodes, g'.node.get? x = g.node.get? x) ∧
      (n ∉ g.nodes → ∃ a, attr = .ok a ∧ g'.node.get? n = some (Dict.update [] a)) := by
  rcases addPartNode_ok h with ⟨hn, rfl⟩ | ⟨hn, a, ha, hs, rfl⟩
  · refine ⟨hc, rfl, rfl, ?_, fun _ _ => rfl, fun h => absurd hn h⟩
    intro x; constructor
    · exact .inl
    · rintro (h | rfl) <;> assumption
  · refine ⟨hc.addNodeCore n a, rfl, rfl, fun x => mem_nodes_addNodeCore, ?_, ?_⟩
    · intro x hx
      rw [Graph.get?_addNodeCore, if_neg]
      rintro rfl; exact hn hx
    · intro _
      refine ⟨a, ha, ?_⟩
      rw [Graph.get?_addNodeCore, if_pos rfl]
      have : g.node.get? n = none := Dict.get?_eq_none_iff.2 hn
      rw [this]; rfl

/-- The graph after some rows. -/
structure BInv (o : BipartiteOptions) (T : List BStep) (g : Graph PyKey Data) : Prop where
  counted : Counted g o.edgeWeightAttr (T.map (fun t => (t.n1, t.n2, [])))
  directed : g.directed = false
  attrs : g.attrs = []
  nodes : ∀ n, n ∈ g.nodes ↔ ∃ t ∈ T, n = t.n1 ∨ n = t.n2

theorem BInv.empty (o : BipartiteOptions) : BInv o [] (Graph.empty false false []) where
  counted := ⟨Graph.WF.empty _ _ _ .nil, rfl, fun _ _ => rfl, by simp⟩
  directed := rfl
  attrs := rfl
  nodes := by simp [Graph.empty, Graph.nodes, Dict.keys]

theorem countRow_ok {g g' : Graph PyKey Data} {w : String} {S : List (PyKey × PyKey × Attrs Data)} (h : Counted g w S)
    {n1 n2 : PyKey} {d : Attrs Data} (hx : countRow g n1 n2 d w = .ok g') :
    g' = g.addEdgeCore n1 n2 none (countAttrs g n1 n2 d w S) := by
  rw [countRow_eq h] at hx
  split at hx
  · cases hx; rfl
  · exact ((addEdge_simple_ok_iff h.multi).1 hx).2

theorem bipartiteRow_facts {o : BipartiteOptions} {T : List BStep} {g g' : Graph PyKey Data} (hi : BInv o T g)
    {t : BStep} (h : bipartiteRow o t.row t.l1 t.l2 t.n1 t.n2 g = .ok g') :
    BInv o (T ++ [t]) g' ∧ (∀ x ∈ g.nodes, g'.node.get? x = g.node.get? x) ∧
      (t.n1 ∉ g.nodes → ∃ a, partAttributes o.nodePartAttr (o.firstName.getD o.firstCol) t.l1 o.firstData t.row = .ok a ∧
        g'.node.get? t.n1 = some (Dict.update [] a)) ∧
      (t.n2 ∉ g.nodes → t.n2 ≠ t.n1 →
        ∃ a, partAttributes o.nodePartAttr (o.secondName.getD o.secondCol) t.l2 o.secondData t.row = .ok a ∧
        g'.node.get? t.n2 = some (Dict.update [] a)) := by
  unfold bipartiteRow at h
  split at h
  · cases h
  rename_i g1 h1
  split at h
  · cases h
  rename_i g2 h2
  obtain ⟨c1, d1, a1, m1, k1, f1⟩ := addPartNode_facts h1 hi.counted
  obtain ⟨c2, d2, a2, m2, k2, f2⟩ := addPartNode_facts h2 c1
  rw [countEdge_eq] at h
  have hg' := countRow_ok c2 h
  have hn1 : t.n1 ∈ g2.nodes := (m2 _).2 (.inl ((m1 _).2 (.inr rfl)))
  have hn2 : t.n2 ∈ g2.nodes := (m2 _).2 (.inr rfl)
  have hnode : g'.node = g2.node := by
    rw [hg', Graph.addEdgeCore_node, Graph.ensureNode_of_mem hn1, Graph.ensureNode_of_mem hn2]
  have hnodes : g'.nodes = g2.nodes := by unfold Graph.nodes; rw [hnode]
  refine ⟨⟨?_, ?_, ?_, ?_⟩, ?_, ?_, ?_⟩
  · rw [hg', List.map_append]
    exact c2.step .nil
  · rw [hg', Graph.addEdgeCore_directed, d2, d1, hi.directed]
  · rw [hg', Graph.addEdgeCore_attrs, a2, a1, hi.attrs]
  · intro n
    rw [hnodes, m2, m1, hi.nodes]
    constructor
    · rintro ((⟨s, hs, hn⟩ | hn) | hn)
      · exact ⟨s, List.mem_append_left _ hs, hn⟩
      · exact ⟨t, by simp, .inl hn⟩
      · exact ⟨t, by simp, .inr hn⟩
    · rintro ⟨s, hs, hn⟩
      rcases List.mem_append.1 hs with hs | hs
      · exact .inl (.inl ⟨s, hs, hn⟩)
      · rw [List.mem_singleton] at hs; subst hs
        rcases hn with hn | hn
        · exact .inl (.inr hn)
        · exact .inr hn
  · intro x hx
    rw [hnode, k2 x ((m1 x).2 (.inl hx)), k1 x hx]
  · intro hx
    obtain ⟨a, ha, hg⟩ := f1 hx
    exact ⟨a, ha, by rw [hnode, k2 _ ((m1 _).2 (.inr rfl)), hg]⟩
  · intro hx hne
    obtain ⟨a, ha, hg⟩ := f2 (fun hc => by
      rcases (m1 _).1 hc with hc | hc
      · exact hx hc
      · exact hne hc)
    exact ⟨a, ha, by rw [hnode, hg]⟩

theorem stepsLoop_inv {o : BipartiteOptions} {T U : List BStep} {g g' : Graph PyKey Data} (hi : BInv o T g)
    (h : stepsLoop o U g = .ok g') :
    BInv o (T ++ U) g' ∧ ∀ x ∈ g.nodes, g'.node.get? x = g.node.get? x := by
  induction U generalizing T g with
  | nil => cases h; rw [List.append_nil]; exact ⟨hi, fun _ _ => rfl⟩
  | cons t U ih =>
    unfold stepsLoop at h
    split at h
    · cases h
    · rename_i g1 h1
      obtain ⟨i1, k1, _, _⟩ := bipartiteRow_facts hi h1
      obtain ⟨i2, k2⟩ := ih i1 h
      refine ⟨by rw [List.append_assoc] at i2; exact i2, ?_⟩
      intro x hx
      rw [k2 x, k1 x hx]
      rw [i1.nodes]
      obtain ⟨s, hs, hn⟩ := (hi.nodes x).1 hx
      exact ⟨s, List.mem_append_left _ hs, hn⟩

/-- The rows are all accepted when the data to collect is. -/
theorem stepsLoop_total {o : BipartiteOptions} {T U : List BStep} {g : Graph PyKey Data} (hi : BInv o T g)
    (h1 : ∀ t ∈ U, ∃ a, partAttributes o.nodePartAttr (o.firstName.getD o.firstCol) t.l1 o.firstData t.row = .ok a ∧
      Graph.NodeKwSafe a)
    (h2 : ∀ t ∈ U, ∃ a, partAttributes o.nodePartAttr (o.secondName.getD o.secondCol) t.l2 o.secondData t.row = .ok a ∧
      Graph.NodeKwSafe a)
    (hw : o.edgeWeightAttr ∉ ["self", "u_of_edge", "v_of_edge"]) :
    ∃ g', stepsLoop o U g = .ok g' := by
  induction U generalizing T g with
  | nil => exact ⟨g, rfl⟩
  | cons t U ih =>
    obtain ⟨g1, e1⟩ := addPartNode_total (g := g) (n := t.n1) (fun _ => h1 t List.mem_cons_self)
    obtain ⟨c1, _⟩ := addPartNode_facts e1 hi.counted
    obtain ⟨g2, e2⟩ := addPartNode_total (g := g1) (n := t.n2) (fun _ => h2 t List.mem_cons_self)
    obtain ⟨c2, _⟩ := addPartNode_facts e2 c1
    have e3 : ∃ g3, countEdge g2 t.n1 t.n2 o.edgeWeightAttr = .ok g3 := by
      rw [countEdge_eq, countRow_eq c2]
      split
      · exact ⟨_, rfl⟩
      · rename_i hne
        refine ⟨_, (addEdge_simple_ok_iff c2.multi).2 ⟨?_, rfl⟩⟩
        unfold countAttrs
        rw [if_neg hne]
        intro k hk
        simp only [Dict.set, Dict.keys_cons, Dict.keys_nil, List.mem_singleton] at hk
        exact ⟨_, hk, hw⟩
    obtain ⟨g3, e3⟩ := e3
    have e : bipartiteRow o t.row t.l1 t.l2 t.n1 t.n2 g = .ok g3 := by
      unfold bipartiteRow
      rw [e1]; simp only; rw [e2]; exact e3
    obtain ⟨i3, _⟩ := bipartiteRow_facts hi e
    unfold stepsLoop
    rw [e]
    exact ih i3 (fun t ht => h1 t (List.mem_cons_of_mem _ ht)) (fun t ht => h2 t (List.mem_cons_of_mem _ ht))

theorem mem_mkSteps {o : BipartiteOptions} {node : PyKey → PyKey → PyKey} {rows : List Row}
    {cells : List (PyKey × PyKey)} (h : rows.length = cells.length) :
    (mkSteps o node rows cells).map (fun t => (t.n1, t.n2)) =
      cells.map (fun c => (node o.firstCol c.1, node o.secondCol c.2)) := by
  induction rows generalizing cells with
  | nil => cases cells <;> simp_all [mkSteps]
  | cons r rows ih =>
    cases cells with
    | nil => simp at h
    | cons c cells =>
      simp only [mkSteps, List.map_cons]
      rw [ih (by simpa using h)]

end Pelote
