import Verif.Props.TableRowsBipartite
import Mathlib.Algebra.BigOperators.Group.Finset.Basic
import Mathlib.Algebra.BigOperators.Ring.Finset
import Mathlib.Data.Nat.Cast.Order.Ring

/-! C134: the edges of a node of a graph made from a table add up to the number of rows with its value. -/
set_option linter.unusedSectionVars false
namespace Pelote
open Classical

/-- The integer an edge carries as its weight, 0 when there is no edge. -/
def edgeCount (g : Graph PyKey Data) (attr : String) (u v : PyKey) : Int :=
  match g.edge? u v (.int 0) with
  | some a => intWeight attr a
  | none => 0

theorem sum_countP {α κ : Type} [DecidableEq κ] (l : List α) (key other : α → κ) (col a : κ) (T : Finset (κ × κ))
    (hT : ∀ c ∈ l, (col, other c) ∈ T) :
    ∑ q ∈ T, (if q.1 = col then l.countP (fun c => decide (key c = a ∧ other c = q.2)) else 0) =
      l.countP (fun c => decide (key c = a)) := by
  induction l with
  | nil => simp
  | cons c l ih =>
    have e : ∀ q ∈ T, (if q.1 = col then (c :: l).countP (fun c => decide (key c = a ∧ other c = q.2)) else 0) =
        (if q.1 = col then l.countP (fun c => decide (key c = a ∧ other c = q.2)) else 0) +
          (if q = (col, other c) then (if key c = a then 1 else 0) else 0) := by
      rintro ⟨x, y⟩ _
      by_cases h1 : x = col
      · by_cases h2 : other c = y
        · by_cases h3 : key c = a <;> simp [List.countP_cons, h1, h2, h3]
        · have h2' : ¬ y = other c := fun h => h2 h.symm
          simp [List.countP_cons, h1, h2, h2']
      · simp [h1]
    rw [Finset.sum_congr rfl e, Finset.sum_add_distrib, ih (fun d hd => hT d (List.mem_cons_of_mem _ hd)),
      Finset.sum_ite_eq' T (col, other c), if_pos (hT c List.mem_cons_self), List.countP_cons]
    simp

section
variable {rows : List Row} {o : BipartiteOptions} {cells : List (PyKey × PyKey)} {g : Graph PyKey Data}

theorem edgeCount_tag (hc : List.Forall₂ (RowCells o) rows cells) (hs : Separate o cells)
    (h : tableToBipartiteGraph (.rows rows) o = .ok g) {p q : PyKey × PyKey} (hp : p ∈ tagged o cells) (hq : q ∈ tagged o cells) :
    edgeCount g o.edgeWeightAttr (partNode o cells p.1 p.2) (partNode o cells q.1 q.2) = (tagWeight o cells p q : Int) := by
  unfold edgeCount Graph.edge?
  rw [bipartite_edge_rows hc hs h hp hq]
  by_cases h0 : tagWeight o cells p q = 0
  · rw [if_pos h0, h0]; rfl
  · rw [if_neg h0]
    simp [Dict.get?, intWeight]

theorem sum_tagWeight (hc : List.Forall₂ (RowCells o) rows cells) (hs : Separate o cells)
    (h : tableToBipartiteGraph (.rows rows) o = .ok g) {p : PyKey × PyKey} (hp : p ∈ tagged o cells) :
    ∑ n ∈ g.nodes.toFinset, edgeCount g o.edgeWeightAttr (partNode o cells p.1 p.2) n =
      ((∑ q ∈ (tagged o cells).toFinset, tagWeight o cells p q : Nat) : Int) := by
  have hn : g.nodes.toFinset = (tagged o cells).toFinset.image (fun q => partNode o cells q.1 q.2) := by
    ext n
    rw [List.mem_toFinset, bipartite_nodes_tagged hc h, Finset.mem_image]
    exact ⟨fun ⟨q, hq, e⟩ => ⟨q, List.mem_toFinset.2 hq, e.symm⟩, fun ⟨q, hq, e⟩ => ⟨q, List.mem_toFinset.1 hq, e.symm⟩⟩
  rw [hn, Finset.sum_image (fun x hx y hy e => partNode_inj hs (List.mem_toFinset.1 hx) (List.mem_toFinset.1 hy) e), Nat.cast_sum]
  exact Finset.sum_congr rfl fun q hq => edgeCount_tag hc hs h hp (List.mem_toFinset.1 hq)

theorem count_pair (cells : List (PyKey × PyKey)) (a b : PyKey) :
    cells.count (a, b) = cells.countP (fun c => decide (c.1 = a ∧ c.2 = b)) := by
  unfold List.count
  refine List.countP_congr fun c _ => ?_
  rw [beq_iff_eq, decide_eq_true_eq, Prod.ext_iff]

/-- C134.  The weights of the edges of the node of a value of the first column add up to the number of rows with that value. -/
theorem bipartite_first_strength (hc : List.Forall₂ (RowCells o) rows cells) (hs : Separate o cells)
    (h : tableToBipartiteGraph (.rows rows) o = .ok g) {a : PyKey} (ha : ∃ c ∈ cells, c.1 = a) :
    ∑ n ∈ g.nodes.toFinset, edgeCount g o.edgeWeightAttr (partNode o cells o.firstCol a) n =
      (cells.countP (fun c => decide (c.1 = a)) : Int) := by
  have hne := (bipartite_loop h).1
  obtain ⟨c, hcc, rfl⟩ := ha
  rw [sum_tagWeight hc hs h (p := (o.firstCol, c.1)) (mem_tagged.2 ⟨c, hcc, .inl rfl⟩),
    ← sum_countP cells Prod.fst Prod.snd o.secondCol c.1 (tagged o cells).toFinset
      (fun d hd => List.mem_toFinset.2 (mem_tagged.2 ⟨d, hd, .inr rfl⟩))]
  congr 1
  refine Finset.sum_congr rfl fun q _ => ?_
  unfold tagWeight
  rw [← count_pair]
  simp [hne]

/-- C134.  And so for the second column. -/
theorem bipartite_second_strength (hc : List.Forall₂ (RowCells o) rows cells) (hs : Separate o cells)
    (h : tableToBipartiteGraph (.rows rows) o = .ok g) {b : PyKey} (hb : ∃ c ∈ cells, c.2 = b) :
    ∑ n ∈ g.nodes.toFinset, edgeCount g o.edgeWeightAttr (partNode o cells o.secondCol b) n =
      (cells.countP (fun c => decide (c.2 = b)) : Int) := by
  have hne := (bipartite_loop h).1
  obtain ⟨c, hcc, rfl⟩ := hb
  rw [sum_tagWeight hc hs h (p := (o.secondCol, c.2)) (mem_tagged.2 ⟨c, hcc, .inr rfl⟩),
    ← sum_countP cells Prod.snd Prod.fst o.firstCol c.2 (tagged o cells).toFinset
      (fun d hd => List.mem_toFinset.2 (mem_tagged.2 ⟨d, hd, .inl rfl⟩))]
  congr 1
  refine Finset.sum_congr rfl fun q _ => ?_
  have e : cells.countP (fun d => decide (d.2 = c.2 ∧ d.1 = q.2)) = cells.count (q.2, c.2) := by
    rw [count_pair]
    refine List.countP_congr fun d _ => ?_
    simp [and_comm]
  unfold tagWeight
  rw [e]
  simp [Ne.symm hne]
end

/-- C134, a case (`sampleRows_cells`, `sample_bipartite`): two rows have `x` in the first column, whose node is 0. -/
theorem bipartite_strength_sample :
    partNode (sampleOptions false) sampleCells (.str "a") (.str "x") = .int 0 ∧
    ∃ g, tableToBipartiteGraph (.rows sampleRows) (sampleOptions false) = .ok g ∧
      ∑ n ∈ g.nodes.toFinset, edgeCount g "weight" (partNode (sampleOptions false) sampleCells (.str "a") (.str "x")) n = 2 := by
  obtain ⟨hs, -, g, hg, -⟩ := sample_bipartite
  refine ⟨by decide +kernel, g, hg, ?_⟩
  have := bipartite_first_strength (sampleRows_cells false) hs hg (a := .str "x") ⟨(.str "x", .str "y"), by simp [sampleCells], rfl⟩
  refine Eq.trans this ?_
  simp [sampleCells]

/-! ### Tables of edges -/

theorem sum_countP_one {α κ : Type} [DecidableEq κ] (l : List α) (R : α → κ → Bool) (Q : α → Bool) (f : α → κ) (N : Finset κ)
    (hN : ∀ e ∈ l, f e ∈ N) (hR : ∀ e ∈ l, ∀ y, R e y = true ↔ Q e = true ∧ y = f e) :
    ∑ y ∈ N, l.countP (fun e => R e y) = l.countP Q := by
  induction l with
  | nil => simp
  | cons e l ih =>
    have e1 : ∀ y ∈ N, (e :: l).countP (fun e => R e y) =
        l.countP (fun e => R e y) + (if y = f e then (if Q e = true then 1 else 0) else 0) := by
      intro y _
      rw [List.countP_cons]
      congr 1
      have := hR e List.mem_cons_self y
      by_cases h1 : Q e = true <;> by_cases h2 : y = f e <;> simp_all
    rw [Finset.sum_congr rfl e1, Finset.sum_add_distrib,
      ih (fun d hd => hN d (List.mem_cons_of_mem _ hd)) (fun d hd => hR d (List.mem_cons_of_mem _ hd)),
      Finset.sum_ite_eq' N (f e), if_pos (hN e List.mem_cons_self), List.countP_cons]

section
variable {rows : List Row} {o : EdgeOptions} {directed : Bool} {E : List (PyKey × PyKey)} {g : Graph PyKey Data}

/-- What the graph made from a table of edges counts. -/
theorem edgeCount_inv {g0 : Graph PyKey Data} {S : List (PyKey × PyKey × Attrs Data)} (hi : EInv o g0 S g) (hcount : o.countRows = true)
    (hd : g0.directed = directed) :
    (∀ x y, edgeCount g o.weightAttr x y =
      ((S.map (fun e => (e.1, e.2.1))).countP (fun e => samePair directed e.1 e.2 x y) : Int)) ∧
    ∀ e ∈ S.map (fun e => (e.1, e.2.1)), e.1 ∈ g.nodes.toFinset ∧ e.2 ∈ g.nodes.toFinset := by
  refine ⟨fun x y => ?_, fun e he => ?_⟩
  · unfold edgeCount Graph.edge?
    rw [(hi.counted hcount).edges, hi.nodes.directed, hd, List.countP_map]
    have e : S.countP ((fun e : PyKey × PyKey => samePair directed e.1 e.2 x y) ∘ fun e => (e.1, e.2.1)) =
        (pairRows directed x y S).length := by
      rw [List.countP_eq_length_filter]
      rfl
    rw [e]
    unfold expectedCount
    cases pairRows directed x y S with
    | nil => rfl
    | cons e L => simp [Dict.get?, intWeight, Dict.get?_set_self]
  · obtain ⟨q, hq, rfl⟩ := List.mem_map.1 he
    rw [List.mem_toFinset, List.mem_toFinset, hi.nodes.nodes, hi.nodes.nodes]
    exact ⟨.inr ⟨q, hq, .inl rfl⟩, .inr ⟨q, hq, .inr rfl⟩⟩

theorem edges_table_counts (hE : List.Forall₂ (RowEnds o) rows E) (hcount : o.countRows = true)
    (h : edgesTableToGraph (.rows rows) o directed = .ok g) :
    (∀ x y, edgeCount g o.weightAttr x y = (E.countP (fun e => samePair directed e.1 e.2 x y) : Int)) ∧
    ∀ e ∈ E, e.1 ∈ g.nodes.toFinset ∧ e.2 ∈ g.nodes.toFinset := by
  obtain ⟨S, -, rfl, hi⟩ := edges_table_inv hE h
  exact edgeCount_inv (o := { o with addMissing := true }) hi hcount rfl

theorem tables_counts {nrows : List Row} {nodeCol : PyKey} {nodeData : List PyKey} (hE : List.Forall₂ (RowEnds o) rows E)
    (hcount : o.countRows = true) (h : tablesToGraph (.rows nrows) (.rows rows) nodeCol nodeData o directed = .ok g) :
    (∀ x y, edgeCount g o.weightAttr x y = (E.countP (fun e => samePair directed e.1 e.2 x y) : Int)) ∧
    ∀ e ∈ E, e.1 ∈ g.nodes.toFinset ∧ e.2 ∈ g.nodes.toFinset := by
  obtain ⟨M, S, -, hS, hi, -⟩ := tables_inv h
  rw [rowEnds_unique hE (rowEnds_of_edgeRows hS)]
  exact edgeCount_inv hi hcount (Graph.addNodes_frame M (Graph.empty (V := PyKey) (A := Data) directed false [])).1

/-- C134.  In a directed graph whose weights count the rows of a table of edges, the weights of the edges from a node add up to the
number of rows where it is the source, those of the edges to it to the number of rows where it is the target. -/
theorem edges_table_strength_directed {nrows : List Row} {nodeCol : PyKey} {nodeData : List PyKey}
    (hE : List.Forall₂ (RowEnds o) rows E) (hcount : o.countRows = true)
    (h : edgesTableToGraph (.rows rows) o true = .ok g ∨ tablesToGraph (.rows nrows) (.rows rows) nodeCol nodeData o true = .ok g)
    (u : PyKey) :
    ∑ n ∈ g.nodes.toFinset, edgeCount g o.weightAttr u n = (E.countP (fun e => decide (e.1 = u)) : Int) ∧
    ∑ n ∈ g.nodes.toFinset, edgeCount g o.weightAttr n u = (E.countP (fun e => decide (e.2 = u)) : Int) := by
  obtain ⟨hk, hn⟩ := h.elim (edges_table_counts hE hcount) (tables_counts hE hcount)
  constructor
  · rw [Finset.sum_congr rfl fun n _ => hk u n, ← Nat.cast_sum]
    congr 1
    refine sum_countP_one E (fun e y => samePair true e.1 e.2 u y) _ Prod.snd _ (fun e he => (hn e he).2) fun e _ y => ?_
    rw [samePair_iff, decide_eq_true_eq]
    simp [eq_comm]
  · rw [Finset.sum_congr rfl fun n _ => hk n u, ← Nat.cast_sum]
    congr 1
    refine sum_countP_one E (fun e y => samePair true e.1 e.2 y u) _ Prod.fst _ (fun e he => (hn e he).1) fun e _ y => ?_
    rw [samePair_iff, decide_eq_true_eq]
    simp [eq_comm, and_comm]

/-- C134.  In an undirected one, the weights of the edges of a node (a self loop once) add up to the number of rows where it is found. -/
theorem edges_table_strength {nrows : List Row} {nodeCol : PyKey} {nodeData : List PyKey}
    (hE : List.Forall₂ (RowEnds o) rows E) (hcount : o.countRows = true)
    (h : edgesTableToGraph (.rows rows) o false = .ok g ∨ tablesToGraph (.rows nrows) (.rows rows) nodeCol nodeData o false = .ok g)
    (u : PyKey) :
    ∑ n ∈ g.nodes.toFinset, edgeCount g o.weightAttr u n = (E.countP (fun e => decide (e.1 = u ∨ e.2 = u)) : Int) := by
  obtain ⟨hk, hn⟩ := h.elim (edges_table_counts hE hcount) (tables_counts hE hcount)
  rw [Finset.sum_congr rfl fun n _ => hk u n, ← Nat.cast_sum]
  congr 1
  refine sum_countP_one E (fun e y => samePair false e.1 e.2 u y) _ (fun e => if e.1 = u then e.2 else e.1) _
    (fun e he => ?_) fun e _ y => ?_
  · split
    · exact (hn e he).2
    · exact (hn e he).1
  · rw [samePair_iff, decide_eq_true_eq]
    obtain ⟨a, b⟩ := e
    show (a = u ∧ b = y) ∨ (false = false ∧ a = y ∧ b = u) ↔ (a = u ∨ b = u) ∧ y = if a = u then b else a
    by_cases h1 : a = u
    · subst h1
      rw [if_pos rfl]
      constructor
      · rintro (⟨-, rfl⟩ | ⟨-, rfl, rfl⟩)
        · exact ⟨.inl rfl, rfl⟩
        · exact ⟨.inl rfl, rfl⟩
      · rintro ⟨-, rfl⟩
        exact .inl ⟨rfl, rfl⟩
    · rw [if_neg h1]
      constructor
      · rintro (⟨h2, -⟩ | ⟨-, rfl, h2⟩)
        · exact absurd h2 h1
        · exact ⟨.inr h2, rfl⟩
      · rintro ⟨h2 | h2, rfl⟩
        · exact absurd h2 h1
        · exact .inr ⟨rfl, rfl, h2⟩
end

/-- C134, a case: the two rows of the sample both have `x`, once as source and once as target. -/
theorem edges_table_strength_sample :
    (∃ g, edgesTableToGraph (.rows sampleEdgeRows) (sampleEdgeOptions true true) false = .ok g ∧
      ∑ n ∈ g.nodes.toFinset, edgeCount g "weight" (.str "x") n = 2) ∧
    (∃ g, edgesTableToGraph (.rows sampleEdgeRows) (sampleEdgeOptions true true) true = .ok g ∧
      ∑ n ∈ g.nodes.toFinset, edgeCount g "weight" (.str "x") n = 1 ∧ ∑ n ∈ g.nodes.toFinset, edgeCount g "weight" n (.str "x") = 1) := by
  obtain ⟨-, ⟨g, h1, -⟩, ⟨g', h2, -⟩⟩ := sample_edges_table
  have hE := (sampleEdge_ends true true).1
  refine ⟨⟨g, h1, (edges_table_strength (nrows := []) (nodeCol := .str "n") (nodeData := []) hE rfl (.inl h1) (.str "x")).trans ?_⟩, g', h2,
    (edges_table_strength_directed (nrows := []) (nodeCol := .str "n") (nodeData := []) hE rfl (.inl h2) (.str "x")).1.trans ?_, (edges_table_strength_directed (nrows := []) (nodeCol := .str "n") (nodeData := []) hE rfl (.inl h2) (.str "x")).2.trans ?_⟩ <;>
    simp

end Pelote
