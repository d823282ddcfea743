import Verif.Props.GraphEdit

/-! Property C76: filters compose. -/
namespace Pelote
variable {V A : Type} [DecidableEq V]
open Graph

/-- What `filter_edges` returns, as a graph. -/
theorem filterEdges_eq [AttrVal A] {g : Graph V A} {pred : EdgePred V A} {p : V → V → Attrs A → Bool}
    (hp : EdgeAnswers g pred p) (hkw : ∀ e ∈ g.edgesData, p e.1 e.2.1 e.2.2 = true → EdgeKwSafe g.multi e.2.2) :
    filterEdges g pred = .ok (addAll g.createEmptyCopy (g.edgesData.filter (fun e => p e.1 e.2.1 e.2.2))) :=
  filterEdgesLoop_ok (copy := g.createEmptyCopy) hp hkw

/-- C76.  Filtering edges twice is filtering once by both predicates: the very same graph is returned, keys included.  The
second predicate is only asked about the edges accepted by the first. -/
theorem filterEdges_comp [AttrVal A] {g : Graph V A} (h : g.WF) {pred pred' both : EdgePred V A}
    {p p' : V → V → Attrs A → Bool} (hp : EdgeAnswers g pred p)
    (hp' : ∀ e ∈ g.edgesData, p e.1 e.2.1 e.2.2 = true → pred' e.1 e.2.1 e.2.2 = .ok (p' e.1 e.2.1 e.2.2))
    (hb : EdgeAnswers g both (fun u v a => p u v a && p' u v a))
    (hkw : ∀ e ∈ g.edgesData, p e.1 e.2.1 e.2.2 = true → EdgeKwSafe g.multi e.2.2) :
    ∃ m, filterEdges g pred = .ok m ∧ filterEdges m pred' = filterEdges g both := by
  obtain ⟨h1, h2, h3⟩ := rebuild h p
  refine ⟨_, filterEdges_eq hp hkw, ?_⟩
  have hcopy : (addAll g.createEmptyCopy (g.edgesData.filter (fun e => p e.1 e.2.1 e.2.2))).createEmptyCopy =
      g.createEmptyCopy := by
    rw [h1]; rfl
  have hmulti : (addAll g.createEmptyCopy (g.edgesData.filter (fun e => p e.1 e.2.1 e.2.2))).multi = g.multi := by rw [h1]
  rw [filterEdges_eq (p := p') (by
      intro e he
      rw [h3, List.mem_filter] at he
      exact hp' e he.1 he.2) (by
      intro e he _
      rw [h3, List.mem_filter] at he
      rw [hmulti]
      exact hkw e he.1 he.2),
    filterEdges_eq hb (fun e he hk => hkw e he (by
      rw [Bool.and_eq_true] at hk
      exact hk.1)), hcopy, h3, List.filter_filter]
  congr 3
  funext e
  exact Bool.and_comm _ _

/-- C76.  Filters of edges commute. -/
theorem filterEdges_comm [AttrVal A] {g : Graph V A} (h : g.WF) {pred pred' : EdgePred V A}
    {p p' : V → V → Attrs A → Bool} (hp : EdgeAnswers g pred p) (hp' : EdgeAnswers g pred' p')
    (hkw : ∀ e ∈ g.edgesData, EdgeKwSafe g.multi e.2.2) :
    ∃ m m', filterEdges g pred = .ok m ∧ filterEdges g pred' = .ok m' ∧ filterEdges m pred' = filterEdges m' pred := by
  obtain ⟨m, h1, h2⟩ := filterEdges_comp h (both := fun u v a => .ok (p u v a && p' u v a)) hp (fun e he _ => hp' e he)
    (fun _ _ => rfl) (fun e he _ => hkw e he)
  obtain ⟨m', h1', h2'⟩ := filterEdges_comp h (both := fun u v a => .ok (p' u v a && p u v a)) hp' (fun e he _ => hp e he)
    (fun _ _ => rfl) (fun e he _ => hkw e he)
  refine ⟨m, m', h1, h1', ?_⟩
  rw [h2, h2']
  congr 1
  funext u v a
  rw [Bool.and_comm]

/-- C76.  Removing nodes twice is removing once by both predicates; the graph left is the very same. -/
theorem removeNodes_comp {g : Graph V A} (h : g.WF) {pred pred' both : NodePred V A}
    {p p' : V → Attrs A → Bool} (hp : NodeAnswers g pred p)
    (hp' : ∀ q ∈ g.node, p q.1 q.2 = true → pred' q.1 q.2 = .ok (p' q.1 q.2))
    (hb : NodeAnswers g both (fun n a => p n a && p' n a)) :
    removeNodes (removeNodes g pred).1 pred' = removeNodes g both := by
  have hnode : (g.induced (keepNode g p)).node = g.node.filter (fun q => p q.1 q.2) :=
    List.filter_congr (fun q hq => keepNode_of_mem h p hq)
  rw [removeNodes_eq h hp, removeNodes_eq h (p := fun n a => p n a && p' n a) hb, removeNodes_eq (h.induced _) (p := p') (by
    intro q hq
    simp only [hnode, List.mem_filter] at hq
    exact hp' q hq.1 hq.2)]
  have hkeep : ∀ q ∈ g.node, (keepNode (g.induced (keepNode g p)) p' q.1 && keepNode g p q.1) =
      keepNode g (fun n a => p n a && p' n a) q.1 := by
    intro q hq
    rw [keepNode_of_mem h _ hq, keepNode_of_mem h _ hq]
    cases hk : p q.1 q.2
    · simp
    · rw [keepNode_of_mem (h.induced _) p' (by rw [hnode]; exact List.mem_filter.2 ⟨hq, hk⟩)]
      simp
  have hkeep' : ∀ n ∈ g.nodes, (keepNode (g.induced (keepNode g p)) p' n && keepNode g p n) =
      keepNode g (fun n a => p n a && p' n a) n := by
    intro n hn
    obtain ⟨q, hq, rfl⟩ := List.mem_map.1 hn
    exact hkeep q hq
  congr 1
  unfold Graph.induced
  congr 1
  · simp only [List.filter_filter]
    exact List.filter_congr (fun q hq => hkeep q hq)
  · simp only [List.filter_filter]
    refine List.filter_congr (fun l hl => ?_)
    obtain ⟨e1, e2⟩ := h.ends l hl
    rw [← hkeep' _ e1, ← hkeep' _ e2]
    have and4 : ∀ a b c d : Bool, (a && b && (c && d)) = (a && c && (b && d)) := by decide
    exact and4 _ _ _ _

/-- C76.  Nothing is lost by a filter accepting everything: nodes and edges stay, in order. -/
theorem filterEdges_all [AttrVal A] {g : Graph V A} (h : g.WF) (hkw : ∀ e ∈ g.edgesData, EdgeKwSafe g.multi e.2.2) :
    ∃ m, filterEdges g (fun _ _ _ => .ok true) = .ok m ∧ m.WF ∧ m.directed = g.directed ∧ m.multi = g.multi ∧
      m.attrs = g.attrs ∧ m.node = g.node ∧ m.edgesData = g.edgesData := by
  obtain ⟨m, h1, h2, h3, h4, h5, h6, h7⟩ := filterEdges_exact h (pred := fun _ _ _ => .ok true)
    (p := fun _ _ _ => true) (fun _ _ => rfl) (fun e he _ => hkw e he)
  refine ⟨m, h1, h2, h3, h4, h5, h6, ?_⟩
  rw [h7]; simp

/-- C76.  Removing nodes and filtering edges commute: the same nodes and edges are left in the same order. -/
theorem removeNodes_filterEdges [AttrVal A] {g : Graph V A} (h : g.WF) {npred : NodePred V A} {epred : EdgePred V A}
    {p : V → Attrs A → Bool} {q : V → V → Attrs A → Bool} (hp : NodeAnswers g npred p) (hq : EdgeAnswers g epred q)
    (hkw : ∀ e ∈ g.edgesData, EdgeKwSafe g.multi e.2.2) :
    ∃ m m', filterEdges g epred = .ok m ∧ filterEdges (removeNodes g npred).1 epred = .ok m' ∧
      (removeNodes m npred).1.node = m'.node ∧ (removeNodes m npred).1.edgesData = m'.edgesData := by
  obtain ⟨m, h1, h2, h3, h4, h5, h6, h7⟩ := filterEdges_exact h hq (fun e he _ => hkw e he)
  obtain ⟨r, k1, k2, k3, k4, k5, k6, k7⟩ := removeNodes_exact h hp
  have hdata : r.edgesData = g.edgesData.filter (fun e => decide (e.1 ∈ r.nodes) && decide (e.2.1 ∈ r.nodes)) := by
    show r.edgesKeys.map _ = (g.edgesKeys.map _).filter _
    rw [k7, List.filter_map]
    rfl
  have hsub : ∀ e ∈ r.edgesData, e ∈ g.edgesData := by
    intro e he
    rw [hdata] at he
    exact List.mem_of_mem_filter he
  obtain ⟨m', l1, l2, l3, l4, l5, l6, l7⟩ := filterEdges_exact k2 (pred := epred) (p := q) (fun e he => hq e (hsub e he))
    (fun e he _ => by rw [k4]; exact hkw e (hsub e he))
  obtain ⟨r', j1, j2, j3, j4, j5, j6, j7⟩ := removeNodes_exact h2 (pred := npred) (p := p) (by
    intro x hx
    rw [h6] at hx
    exact hp x hx)
  have hnode : r'.node = m'.node := by rw [j6, l6, k6, h6]
  have hnodes : r'.nodes = r.nodes := by
    unfold Graph.nodes
    rw [hnode, l6]
  refine ⟨m, m', h1, by rw [k1]; exact l1, ?_, ?_⟩
  · rw [j1]; exact hnode
  · rw [j1, l7, hdata]
    have hdata' : r'.edgesData = m.edgesData.filter (fun e => decide (e.1 ∈ r'.nodes) && decide (e.2.1 ∈ r'.nodes)) := by
      show r'.edgesKeys.map _ = (m.edgesKeys.map _).filter _
      rw [j7, List.filter_map]
      rfl
    rw [hdata', h7, hnodes, List.filter_filter, List.filter_filter]
    congr 1
    funext e
    exact Bool.and_comm _ _

/-- A directed and an undirected graph meet the hypotheses. -/
example : (sampleGraph true).WF ∧ (sampleGraph false).WF := ⟨by constructor <;> decide, by constructor <;> decide⟩

end Pelote
