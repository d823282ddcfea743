import Verif.Lemmas.FilterNodes
import Verif.Lemmas.Compare
import Mathlib.Data.List.Pairwise

/-! C18–C22, C26: removing and filtering edges and nodes, leaves, graph comparison. -/
set_option linter.unusedSectionVars false
namespace Pelote
variable {V A : Type} [DecidableEq V]
open Graph

instance : AttrVal Int := ⟨fun i => .ok (some (.int i))⟩

/-! ### C18: remove_edges -/

/-- The predicate `pred` answers `p` on every edge of the graph, without raising. -/
def EdgeAnswers (g : Graph V A) (pred : EdgePred V A) (p : V → V → Attrs A → Bool) : Prop :=
  ∀ e ∈ g.edgesData, pred e.1 e.2.1 e.2.2 = .ok (p e.1 e.2.1 e.2.2)

/-- The predicate `pred` answers `p` on every node of the graph, without raising. -/
def NodeAnswers (g : Graph V A) (pred : NodePred V A) (p : V → Attrs A → Bool) : Prop :=
  ∀ q ∈ g.node, pred q.1 q.2 = .ok (p q.1 q.2)

/-- C18, multigraphs included, when parallel edges get the same verdict: the graph keeps its nodes and
exactly the accepted edges (with their keys), in the same order.  Missing for the full claim: parallel
edges with different verdicts (refuted below). -/
theorem removeEdges_partial {g : Graph V A} (h : g.WF) {pred : EdgePred V A} {p : V → V → Attrs A → Bool}
    (hp : EdgeAnswers g pred p)
    (huni : ∀ u v a b, (u, v, a) ∈ g.edgesData → (u, v, b) ∈ g.edgesData → p u v a = p u v b) :
    ∃ g', removeEdges g pred = (g', .ok ()) ∧ g'.WF ∧ g'.directed = g.directed ∧ g'.multi = g.multi ∧
      g'.attrs = g.attrs ∧ g'.node = g.node ∧
      g'.edgesKeys = g.edgesKeys.filter (fun e => p e.1 e.2.1 e.2.2.2) := by
  unfold removeEdges
  rw [edgesToDrop_ok hp]
  simp only
  obtain ⟨h1, h2, h3, h4, h5, h6⟩ := removeRejected h p
  refine ⟨_, rfl, h1, h2, h3, h4, h5, ?_⟩
  show ((g.removeEdgesFrom (rejected g p)).edgesKeys) = _
  rw [edgesKeys_eq _ h1.nodup, edgesKeys_eq _ h.nodup, h6]
  have huni' : ∀ l ∈ g.groups, ∀ q ∈ l.data, ∀ r ∈ l.data, p l.u l.v q.2 = p l.u l.v r.2 := by
    intro l hl q hq r hr
    refine huni _ _ _ _ ?_ ?_ <;> rw [edgesData_eq h] <;>
      exact List.mem_flatMap.2 ⟨l, hl, List.mem_map.2 ⟨_, by assumption, rfl⟩⟩
  generalize g.groups = G at huni'
  induction G with
  | nil => rfl
  | cons l G ih =>
    have ih := ih (fun l hl => huni' l (by simp [hl]))
    have hu := huni' l (by simp)
    rw [List.filterMap_cons, List.flatMap_cons, List.filter_append, ← ih]
    have hexp : (expand l).filter (fun e => p e.1 e.2.1 e.2.2.2) =
        (l.data.filter (fun ka => p l.u l.v ka.2)).map (fun ka => (l.u, l.v, ka.1, ka.2)) := by
      unfold expand; rw [List.filter_map]; rfl
    rw [hexp]
    by_cases hall : ∀ q ∈ l.data, p l.u l.v q.2 = true
    · rw [List.filter_eq_self.2 hall]
      simp only
      split
      · rename_i heq
        split at heq
        · cases heq
        · rename_i hlen
          have : l.data = [] := List.length_eq_zero_iff.1 (by omega)
          simp [this]
      · rename_i m heq
        split at heq
        · cases heq
          simp [expand]
        · cases heq
    · have hnone : ∀ q ∈ l.data, ¬ p l.u l.v q.2 = true := by
        push Not at hall
        obtain ⟨q, hq, hne⟩ := hall
        intro r hr hpr
        exact hne ((hu q hq r hr).trans hpr)
      rw [List.filter_eq_nil_iff.2 hnone]
      simp

/-- C18 for simple graphs, directed or not: exactly the accepted edges are kept. -/
theorem removeEdges_simple {g : Graph V A} (h : g.WF) (hs : g.multi = false) {pred : EdgePred V A}
    {p : V → V → Attrs A → Bool} (hp : EdgeAnswers g pred p) :
    ∃ g', removeEdges g pred = (g', .ok ()) ∧ g'.WF ∧ g'.directed = g.directed ∧ g'.multi = g.multi ∧
      g'.attrs = g.attrs ∧ g'.node = g.node ∧
      g'.edgesKeys = g.edgesKeys.filter (fun e => p e.1 e.2.1 e.2.2.2) := by
  refine removeEdges_partial h hp ?_
  intro u v a b ha hb
  rw [edgesData_eq h] at ha hb
  obtain ⟨l, hl, ha⟩ := List.mem_flatMap.1 ha
  obtain ⟨m, hm, hb⟩ := List.mem_flatMap.1 hb
  obtain ⟨q, hq, ea⟩ := List.mem_map.1 ha
  obtain ⟨r, hr, eb⟩ := List.mem_map.1 hb
  simp only [Prod.mk.injEq] at ea eb
  obtain ⟨rfl, rfl, rfl⟩ := ea
  obtain ⟨e1, e2, rfl⟩ := eb
  have hlm : l = m := by
    by_contra hne
    have h1 : ∀ {x y : Link V A}, x ∈ g.groups → y ∈ g.groups → x ≠ y →
        samePair g.directed x.u x.v y.u y.v = false := by
      intro x y hx hy hxy
      have hsym : Std.Symm (fun l m : Link V A => samePair g.directed l.u l.v m.u m.v = false) :=
        ⟨fun a b hab => by rw [samePair_comm]; exact hab⟩
      exact (groups_uniq h).forall hx hy hxy
    have h2 := h1 hl hm hne
    rw [e1, e2, samePair_refl] at h2
    cases h2
  subst hlm
  have := (groups_addable h).simple hs l hl
  obtain ⟨x, hx⟩ := List.length_eq_one_iff.1 this
  rw [hx] at hq hr
  simp only [List.mem_singleton] at hq hr
  rw [hq, hr]

/-- C18, what remains true on every multigraph: of each group of parallel edges, exactly as many as were
accepted are left (not necessarily the accepted ones). -/
theorem removeEdges_multiplicity {g : Graph V A} (h : g.WF) {pred : EdgePred V A} {p : V → V → Attrs A → Bool}
    (hp : EdgeAnswers g pred p) :
    ∃ g', removeEdges g pred = (g', .ok ()) ∧ g'.WF ∧ g'.node = g.node ∧
      ∀ u v, g'.edgesData.countP (fun e => samePair g.directed e.1 e.2.1 u v) =
        g.edgesData.countP (fun e => samePair g.directed e.1 e.2.1 u v && p e.1 e.2.1 e.2.2) := by
  unfold removeEdges
  rw [edgesToDrop_ok hp]
  simp only
  obtain ⟨h1, h2, h3, h4, h5, h6⟩ := removeRejected h p
  refine ⟨_, rfl, h1, h5, ?_⟩
  intro u v
  show (g.removeEdgesFrom (rejected g p)).edgesData.countP _ = _
  rw [edgesData_eq h1, edgesData_eq h, h6]
  generalize g.groups = G
  induction G with
  | nil => rfl
  | cons l G ih =>
    have e1 : linkEdges (l :: G) = l.data.map (fun ka => (l.u, l.v, ka.2)) ++ linkEdges G := rfl
    rw [e1, List.countP_append, ← ih, List.filterMap_cons, List.countP_map]
    have hc : l.data.countP ((fun e : V × V × Attrs A => samePair g.directed e.1 e.2.1 u v && p e.1 e.2.1 e.2.2) ∘
        fun ka => (l.u, l.v, ka.2)) =
        if samePair g.directed l.u l.v u v then (l.data.filter (fun ka => p l.u l.v ka.2)).length else 0 := by
      split
      · rename_i hsp
        rw [List.countP_eq_length_filter]
        congr 1
        apply List.filter_congr
        intro ka _
        simp [hsp]
      · rename_i hsp
        rw [List.countP_eq_zero]
        intro ka _
        simp [hsp]
    rw [hc]
    simp only
    by_cases hpos : 0 < (l.data.filter (fun ka => p l.u l.v ka.2)).length
    · rw [if_pos hpos]
      simp only
      have e2 : ∀ (m : Link V A) G, linkEdges (m :: G) = m.data.map (fun ka => (m.u, m.v, ka.2)) ++ linkEdges G :=
        fun _ _ => rfl
      rw [e2, List.countP_append]
      congr 1
      rw [List.countP_map]
      have hle : (l.data.filter (fun ka => p l.u l.v ka.2)).length ≤ l.data.length := List.length_filter_le _ _
      split
      · rename_i hsp
        rw [List.countP_eq_length.2 (by intro ka _; exact hsp)]
        rw [List.length_take]
        omega
      · rename_i hsp
        rw [List.countP_eq_zero.2 (by intro ka _; exact hsp)]
    · rw [if_neg hpos]
      simp only
      have : (l.data.filter (fun ka => p l.u l.v ka.2)).length = 0 := by omega
      rw [this]
      simp

/-- A predicate that raises leaves the graph untouched. -/
theorem removeEdges_raises {g : Graph V A} {pred : EdgePred V A} {e : V × V × Attrs A} (he : e ∈ g.edgesData)
    {err : PyErr} (hr : pred e.1 e.2.1 e.2.2 = .error err) :
    ∃ err', removeEdges g pred = (g, .error err') := by
  have : ∀ es : List (V × V × Attrs A), e ∈ es → ∃ err', edgesToDrop pred es = .error err' := by
    intro es
    induction es with
    | nil => intro h; cases h
    | cons e' es ih =>
      intro hm
      obtain ⟨u, v, a⟩ := e'
      simp only [edgesToDrop]
      rcases hpe : pred u v a with e1 | b
      · exact ⟨_, rfl⟩
      · rcases List.mem_cons.1 hm with rfl | hm
        · rw [hr] at hpe; cases hpe
        · obtain ⟨e2, h2⟩ := ih hm
          rw [h2]
          exact ⟨_, rfl⟩
  obtain ⟨err', h'⟩ := this _ he
  exact ⟨err', by unfold removeEdges; rw [h']⟩

/-- A multigraph with two parallel edges. -/
def twoParallel : Graph Int Int :=
  ⟨false, true, [], [(0, []), (1, [])], [⟨0, 1, [(.int 0, [(.str "w", 1)]), (.int 1, [(.str "w", 2)])]⟩]⟩

/-- C18 is false on multigraphs: the edge of weight 2 is to be kept, the edge of weight 1 is. -/
theorem removeEdges_multi_wrong :
    let keep : Int → Int → Attrs Int → Bool := fun _ _ a => a.get? (.str "w") == some 2
    twoParallel.edgesData.filter (fun e => keep e.1 e.2.1 e.2.2) = [(0, 1, [(.str "w", 2)])] ∧
    (removeEdges twoParallel (fun u v a => .ok (keep u v a))).1.edgesData = [(0, 1, [(.str "w", 1)])] := by
  decide +kernel

/-- A small directed graph and a small undirected one, for the examples. -/
def sampleGraph (directed : Bool) : Graph Int Int :=
  ⟨directed, false, [(.str "name", 7)], [(3, [(.str "x", 1)]), (1, []), (2, [(.str "x", 2)])],
    [⟨1, 3, [(.int 0, [(.str "w", 5)])]⟩, ⟨1, 2, [(.int 0, [(.str "w", 1)])]⟩, ⟨2, 3, [(.int 0, [])]⟩]⟩

theorem sampleGraph_wf (d : Bool) : (sampleGraph d).WF := by
  constructor <;> cases d <;> decide

theorem twoParallel_wf : twoParallel.WF := by
  constructor <;> decide

/-- Non-triviality: the hypotheses of the theorems above hold on concrete graphs, and the results differ
from the input. -/
example : EdgeAnswers (sampleGraph false) (fun _ _ a => .ok (a.has (.str "w"))) (fun _ _ a => a.has (.str "w")) :=
  fun _ _ => rfl
example : (removeEdges (sampleGraph false) (fun _ _ a => .ok (a.has (.str "w")))).1.edges = [(3, 1), (1, 2)] ∧
    (sampleGraph false).edges = [(3, 1), (3, 2), (1, 2)] := by decide +kernel

/-! ### C19: filter_edges -/

/-- C19.  The copy has the same kind, graph attributes and nodes, and its edge listing is exactly the
accepted part of the original listing, in order and orientation; for multigraphs too.  The attribute
names of the kept edges must be legal keywords of `add_edge` (see `filterEdges_key_lost`). -/
theorem filterEdges_exact [AttrVal A] {g : Graph V A} (h : g.WF) {pred : EdgePred V A}
    {p : V → V → Attrs A → Bool} (hp : EdgeAnswers g pred p)
    (hkw : ∀ e ∈ g.edgesData, p e.1 e.2.1 e.2.2 = true → EdgeKwSafe g.multi e.2.2) :
    ∃ g', filterEdges g pred = .ok g' ∧ g'.WF ∧ g'.directed = g.directed ∧ g'.multi = g.multi ∧
      g'.attrs = g.attrs ∧ g'.node = g.node ∧
      g'.edgesData = g.edgesData.filter (fun e => p e.1 e.2.1 e.2.2) := by
  unfold filterEdges
  rw [filterEdgesLoop_ok (copy := g.createEmptyCopy) hp hkw]
  obtain ⟨h1, h2, h3⟩ := rebuild h p
  refine ⟨_, rfl, h2, ?_, ?_, ?_, ?_, h3⟩ <;> rw [h1]

/-- For a simple graph the copy is the graph `remove_edges` leaves, listing for listing. -/
theorem filterEdges_agrees_removeEdges [AttrVal A] {g : Graph V A} (h : g.WF) (hs : g.multi = false)
    {pred : EdgePred V A} {p : V → V → Attrs A → Bool} (hp : EdgeAnswers g pred p)
    (hkw : ∀ e ∈ g.edgesData, p e.1 e.2.1 e.2.2 = true → EdgeKwSafe g.multi e.2.2) :
    ∃ g', filterEdges g pred = .ok g' ∧ (removeEdges g pred).1.edgesData = g'.edgesData ∧
      (removeEdges g pred).1.node = g'.node := by
  obtain ⟨g', h1, _, _, _, _, h2, h3⟩ := filterEdges_exact h hp hkw
  obtain ⟨g'', e, _, _, _, _, h4, h5⟩ := removeEdges_simple h hs hp
  refine ⟨g', h1, ?_, ?_⟩
  · rw [e, h3]
    show g''.edgesKeys.map _ = _
    rw [h5]
    unfold edgesData
    rw [List.filter_map]
    rfl
  · rw [e, h2, h4]

/-- If the call returns, the predicate raised on no edge. -/
theorem filterEdges_raises [AttrVal A] {g g' : Graph V A} {pred : EdgePred V A}
    (h : filterEdges g pred = .ok g') : ∀ e ∈ g.edgesData, ∃ b, pred e.1 e.2.1 e.2.2 = .ok b :=
  filterEdgesLoop_error h

example : (sampleGraph true).edgesData.filter (fun e => e.2.2.has (.str "w")) =
    [(1, 3, [(.str "w", 5)]), (1, 2, [(.str "w", 1)])] := by decide +kernel
example : ∀ e ∈ (sampleGraph true).edgesData, EdgeKwSafe (sampleGraph true).multi e.2.2 := by
  intro e he
  have : e ∈ [((1 : Int), (3 : Int), ([(.str "w", 5)] : Attrs Int)), (1, 2, [(.str "w", 1)]), (2, 3, [])] := he
  intro k hk
  simp only [List.mem_cons, List.not_mem_nil, or_false] at this
  rcases this with rfl | rfl | rfl
  · exact ⟨"w", by simpa [Dict.keys] using hk, by decide⟩
  · exact ⟨"w", by simpa [Dict.keys] using hk, by decide⟩
  · cases hk

/-- The keyword restriction is needed: on a multigraph an edge attribute named `key` becomes the edge key
and disappears from the attributes, although the predicate accepts every edge. -/
theorem filterEdges_key_lost :
    ∃ g g' : Graph Int Int, g.WF ∧ filterEdges g (fun _ _ _ => .ok true) = .ok g' ∧
      g.edgesData = [(0, 1, [(.str "key", 5)])] ∧ g'.edgesData = [(0, 1, [])] := by
  refine ⟨⟨false, true, [], [(0, []), (1, [])], [⟨0, 1, [(.int 0, [(.str "key", 5)])]⟩]⟩,
    ⟨false, true, [], [(0, []), (1, [])], [⟨0, 1, [(.int 5, [])]⟩]⟩, ?_, rfl, by decide, by decide⟩
  constructor <;> decide

/-! ### C20: remove_nodes -/

/-- C20.  The graph left is the subgraph induced by the accepted nodes: same kind and attributes, the
accepted nodes with their attributes in the same order, and exactly the edges (with keys and attributes)
both ends of which are accepted, in the same order. -/
theorem removeNodes_exact {g : Graph V A} (h : g.WF) {pred : NodePred V A} {p : V → Attrs A → Bool}
    (hp : NodeAnswers g pred p) :
    ∃ g', removeNodes g pred = (g', .ok ()) ∧ g'.WF ∧ g'.directed = g.directed ∧ g'.multi = g.multi ∧
      g'.attrs = g.attrs ∧ g'.node = g.node.filter (fun q => p q.1 q.2) ∧
      g'.edgesKeys = g.edgesKeys.filter (fun e => decide (e.1 ∈ g'.nodes) && decide (e.2.1 ∈ g'.nodes)) := by
  refine ⟨_, removeNodes_eq h hp, h.induced _, rfl, rfl, rfl, ?_, ?_⟩
  · show g.node.filter _ = _
    apply List.filter_congr
    intro q hq
    exact keepNode_of_mem h p hq
  · rw [edgesKeys_induced h]
    apply List.filter_congr
    rintro ⟨u, v, k, a⟩ he
    obtain ⟨l, hl, h1, h2, _⟩ := (mem_edgesKeys h).1 he
    have hends : u ∈ g.nodes ∧ v ∈ g.nodes := by
      have := (groups_addable h).ends (g.orient l) ((mem_groups h).2 ⟨l, hl, rfl⟩)
      rw [h1, h2] at this
      exact this
    rw [nodes_induced]
    simp [hends.1, hends.2]

/-- A predicate that raises leaves the graph untouched. -/
theorem removeNodes_raises {g : Graph V A} {pred : NodePred V A} {q : V × Attrs A} (hq : q ∈ g.node)
    {err : PyErr} (hr : pred q.1 q.2 = .error err) : ∃ err', removeNodes g pred = (g, .error err') := by
  have : ∀ ns : Dict V (Attrs A), q ∈ ns → ∃ err', nodesToDrop pred ns = .error err' := by
    intro ns
    induction ns with
    | nil => intro h; cases h
    | cons e' es ih =>
      intro hm
      obtain ⟨n, a⟩ := e'
      simp only [nodesToDrop]
      rcases hpe : pred n a with e1 | b
      · exact ⟨_, rfl⟩
      · rcases List.mem_cons.1 hm with rfl | hm
        · rw [hr] at hpe; cases hpe
        · obtain ⟨e2, h2⟩ := ih hm
          rw [h2]
          exact ⟨_, rfl⟩
  obtain ⟨err', h'⟩ := this _ hq
  exact ⟨err', by unfold removeNodes; rw [h']⟩

example : NodeAnswers (sampleGraph false) (fun n _ => .ok (n != 1)) (fun n _ => n != 1) := fun _ _ => rfl
example : (removeNodes (sampleGraph false) (fun n _ => .ok (n != 1))).1.edges = [(3, 2)] := by decide +kernel

/-! ### C21: filter_nodes -/

/-- The graph attributes can be passed to the graph constructor. -/
def GraphKwSafe (a : Attrs A) : Prop :=
  ∀ k ∈ a.keys, ∃ s, k = .str s ∧ s ∉ ["self", "incoming_graph_data"]

/-- Node keys joined by an edge are comparable, and exactly one of two different keys is greater. -/
def Comparable [PyOrd V] (g : Graph V A) : Prop :=
  ∀ u v, g.hasEdge u v = true → u ≠ v → ∃ b, PyOrd.gt u v = .ok b ∧ PyOrd.gt v u = .ok (!b)

/-- C21, exactly: with comparable node keys, the copy is, up to order, the graph `remove_nodes` leaves, without its self
loops if it is undirected. -/
theorem filterNodes_exact [AttrVal A] [PyOrd V] {g : Graph V A} (h : g.WF) {pred : NodePred V A}
    {p : V → Attrs A → Bool} (hp : NodeAnswers g pred p)
    (hgkw : GraphKwSafe g.attrs)
    (hnkw : ∀ q ∈ g.node, p q.1 q.2 = true → NodeKwSafe q.2)
    (hekw : ∀ e ∈ g.edgesKeys, EdgeKwSafe g.multi e.2.2.2)
    (hcmp : g.directed = false → Comparable g)
    (hirr : g.directed = false → ∀ q ∈ g.node, p q.1 q.2 = true → g.hasEdge q.1 q.1 = true →
      PyOrd.gt q.1 q.1 = .ok false) :
    ∃ g', filterNodes g pred = .ok g' ∧
      g'.directed = g.directed ∧ g'.multi = g.multi ∧ g'.attrs = g.attrs ∧
      (∀ n, g'.node.get? n = (removeNodes g pred).1.node.get? n) ∧
      ∀ u v k, g'.edge? u v k =
        if g.directed = false ∧ u = v then none else (removeNodes g pred).1.edge? u v k := by
  have hekw' : ∀ l ∈ g.links, ∀ q ∈ l.data, EdgeKwSafe g.multi q.2 := by
    intro l hl q hq
    exact hekw ((g.orient l).u, (g.orient l).v, q.1, q.2) ((mem_edgesKeys h).2 ⟨l, hl, rfl, rfl, hq⟩)
  have hirr' : g.directed = false → ∀ u, keepNode g p u = true → g.hasEdge u u = true → PyOrd.gt u u = .ok false := by
    intro hd u hu
    unfold keepNode at hu
    rcases hg : g.node.get? u with _ | a
    · rw [hg] at hu; cases hu
    · rw [hg] at hu
      exact hirr hd (u, a) (Dict.mem_of_get? hg) hu
  let gt : V → V → Bool := fun u v => match (PyOrd.gt u v : Py Bool) with
    | .ok b => b
    | .error _ => false
  have hgt : ∀ u v b, PyOrd.gt u v = .ok b → gt u v = b := by
    intro u v b hb; simp only [gt, hb]
  obtain ⟨c, hc, hI⟩ := filterNodesLoop_ok (gt := gt) h hp hnkw hekw'
    (by
      intro hd u v hu he
      by_cases huv : u = v
      · subst huv
        rw [hgt u u false (hirr' hd u hu he), hirr' hd u hu he]
      · obtain ⟨b, hb, _⟩ := hcmp hd u v he huv
        rw [hgt u v b hb, hb])
    (by
      intro hd u v hu hv he hg
      by_cases huv : u = v
      · subst huv
        rw [hgt u u false (hirr' hd u hu he)]
      · obtain ⟨b, hb1, hb2⟩ := hcmp hd u v he huv
        rw [hgt u v b hb1] at hg
        rw [hgt v u _ hb2, hg]; rfl)
    g.node [] (by simp [nodes]) (fun q hq => hq) (Graph.empty g.directed g.multi g.attrs)
    (by
      refine ⟨rfl, rfl, rfl, ?_, ?_, ?_, ?_⟩
      · rintro x y ⟨_, _, ⟨h1, _⟩ | ⟨_, h1, _⟩⟩ <;> cases h1
      · intro x y _; rfl
      · intro x hx; cases hx
      · intro x _; exact .inl rfl)
  refine ⟨c, ?_, hI.directed, hI.multi, hI.attrs, ?_, ?_⟩
  · unfold filterNodes createNullCopy
    rw [checkKwargs_ok hgkw]
    exact hc
  · intro n
    rw [removeNodes_eq h hp]
    show c.node.get? n = (g.induced (keepNode g p)).node.get? n
    rw [get?_induced]
    by_cases hn : n ∈ g.nodes ∧ keepNode g p n = true
    · rw [hI.kept n hn.1 hn.2, if_pos hn.2]
    · rcases hI.other n hn with h1 | ⟨h1, h2, h3⟩
      · rw [h1]
        split
        · rename_i hk
          symm
          rw [Dict.get?_eq_none_iff]
          intro hm
          exact hn ⟨hm, hk⟩
        · rfl
      · exact absurd ⟨h3, h2⟩ hn
  · rw [removeNodes_eq h hp]
    have hkey : ∀ x y, c.keydict? x y =
        if g.directed = false ∧ x = y then none else (g.induced (keepNode g p)).keydict? x y := by
      intro x y
      rw [keydict?_induced]
      by_cases hxy : g.directed = false ∧ x = y
      · rw [if_pos hxy]
        obtain ⟨hdir, rfl⟩ := hxy
        by_cases hd : doneEdge g (keepNode g p) gt g.nodes x x
        · rw [hI.done x x hd]
          rcases hg : g.keydict? x x with _ | d
          · rfl
          · exfalso
            have he : g.hasEdge x x = true := by unfold hasEdge; rw [hg]; rfl
            have hf := hgt x x false (hirr' hdir x hd.1 he)
            rcases hd.2.2 with ⟨_, h1 | h1⟩ | ⟨_, _, h1⟩
            · rw [hdir] at h1; cases h1
            · rw [hf] at h1; cases h1
            · rw [hf] at h1; cases h1
        · exact hI.notDone x x hd
      · rw [if_neg hxy]
        by_cases hd : doneEdge g (keepNode g p) gt g.nodes x y
        · rw [hI.done x y hd, hd.1, hd.2.1]; rfl
        · rw [hI.notDone x y hd]
          split
          · rename_i hk
            simp only [Bool.and_eq_true] at hk
            rcases hg : g.keydict? x y with _ | d
            · rfl
            · exfalso
              have he : g.hasEdge x y = true := by unfold hasEdge; rw [hg]; rfl
              have hm := hasEdge_mem h he
              apply hd
              refine ⟨hk.1, hk.2, ?_⟩
              cases hdir : g.directed with
              | true => exact .inl ⟨hm.1, .inl rfl⟩
              | false =>
                obtain ⟨b, hb1, hb2⟩ := hcmp hdir x y he (fun e => hxy ⟨hdir, e⟩)
                cases b with
                | true => exact .inl ⟨hm.1, .inr (hgt _ _ _ hb1)⟩
                | false => exact .inr ⟨rfl, hm.2, hgt _ _ _ hb2⟩
          · rfl
    intro u v k
    unfold edge?
    rw [hkey]
    split <;> rfl

/-- C21 for directed graphs (self loops allowed), and for undirected graphs without self loops on kept
nodes and with comparable node keys: the copy is, up to order, the graph `remove_nodes` leaves.
Missing for the full claim: undirected self loops and incomparable keys (refuted below). -/
theorem filterNodes_partial [AttrVal A] [PyOrd V] {g : Graph V A} (h : g.WF) {pred : NodePred V A}
    {p : V → Attrs A → Bool} (hp : NodeAnswers g pred p)
    (hgkw : GraphKwSafe g.attrs)
    (hnkw : ∀ q ∈ g.node, p q.1 q.2 = true → NodeKwSafe q.2)
    (hekw : ∀ e ∈ g.edgesKeys, EdgeKwSafe g.multi e.2.2.2)
    (hcmp : g.directed = false → Comparable g)
    (hloop : g.directed = false → ∀ q ∈ g.node, p q.1 q.2 = true → g.hasEdge q.1 q.1 = false) :
    ∃ g', filterNodes g pred = .ok g' ∧ Same g' (removeNodes g pred).1 := by
  obtain ⟨g', h1, h2, h3, h4, h5, h6⟩ := filterNodes_exact h hp hgkw hnkw hekw hcmp
    (fun hd q hq hk he => by rw [hloop hd q hq hk] at he; cases he)
  refine ⟨g', h1, ?_⟩
  rw [removeNodes_eq h hp] at h5 h6 ⊢
  refine ⟨h2, h3, h4, h5, fun u v k => ?_⟩
  rw [h6]
  split
  · rename_i hc
    obtain ⟨hd, rfl⟩ := hc
    symm
    unfold edge?
    rw [keydict?_induced]
    split
    · rename_i hk
      simp only [Bool.and_self] at hk
      have : g.hasEdge u u = false := by
        unfold keepNode at hk
        rcases hg : g.node.get? u with _ | a
        · rw [hg] at hk; cases hk
        · rw [hg] at hk
          exact hloop hd (u, a) (Dict.mem_of_get? hg) hk
      unfold hasEdge at this
      rw [Option.isSome_eq_false_iff, Option.isNone_iff_eq_none] at this
      rw [this]; rfl
    · rfl
  · rfl

/-- What the inner loop compares. -/
theorem filterNodesEdges_cases [AttrVal A] [PyOrd V] {g : Graph V A} {pred : NodePred V A} {p : V → Attrs A → Bool}
    (hd : g.directed = false) (es : List (V × V × PyKey × Attrs A)) (copy : Graph V A) (hm : copy.multi = g.multi)
    (hes : ∀ e ∈ es, ∃ a, g.nodeData e.2.1 = .ok a ∧ pred e.2.1 a = .ok (p e.2.1 a))
    (hkw : ∀ e ∈ es, EdgeKwSafe g.multi e.2.2.2) :
    (∃ c, filterNodesEdges g pred es copy = .ok c ∧ c.multi = g.multi ∧
        ∀ e ∈ es, ∃ b, PyOrd.gt e.1 e.2.1 = .ok b) ∨
      ∃ x, filterNodesEdges g pred es copy = .error x ∧ ∃ e ∈ es, PyOrd.gt e.1 e.2.1 = .error x := by
  induction es generalizing copy with
  | nil => exact .inl ⟨copy, rfl, hm, by simp⟩
  | cons e es ih =>
    obtain ⟨u, v, k, a⟩ := e
    obtain ⟨av, h1, h2⟩ := hes (u, v, k, a) (by simp)
    have hk := hkw (u, v, k, a) (by simp)
    simp only at h1 h2 hk
    have ih' := fun (c : Graph V A) (hc : c.multi = g.multi) =>
      ih c hc (fun e he => hes e (by simp [he])) (fun e he => hkw e (by simp [he]))
    simp only [filterNodesEdges, hd, Bool.false_eq_true, if_false]
    cases hg : (PyOrd.gt u v : Py Bool) with
    | error x => exact .inr ⟨x, rfl, (u, v, k, a), by simp, hg⟩
    | ok b =>
      have lift : ∀ c : Graph V A, c.multi = g.multi →
          (∃ c', filterNodesEdges g pred es c = .ok c' ∧ c'.multi = g.multi ∧
              ∀ e ∈ (u, v, k, a) :: es, ∃ b, PyOrd.gt e.1 e.2.1 = .ok b) ∨
            ∃ x, filterNodesEdges g pred es c = .error x ∧
              ∃ e ∈ (u, v, k, a) :: es, PyOrd.gt e.1 e.2.1 = .error x := by
        intro c hc
        rcases ih' c hc with ⟨c', i1, i2, i3⟩ | ⟨x, i1, e, i2, i3⟩
        · refine .inl ⟨c', i1, i2, fun e he => ?_⟩
          rcases List.mem_cons.1 he with rfl | he
          · exact ⟨b, hg⟩
          · exact i3 e he
        · exact .inr ⟨x, i1, e, List.mem_cons_of_mem _ i2, i3⟩
      cases b with
      | false => exact lift copy hm
      | true =>
        simp only [h1, h2]
        cases p v av with
        | false => exact lift copy hm
        | true =>
          have hadd : (if g.multi then copy.addEdgeKey u v k a else copy.addEdge u v a) =
              .ok (copy.addEdgeCore u v (if g.multi then some k else none) a) := by
            cases hmm : g.multi with
            | true =>
              simp only [if_true]
              rw [addEdgeKey_ok (hm.trans hmm) (by rw [hm]; exact hk)]
            | false =>
              simp only [Bool.false_eq_true, if_false]
              rw [addEdge_ok (by rw [hm]; exact hk)]
          rw [hadd]
          exact lift _ (by rw [addEdgeCore_multi]; exact hm)

/-- C21: on an undirected graph, it raises exactly when a kept node cannot be compared to one of its neighbors, kept or
not, and raises what the comparison does. -/
theorem filterNodes_raises_iff [AttrVal A] [PyOrd V] {g : Graph V A} (h : g.WF) (hd : g.directed = false)
    {pred : NodePred V A} {p : V → Attrs A → Bool} (hp : NodeAnswers g pred p)
    (hgkw : GraphKwSafe g.attrs)
    (hnkw : ∀ q ∈ g.node, p q.1 q.2 = true → NodeKwSafe q.2)
    (hekw : ∀ e ∈ g.edgesKeys, EdgeKwSafe g.multi e.2.2.2) :
    (∃ g', filterNodes g pred = .ok g' ∧
        ∀ q ∈ g.node, p q.1 q.2 = true → ∀ v, g.hasEdge q.1 v = true → ∃ b, PyOrd.gt q.1 v = .ok b) ∨
      ∃ x, filterNodes g pred = .error x ∧
        ∃ q ∈ g.node, p q.1 q.2 = true ∧ ∃ v, g.hasEdge q.1 v = true ∧ PyOrd.gt q.1 v = .error x := by
  have hekw' : ∀ l ∈ g.links, ∀ q ∈ l.data, EdgeKwSafe g.multi q.2 := by
    intro l hl q hq
    exact hekw ((g.orient l).u, (g.orient l).v, q.1, q.2) ((mem_edgesKeys h).2 ⟨l, hl, rfl, rfl, hq⟩)
  have loop : ∀ (rest : Dict V (Attrs A)) (copy : Graph V A), (∀ q ∈ rest, q ∈ g.node) → copy.multi = g.multi →
      (∃ c, filterNodesLoop g pred rest copy = .ok c ∧
          ∀ q ∈ rest, p q.1 q.2 = true → ∀ v, g.hasEdge q.1 v = true → ∃ b, PyOrd.gt q.1 v = .ok b) ∨
        ∃ x, filterNodesLoop g pred rest copy = .error x ∧
          ∃ q ∈ rest, p q.1 q.2 = true ∧ ∃ v, g.hasEdge q.1 v = true ∧ PyOrd.gt q.1 v = .error x := by
    intro rest
    induction rest with
    | nil => intro copy _ _; exact .inl ⟨copy, rfl, by simp⟩
    | cons q rest ih =>
      intro copy hsub hm
      obtain ⟨n, a⟩ := q
      have hq := hsub (n, a) (by simp)
      have hpn := hp (n, a) hq
      simp only at hpn
      have hsub' : ∀ q ∈ rest, q ∈ g.node := fun q hq => hsub q (by simp [hq])
      simp only [filterNodesLoop, hpn]
      cases hpv : p n a with
      | false =>
        rcases ih copy hsub' hm with ⟨c, i1, i2⟩ | ⟨x, i1, q, i2, i3⟩
        · refine .inl ⟨c, i1, fun q hq hk => ?_⟩
          rcases List.mem_cons.1 hq with rfl | hq
          · rw [hpv] at hk; cases hk
          · exact i2 q hq hk
        · exact .inr ⟨x, i1, q, List.mem_cons_of_mem _ i2, i3⟩
      | true =>
        simp only
        rw [addNode_ok (hnkw (n, a) hq hpv)]
        simp only
        have hedges : ∀ e ∈ g.edgesOf n, e.1 = n ∧ ∃ d, (e.2.1, d) ∈ g.adj n ∧ (e.2.2.1, e.2.2.2) ∈ d := by
          intro e he
          unfold edgesOf at he
          obtain ⟨q, hq, he⟩ := List.mem_flatMap.1 he
          obtain ⟨ka, hka, rfl⟩ := List.mem_map.1 he
          exact ⟨rfl, q.2, hq, hka⟩
        have hadjEdge : ∀ v d, (v, d) ∈ g.adj n → g.hasEdge n v = true := by
          intro v d hvd
          unfold hasEdge
          rw [(mem_adj h).1 hvd]; rfl
        have hes : ∀ e ∈ g.edgesOf n, ∃ a, g.nodeData e.2.1 = .ok a ∧ pred e.2.1 a = .ok (p e.2.1 a) := by
          intro e he
          obtain ⟨h1, d, h2, h3⟩ := hedges e he
          have hv := (hasEdge_mem h (hadjEdge _ _ h2)).2
          obtain ⟨av, hav⟩ := Dict.exists_get?_of_mem_keys hv
          refine ⟨av, ?_, hp _ (Dict.mem_of_get? hav)⟩
          unfold nodeData Dict.getItem; rw [hav]
        have hkw : ∀ e ∈ g.edgesOf n, EdgeKwSafe g.multi e.2.2.2 := by
          intro e he
          obtain ⟨h1, d, h2, h3⟩ := hedges e he
          obtain ⟨l, hl, _, hld⟩ := (keydict?_eq_some h).1 ((mem_adj h).1 h2)
          rw [← hld] at h3
          exact hekw' l hl _ h3
        rcases filterNodesEdges_cases (p := p) hd (g.edgesOf n) (copy.addNodeCore n a) hm hes hkw with
          ⟨c, j1, j2, j3⟩ | ⟨x, j1, e, j2, j3⟩
        · rw [j1]
          simp only
          rcases ih c hsub' j2 with ⟨c', i1, i2⟩ | ⟨x, i1, q, i2, i3⟩
          · refine .inl ⟨c', i1, fun q hq hk v hv => ?_⟩
            rcases List.mem_cons.1 hq with rfl | hq
            · obtain ⟨d, hkd⟩ : ∃ d, g.keydict? n v = some d := by
                unfold hasEdge at hv
                exact Option.isSome_iff_exists.1 hv
              obtain ⟨l, hl, _, hld⟩ := (keydict?_eq_some h).1 hkd
              obtain ⟨ka, hka⟩ := List.exists_mem_of_ne_nil _ (h.nonempty l hl)
              rw [hld] at hka
              have hmem : (n, v, ka.1, ka.2) ∈ g.edgesOf n := by
                unfold edgesOf
                exact List.mem_flatMap.2 ⟨(v, d), (mem_adj h).2 hkd, List.mem_map.2 ⟨ka, hka, rfl⟩⟩
              exact j3 _ hmem
            · exact i2 q hq hk v hv
          · exact .inr ⟨x, i1, q, List.mem_cons_of_mem _ i2, i3⟩
        · rw [j1]
          obtain ⟨h1, d, h2, h3⟩ := hedges e j2
          refine .inr ⟨x, rfl, (n, a), by simp, hpv, e.2.1, hadjEdge _ _ h2, ?_⟩
          simp only
          rw [← h1]; exact j3
  unfold filterNodes createNullCopy
  rw [checkKwargs_ok hgkw]
  exact loop g.node _ (fun q hq => hq) rfl

/-- Non-triviality: an undirected graph with comparable keys and no self loop. -/
example : Comparable (sampleGraph false) ∧ GraphKwSafe (sampleGraph false).attrs := by
  constructor
  · intro u v _ hne
    refine ⟨decide (u > v), rfl, ?_⟩
    show (Except.ok (decide (v > u)) : Py Bool) = _
    congr 1
    rw [← decide_not, decide_eq_decide]
    omega
  · intro k hk
    exact ⟨"name", by simpa [sampleGraph, Dict.keys] using hk, by decide⟩

/-- A case meeting the hypotheses of `filterNodes_exact`, with a self loop on a kept node. -/
example :
    let g : Graph Int Int := ⟨false, false, [], [(0, []), (1, [])], [⟨0, 0, [(.int 0, [])]⟩, ⟨0, 1, [(.int 0, [])]⟩]⟩
    g.WF ∧ NodeAnswers g (fun n _ => .ok (decide (n = 0))) (fun n _ => decide (n = 0)) ∧ GraphKwSafe g.attrs ∧
      Comparable g ∧ (∀ n, g.hasEdge n n = true → PyOrd.gt n n = .ok false) ∧ g.hasEdge 0 0 = true := by
  refine ⟨by constructor <;> decide, fun _ _ => rfl, by intro k hk; simp [Dict.keys] at hk, ?_, ?_, by decide⟩
  · intro u v _ hne
    refine ⟨decide (u > v), rfl, ?_⟩
    show (Except.ok (decide (v > u)) : Py Bool) = _
    congr 1
    rw [← decide_not, decide_eq_decide]
    omega
  · intro n _
    show (Except.ok (decide (n > n)) : Py Bool) = _
    simp

/-- C21 is false with an undirected self loop: it disappears although its node is kept. -/
theorem filterNodes_drops_self_loop :
    ∃ g g' : Graph Int Int, g.WF ∧ filterNodes g (fun _ _ => .ok true) = .ok g' ∧
      g.hasEdge 0 0 = true ∧ (removeNodes g (fun _ _ => .ok true)).1.hasEdge 0 0 = true ∧ g'.hasEdge 0 0 = false := by
  refine ⟨⟨false, false, [], [(0, [])], [⟨0, 0, [(.int 0, [])]⟩]⟩,
    ⟨false, false, [], [(0, [])], []⟩, ?_, rfl, by decide, by decide +kernel, by decide⟩
  constructor <;> decide

/-- C21 is false with incomparable node keys: the call raises. -/
theorem filterNodes_incomparable :
    ∃ g : Graph PyKey Int, g.WF ∧ (∃ tag, filterNodes g (fun _ _ => .ok true) = .error (.typeError tag)) := by
  refine ⟨⟨false, false, [], [(.int 0, []), (.str "a", [])], [⟨.int 0, .str "a", [(.int 0, [])]⟩]⟩, ?_, _, rfl⟩
  constructor <;> decide

/-! ### C22: leaves -/

/-- The degree of a node: the number of ends of listed edges at it. -/
def degreeSpec (g : Graph V A) (n : V) : Nat :=
  (g.edges.map (fun e => (if e.1 = n then 1 else 0) + (if e.2 = n then 1 else 0))).sum

/-- C22.  `remove_leaves` leaves the subgraph induced by the nodes whose degree in the original graph is
not 1. -/
theorem removeLeaves_exact {g : Graph V A} (h : g.WF) :
    ∃ g', removeLeaves g = (g', .ok ()) ∧ g'.WF ∧ g'.directed = g.directed ∧ g'.multi = g.multi ∧
      g'.attrs = g.attrs ∧ g'.node = g.node.filter (fun q => decide (degreeSpec g q.1 ≠ 1)) ∧
      g'.edgesKeys = g.edgesKeys.filter (fun e => decide (e.1 ∈ g'.nodes) && decide (e.2.1 ∈ g'.nodes)) := by
  have := removeNodes_exact h (pred := fun n _ => .ok (decide (g.degree n ≠ 1)))
    (p := fun n _ => decide (degreeSpec g n ≠ 1))
    (by intro q _; simp only; rw [degree_eq h]; rfl)
  exact this

/-- C22.  `filter_leaves` returns, up to order, the same graph, under the conditions of
`filterNodes_partial`. -/
theorem filterLeaves_partial [AttrVal A] [PyOrd V] {g : Graph V A} (h : g.WF)
    (hgkw : GraphKwSafe g.attrs) (hnkw : ∀ q ∈ g.node, NodeKwSafe q.2)
    (hekw : ∀ e ∈ g.edgesKeys, EdgeKwSafe g.multi e.2.2.2)
    (hcmp : g.directed = false → Comparable g)
    (hloop : g.directed = false → ∀ n ∈ g.nodes, g.hasEdge n n = false) :
    ∃ g', filterLeaves g = .ok g' ∧ Same g' (removeLeaves g).1 :=
  filterNodes_partial h (p := fun n _ => decide (g.degree n ≠ 1)) (fun _ _ => rfl) hgkw
    (fun q hq _ => hnkw q hq) hekw hcmp (fun hd q hq _ => hloop hd q.1 (List.mem_map_of_mem hq))

/-- C22, exactly: `filter_leaves` returns the graph `remove_leaves` leaves, without its self loops if it is undirected. -/
theorem filterLeaves_exact [AttrVal A] [PyOrd V] {g : Graph V A} (h : g.WF)
    (hgkw : GraphKwSafe g.attrs) (hnkw : ∀ q ∈ g.node, NodeKwSafe q.2)
    (hekw : ∀ e ∈ g.edgesKeys, EdgeKwSafe g.multi e.2.2.2)
    (hcmp : g.directed = false → Comparable g)
    (hirr : g.directed = false → ∀ n, g.hasEdge n n = true → PyOrd.gt n n = .ok false) :
    ∃ g', filterLeaves g = .ok g' ∧
      g'.directed = g.directed ∧ g'.multi = g.multi ∧ g'.attrs = g.attrs ∧
      (∀ n, g'.node.get? n = (removeLeaves g).1.node.get? n) ∧
      ∀ u v k, g'.edge? u v k =
        if g.directed = false ∧ u = v then none else (removeLeaves g).1.edge? u v k :=
  filterNodes_exact h (p := fun n _ => decide (g.degree n ≠ 1)) (fun _ _ => rfl) hgkw
    (fun q hq _ => hnkw q hq) hekw hcmp (fun hd q _ _ => hirr hd q.1)

/-- A path with four nodes loses its two ends only. -/
example : (removeLeaves (⟨false, false, [], [(0, []), (1, []), (2, []), (3, [])],
    [⟨0, 1, [(.int 0, [])]⟩, ⟨1, 2, [(.int 0, [])]⟩, ⟨2, 3, [(.int 0, [])]⟩]⟩ : Graph Int Int)).1.nodes = [1, 2] := by
  decide +kernel

/-! ### C26: comparison -/

/-- C26 for simple graphs of the same kind: `are_same_graphs` never raises, and is true exactly when the
graphs have the same nodes and edges (and the same attributes if they are to be checked).  Multigraphs
are refuted below. -/
theorem areSameGraphs_iff [DecidableEq A] {a b : Graph V A} (ha : a.WF) (hb : b.WF)
    (hma : a.multi = false) (hmb : b.multi = false) (hd : a.directed = b.directed) (check : Bool) :
    ∃ r, areSameGraphs a b check = .ok r ∧
      (r = true ↔ SameShape a b ∧ (check = true → SameAttributes a b)) := by
  obtain ⟨rn, hrn, hn⟩ := haveSameNodesLoop_ok b check a.node
  obtain ⟨re, hre, he⟩ := haveSameEdgesLoop_ok b check a.edgesData
  -- simple edges
  have hedge0 : ∀ {g : Graph V A}, g.WF → g.multi = false → ∀ u v k x, g.edge? u v k = some x →
      k = .int 0 ∧ ∃ l ∈ g.links, samePair g.directed u v l.u l.v = true ∧ l.data = [(.int 0, x)] := by
    intro g hg hm u v k x hx
    unfold edge? at hx
    obtain ⟨d, hd1, hd2⟩ := Option.bind_eq_some_iff.1 hx
    obtain ⟨l, hl, hs, rfl⟩ := (keydict?_eq_some hg).1 hd1
    have hk := hg.simple hm l hl
    have hmem := Dict.mem_of_get? hd2
    rcases hdata : l.data with _ | ⟨q, rest⟩
    · rw [hdata] at hk; cases hk
    · rw [hdata] at hk hmem
      simp only [Dict.keys_cons, List.cons.injEq] at hk
      have hrest : rest = [] := List.map_eq_nil_iff.1 hk.2
      subst hrest
      simp only [List.mem_singleton] at hmem
      subst hmem
      simp only at hk
      obtain ⟨rfl, _⟩ := hk
      exact ⟨rfl, l, hl, hs, hdata⟩
  have hedgeData : ∀ u v x, (u, v, x) ∈ a.edgesData → a.edge? u v (.int 0) = some x := by
    intro u v x hx
    obtain ⟨l, hl, h1, h2, k, hk⟩ := (mem_edgesData ha).1 hx
    have hs : samePair a.directed u v l.u l.v = true := by
      rw [← h1, ← h2]; exact a.orient_samePair l
    have hkd : a.keydict? u v = some l.data := (keydict?_eq_some ha).2 ⟨l, hl, hs, rfl⟩
    have hk0 : k = .int 0 := by
      have := Dict.mem_keys_of_mem hk
      rw [ha.simple hma l hl] at this
      simpa using this
    subst hk0
    unfold edge?
    rw [hkd]
    exact Dict.get?_of_mem (ha.keys l hl) hk
  have hdataeq : ∀ u v x, (u, v, x) ∈ a.edgesData → b.hasEdge u v = true →
      (edgeDataEq b x u v = .ok true ↔ ∃ y, b.edge? u v (.int 0) = some y ∧ DictEq x y) := by
    intro u v x hx hE
    unfold hasEdge at hE
    obtain ⟨d, hdd⟩ := Option.isSome_iff_exists.1 hE
    obtain ⟨l, hl, hs, rfl⟩ := (keydict?_eq_some hb).1 hdd
    have hk := hb.simple hmb l hl
    rcases hdata : l.data with _ | ⟨q, rest⟩
    · rw [hdata] at hk; cases hk
    · obtain ⟨k, y⟩ := q
      have hk' := hk
      rw [hdata] at hk'
      simp only [Dict.keys_cons, List.cons.injEq] at hk'
      have hrest : rest = [] := List.map_eq_nil_iff.1 hk'.2
      obtain ⟨rfl, _⟩ := hk'
      subst hrest
      unfold edgeDataEq edge?
      rw [hdd, hmb, hdata]
      simp only [Bool.false_eq_true, if_false, Dict.get?_cons, if_true, Option.getD_some, Option.bind_some,
        Option.some.injEq, exists_eq_left', Except.ok.injEq]
      obtain ⟨l', hl', _, _, k', hk'⟩ := (mem_edgesData ha).1 hx
      exact attrsEq_iff (ha.edgeAttrs l' hl' _ hk') (hb.edgeAttrs l hl (.int 0, y) (by rw [hdata]; simp))
  -- nodes
  have hnodes : (a.order = b.order ∧ rn = true) ↔
      (∀ n, n ∈ a.nodes ↔ n ∈ b.nodes) ∧ (check = true → ∀ n x, a.node.get? n = some x →
        ∃ y, b.node.get? n = some y ∧ DictEq x y) := by
    constructor
    · rintro ⟨ho, hr⟩
      have hn' := hn.1 hr
      have hsub : a.nodes ⊆ b.nodes := by
        intro n hnm
        obtain ⟨q, hq, rfl⟩ := List.mem_map.1 hnm
        obtain ⟨y, hy, _⟩ := hn' q hq
        exact Dict.mem_keys_of_mem (Dict.mem_of_get? hy)
      have hperm : a.nodes.Perm b.nodes := (ha.nodup.subperm hsub).perm_of_length_le (by
        simp only [nodes, Dict.keys, List.length_map]
        unfold order at ho
        omega)
      refine ⟨fun n => hperm.mem_iff, ?_⟩
      intro hc n x hx
      obtain ⟨y, hy, heq⟩ := hn' (n, x) (Dict.mem_of_get? hx)
      exact ⟨y, hy, (attrsEq_iff (ha.nodeAttrs _ (Dict.mem_of_get? hx)) (hb.nodeAttrs _ (Dict.mem_of_get? hy))).1 (heq hc)⟩
    · rintro ⟨hiff, hat⟩
      constructor
      · have hperm : a.nodes.Perm b.nodes := (List.perm_ext_iff_of_nodup ha.nodup hb.nodup).2 hiff
        have := hperm.length_eq
        unfold order
        simpa [nodes, Dict.keys] using this
      · rw [hn]
        intro q hq
        have hqa := Dict.get?_of_mem ha.nodup (k := q.1) (v := q.2) hq
        obtain ⟨y, hy⟩ := Dict.exists_get?_of_mem_keys ((hiff q.1).1 (List.mem_map_of_mem hq))
        refine ⟨y, hy, ?_⟩
        intro hc
        obtain ⟨y', hy', heq⟩ := hat hc q.1 q.2 hqa
        rw [hy] at hy'
        cases hy'
        exact (attrsEq_iff (ha.nodeAttrs _ hq) (hb.nodeAttrs _ (Dict.mem_of_get? hy))).2 heq
  -- edges
  have hedges : (a.size = b.size ∧ re = true) ↔
      (∀ u v, a.hasEdge u v = b.hasEdge u v) ∧ (check = true → ∀ u v k x, a.edge? u v k = some x →
        ∃ y, b.edge? u v k = some y ∧ DictEq x y) := by
    rw [size_simple ha hma, size_simple hb hmb]
    have hlisted : ∀ {g : Graph V A}, g.WF → ∀ l ∈ g.links, ∃ x, ((g.orient l).u, (g.orient l).v, x) ∈ g.edgesData := by
      intro g hg l hl
      rcases hdata : l.data with _ | ⟨q, rest⟩
      · exact absurd hdata (hg.nonempty l hl)
      · exact ⟨q.2, (mem_edgesData hg).2 ⟨l, hl, rfl, rfl, q.1, by rw [hdata]; simp⟩⟩
    constructor
    · rintro ⟨hlen, hr⟩
      have he' := he.1 hr
      have hsub : ∀ l ∈ a.links, ∃ m ∈ b.links, samePair a.directed l.u l.v m.u m.v = true := by
        intro l hl
        obtain ⟨x, hx⟩ := hlisted ha l hl
        obtain ⟨m, hm, hs⟩ := hasEdge_iff.1 (he' _ hx).1
        rw [← hd] at hs
        refine ⟨m, hm, ?_⟩
        simp only at hs
        rw [← samePair_trans (a.orient_samePair l)]
        exact hs
      have hcov := links_cover ha.uniq (by rw [hd]; exact hb.uniq) hlen hsub
      refine ⟨?_, ?_⟩
      · intro u v
        rw [Bool.eq_iff_iff, hasEdge_iff, hasEdge_iff]
        constructor
        · rintro ⟨l, hl, hs⟩
          obtain ⟨m, hm, hs'⟩ := hsub l hl
          exact ⟨m, hm, by rw [← hd, samePair_trans hs]; exact hs'⟩
        · rintro ⟨m, hm, hs⟩
          obtain ⟨l, hl, hs'⟩ := hcov m hm
          refine ⟨l, hl, ?_⟩
          rw [← hd] at hs
          rw [samePair_trans hs, samePair_comm]; exact hs'
      · intro hc u v k x hx
        obtain ⟨rfl, l, hl, hs, hdata⟩ := hedge0 ha hma u v k x hx
        have hx' : ((a.orient l).u, (a.orient l).v, x) ∈ a.edgesData :=
          (mem_edgesData ha).2 ⟨l, hl, rfl, rfl, .int 0, by rw [hdata]; simp⟩
        obtain ⟨h1, h2⟩ := he' _ hx'
        obtain ⟨y, hy, hyeq⟩ := (hdataeq _ _ _ hx' h1).1 (h2 hc)
        refine ⟨y, ?_, hyeq⟩
        unfold edge? at hy ⊢
        have hsp : samePair b.directed u v (a.orient l).u (a.orient l).v = true := by
          rw [← hd, samePair_trans hs, samePair_comm]
          exact a.orient_samePair l
        rw [keydict?_samePair hsp]
        exact hy
    · rintro ⟨hiff, hat⟩
      constructor
      · have hcovlen : ∀ {L M : List (Link V A)} {d : Bool},
            L.Pairwise (fun l m => samePair d l.u l.v m.u m.v = false) →
            (∀ l ∈ L, ∃ m ∈ M, samePair d l.u l.v m.u m.v = true) → L.length ≤ M.length := by
          intro L M d hL hLM
          have hinj : (L.map (fun l => (M.findIdx (fun m => samePair d l.u l.v m.u m.v)))).Nodup := by
            rw [List.Nodup, List.pairwise_map]
            refine hL.imp_of_mem ?_
            intro l m hl hm hs e
            obtain ⟨x, hx, hsx⟩ := hLM l hl
            obtain ⟨y, hy, hsy⟩ := hLM m hm
            have h1 : M.findIdx (fun x => samePair d l.u l.v x.u x.v) < M.length :=
              List.findIdx_lt_length_of_exists ⟨x, hx, hsx⟩
            have h2 : M.findIdx (fun x => samePair d m.u m.v x.u x.v) < M.length :=
              List.findIdx_lt_length_of_exists ⟨y, hy, hsy⟩
            have h3 := List.findIdx_getElem (w := h1)
            have h4 := List.findIdx_getElem (w := h2)
            have e' : M[M.findIdx (fun x => samePair d l.u l.v x.u x.v)] =
                M[M.findIdx (fun x => samePair d m.u m.v x.u x.v)] := by congr 1
            rw [← e', ← samePair_comm, ] at h4
            rw [samePair_trans h3, h4] at hs
            cases hs
          have hsub : L.map (fun l => (M.findIdx (fun m => samePair d l.u l.v m.u m.v))) ⊆ List.range M.length := by
            intro i hi
            obtain ⟨l, hl, rfl⟩ := List.mem_map.1 hi
            obtain ⟨m, hm, hs⟩ := hLM l hl
            exact List.mem_range.2 (List.findIdx_lt_length_of_exists ⟨m, hm, hs⟩)
          have := (hinj.subperm hsub).length_le
          simpa using this
        apply Nat.le_antisymm
        · refine hcovlen ha.uniq ?_
          intro l hl
          have : b.hasEdge l.u l.v = true := by
            rw [← hiff]
            exact hasEdge_iff.2 ⟨l, hl, samePair_refl _ _ _⟩
          obtain ⟨m, hm, hs⟩ := hasEdge_iff.1 this
          exact ⟨m, hm, by rw [hd]; exact hs⟩
        · refine hcovlen hb.uniq ?_
          intro l hl
          have : a.hasEdge l.u l.v = true := by
            rw [hiff]
            exact hasEdge_iff.2 ⟨l, hl, samePair_refl _ _ _⟩
          obtain ⟨m, hm, hs⟩ := hasEdge_iff.1 this
          exact ⟨m, hm, by rw [← hd]; exact hs⟩
      · rw [he]
        rintro ⟨u, v, x⟩ hx
        have h0 := hedgeData u v x hx
        have hE : b.hasEdge u v = true := by
          rw [← hiff]
          unfold hasEdge
          unfold edge? at h0
          obtain ⟨d, hd1, _⟩ := Option.bind_eq_some_iff.1 h0
          rw [hd1]; rfl
        refine ⟨hE, fun hc => ?_⟩
        exact (hdataeq u v x hx hE).2 (hat hc u v _ x h0)
  -- assembling
  unfold areSameGraphs haveSameNodes
  by_cases ho : a.order = b.order
  · rw [if_neg (by simpa using ho), hrn]
    cases hrnv : rn with
    | false =>
      refine ⟨false, rfl, ?_⟩
      simp only [Bool.false_eq_true, false_iff]
      rintro ⟨h1, h2⟩
      have := hnodes.2 ⟨h1.nodes, fun hc => (h2 hc).node⟩
      rw [hrnv] at this
      cases this.2
    | true =>
      simp only
      have hN := hnodes.1 ⟨ho, hrnv⟩
      unfold haveSameEdges
      by_cases hsz : a.size = b.size
      · rw [if_neg (by simpa using hsz), hre]
        refine ⟨re, rfl, ?_⟩
        constructor
        · intro hr
          have hE := hedges.1 ⟨hsz, hr⟩
          exact ⟨⟨hN.1, hE.1⟩, fun hc => ⟨hN.2 hc, hE.2 hc⟩⟩
        · rintro ⟨h1, h2⟩
          exact (hedges.2 ⟨h1.edges, fun hc => (h2 hc).edge⟩).2
      · rw [if_pos (by simpa using hsz)]
        refine ⟨false, rfl, ?_⟩
        simp only [Bool.false_eq_true, false_iff]
        rintro ⟨h1, h2⟩
        exact hsz (hedges.2 ⟨h1.edges, fun hc => (h2 hc).edge⟩).1
  · rw [if_pos (by simpa using ho)]
    refine ⟨false, rfl, ?_⟩
    simp only [Bool.false_eq_true, false_iff]
    rintro ⟨h1, h2⟩
    exact ho (hnodes.2 ⟨h1.nodes, fun hc => (h2 hc).node⟩).1

example : areSameGraphs (sampleGraph false) (sampleGraph false) true = .ok true ∧
    areSameGraphs (sampleGraph false) (removeEdges (sampleGraph false) (fun u _ _ => .ok (u != 3))).1 false = .ok false := by
  decide +kernel

/-- C26 is false on multigraphs: multiplicities are not compared. -/
theorem areSameGraphs_multi_wrong :
    ∃ a b : Graph Int Int, a.WF ∧ b.WF ∧ a.multi = true ∧ b.multi = true ∧
      areSameGraphs a b false = .ok true ∧
      a.edges = [(0, 1), (0, 1), (2, 3)] ∧ b.edges = [(0, 1), (2, 3), (2, 3)] := by
  refine ⟨⟨false, true, [], [(0, []), (1, []), (2, []), (3, [])],
      [⟨0, 1, [(.int 0, []), (.int 1, [])]⟩, ⟨2, 3, [(.int 0, [])]⟩]⟩,
    ⟨false, true, [], [(0, []), (1, []), (2, []), (3, [])],
      [⟨0, 1, [(.int 0, [])]⟩, ⟨2, 3, [(.int 0, []), (.int 1, [])]⟩]⟩, ?_, ?_, rfl, rfl, by decide +kernel,
      by decide +kernel, by decide +kernel⟩ <;> constructor <;> decide

/-- C26 is false on multigraphs: with attributes checked, a multigraph with an edge is never the same as
itself. -/
theorem areSameGraphs_multi_irreflexive [DecidableEq A] {g : Graph V A} (h : g.WF) (hm : g.multi = true)
    (hne : g.edgesData ≠ []) : areSameGraphs g g true = .ok false := by
  obtain ⟨rn, hrn, hn⟩ := haveSameNodesLoop_ok g true g.node
  have hrnt : rn = true := by
    rw [hn]
    intro q hq
    refine ⟨q.2, Dict.get?_of_mem h.nodup hq, fun _ => ?_⟩
    exact (attrsEq_iff (h.nodeAttrs q hq) (h.nodeAttrs q hq)).2 (fun _ => rfl)
  obtain ⟨re, hre, he⟩ := haveSameEdgesLoop_ok g true g.edgesData
  have href : re = false := by
    cases hr : re with
    | false => rfl
    | true =>
      exfalso
      obtain ⟨e, hee⟩ := List.exists_mem_of_ne_nil _ hne
      obtain ⟨h1, h2⟩ := he.1 hr e hee
      have h3 := h2 rfl
      unfold edgeDataEq at h3
      unfold hasEdge at h1
      obtain ⟨d, hd⟩ := Option.isSome_iff_exists.1 h1
      rw [hd, hm] at h3
      obtain ⟨l, hl, _, rfl⟩ := (keydict?_eq_some h).1 hd
      simp only [if_true, Except.ok.injEq, Bool.and_eq_true] at h3
      exact h.nonempty l hl (List.isEmpty_iff.1 h3.2)
  unfold areSameGraphs haveSameNodes haveSameEdges
  simp only [ne_eq, not_true_eq_false, if_false]
  rw [hrn, hrnt]
  simp only
  rw [hre, href]

example : twoParallel.edgesData ≠ [] ∧ twoParallel.multi = true := by decide +kernel

end Pelote
