import Verif.Props.ReorderTrees
import Verif.Props.Scale

/-! Property C74, continued: projections, and what does depend on the order. -/
namespace Pelote

section
variable {V A : Type} [DecidableEq V] {g g' : Graph V A}

theorem same_of_simple (h : g.WF) (h' : g'.WF) (hd : g.directed = g'.directed) (hm : g.multi = false) (hm' : g'.multi = false)
    (ha : g.attrs = g'.attrs) (hn : ∀ n, g.node.get? n = g'.node.get? n)
    (he : ∀ u v a, g.edge? u v (.int 0) = some a ↔ g'.edge? u v (.int 0) = some a) : g.Same g' := by
  refine ⟨hd, hm.trans hm'.symm, ha, hn, fun u v k => ?_⟩
  by_cases hk : k = .int 0
  · subst hk
    exact Option.ext (fun a => he u v a)
  · rw [edge?_simple h hm hk, edge?_simple h' hm' hk]

theorem Graph.Same.nbhd (s : g.Same g') (h : g.WF) (h' : g'.WF) (n : V) : g.nbhd n = g'.nbhd n := by
  ext x
  simp only [Graph.nbhd, List.mem_toFinset, List.mem_filter, s.mem_nodes, s.hasEdge h h']

theorem Graph.Same.outs (s : g.Same g') (h : g.WF) (h' : g'.WF) (n : V) : g.outs n = g'.outs n := by
  ext x
  simp only [Graph.outs, List.mem_toFinset, List.mem_filter, s.mem_nodes, s.hasEdge h h']

theorem Graph.Same.ins (s : g.Same g') (h : g.WF) (h' : g'.WF) (n : V) : g.ins n = g'.ins n := by
  ext x
  simp only [Graph.ins, List.mem_toFinset, List.mem_filter, s.mem_nodes, s.hasEdge h h']

end

section
variable {V K : Type} [LinearOrder V] [Field K] [LinearOrder K] [IsStrictOrderedRing K] {g g' : Graph V (Val K)}

omit [IsStrictOrderedRing K] in
theorem Graph.Same.inPart (s : g.Same g') (partAttr : String) (part : Part V K) (n : V) :
    InPart g partAttr part n ↔ InPart g' partAttr part n := by
  cases part with
  | value x => simp only [InPart, s.node]
  | frozen ns r => simp only [InPart, s.mem_nodes]
  | collection ns => simp only [InPart, s.mem_nodes]

omit [IsStrictOrderedRing K] in
theorem Graph.Same.projectable [PyOrd V] (s : g.Same g') (h' : g'.WF) {part : Part V K} {partAttr weightAttr : String}
    {kind : Metric} {check : Bool} {w : V → V → K} (h : Projectable g part partAttr weightAttr kind check w) :
    Projectable g' part partAttr weightAttr kind check w := by
  have hp := s.inPart partAttr part
  have hn := s.nbhd h.wf h'
  refine ⟨h', s.directed ▸ h.undirected, s.multi ▸ h.simple, h.notFrozen, ?_, ?_, ?_, ?_, ?_, ?_, ?_⟩
  · obtain ⟨n, hn⟩ := h.nonempty
    exact ⟨n, (hp n).1 hn⟩
  · intro u v he
    rw [← hp, ← hp]
    exact h.bipartite u v (by rw [s.hasEdge h.wf h']; exact he)
  · intro u v hu hv
    exact h.comparable u v ((hp u).2 hu) ((hp v).2 hv)
  · intro n a hna hin
    exact h.names n a (by rw [s.node]; exact hna) ((hp n).2 hin)
  · intro hc x hx u v a he
    exact h.edgeAttr hc x hx u v a (by rw [s.edge]; exact he)
  · intro hk u v a he
    exact h.weights hk u v a (by rw [s.edge]; exact he)
  · intro hk n hin hne
    rw [← hn] at hne ⊢
    exact h.cosine hk n ((hp n).2 hin) hne

/-- C74.  The monopartite projection, whatever the metric. -/
theorem projection_reorder [PyOrd V] [PyMath K] [AttrVal (Val K)] (h' : g'.WF) (s : g.Same g')
    {part : Part V K} {partAttr weightAttr : String} {kind : Metric} {check : Bool}
    {w : V → V → K} (h : Projectable g part partAttr weightAttr kind check w)
    (hno : ∀ u v, InPart g partAttr part u → InPart g partAttr part v → (g.nbhd u ∩ g.nbhd v).Nonempty →
      NoUnderflow kind (g.nbhd u) (g.nbhd v) (w u) (w v))
    {metric : Option String} (hk : (metric, kind) ∈ metricNames)
    {threshold : Option (Val K)} (ht : ∀ v, threshold = some v → ∃ t, v.toNum = .ok t ∧ 0 < t) :
    ∃ m m', monopartiteProjection g part partAttr weightAttr metric check threshold = .ok m ∧
      monopartiteProjection g' part partAttr weightAttr metric check threshold = .ok m' ∧ m.Same m' := by
  have hp := s.inPart partAttr part
  have hn := s.nbhd h.wf h'
  obtain ⟨m, h1, h2, h3⟩ := projection_rounded h hno hk ht
  obtain ⟨m', h1', h2', h3'⟩ := projection_rounded (s.projectable h' h) (fun u v hu hv hne => by
    rw [← hn, ← hn] at hne ⊢
    exact hno u v ((hp u).2 hu) ((hp v).2 hv) hne) hk ht
  obtain ⟨a1, a2, a3, a4, _⟩ := projection_nodes_partial (h := h.wf) (hf := h.notFrozen) (hm := h1)
  obtain ⟨b1, b2, b3, b4, _⟩ := projection_nodes_partial (h := h') (hf := h.notFrozen) (hm := h1')
  refine ⟨m, m', h1, h1', same_of_simple h2 h2' (a1.trans b1.symm) a2 b2 (a3.trans b3.symm) ?_ ?_⟩
  · intro n
    apply Option.ext
    intro a
    rw [a4, b4, hp, s.node]
  · intro u v a
    rw [h3, h3']
    simp only [hp, hn]

end

section
variable {V K : Type} [DecidableEq V] [Field K] [LinearOrder K] [IsStrictOrderedRing K] {g g' : Graph V (Val K)}

/-- C74.  The self similarity projection at depth 1. -/
theorem selfSimilarity_reorder [AttrVal (Val K)] (h : g.WF) (h' : g'.WF) (s : g.Same g') (hdir : g.directed = true)
    (hkw : ∀ n a, g.node.get? n = some a → Graph.NodeKwSafe a) :
    ∃ m m', selfSimilarityProjection g 1 = .ok m ∧ selfSimilarityProjection g' 1 = .ok m' ∧ m.Same m' := by
  obtain ⟨m, h1, h2, h3, h4, h5, h6, h7⟩ := selfSimilarity_depth_one h hdir hkw
  obtain ⟨m', h1', h2', h3', h4', h5', h6', h7'⟩ := selfSimilarity_depth_one h' (s.directed ▸ hdir)
    (fun n a hn => hkw n a (by rw [s.node]; exact hn))
  refine ⟨m, m', h1, h1', same_of_simple h2 h2' (h3.trans h3'.symm) h4 h4' (h5.trans h5'.symm)
    (fun n => by rw [h6, h6', s.node]) ?_⟩
  intro u v a
  rw [h7, h7']
  unfold linkSimilarity
  simp only [s.mem_nodes, s.outs h h', s.ins h h']

/-- C74.  The self similarity projection at any depth, when no neighborhood ends before it. -/
theorem selfSimilarity_full_reorder [AttrVal (Val K)] (h : g.WF) (h' : g'.WF) (s : g.Same g') (hdir : g.directed = true)
    (hkw : ∀ n a, g.node.get? n = some a → Graph.NodeKwSafe a) {depth : Int} (hd : 1 ≤ depth)
    (hfull : ∀ n ∈ g.nodes, ∀ reverse, (∃ x, IsDist (g.Step reverse) n x depth.toNat) ∨
      ∀ x d, 1 ≤ d → ¬ IsDist (g.Step reverse) n x d) :
    ∃ m m', selfSimilarityProjection g depth = .ok m ∧ selfSimilarityProjection g' depth = .ok m' ∧ m.Same m' := by
  have hstep : ∀ reverse, g'.Step reverse = g.Step reverse := by
    intro reverse
    funext u v
    unfold Graph.Step
    rw [s.hasEdge h h', s.hasEdge h h']
  have hfull' : ∀ n ∈ g'.nodes, ∀ reverse, (∃ x, IsDist (g'.Step reverse) n x depth.toNat) ∨
      ∀ x d, 1 ≤ d → ¬ IsDist (g'.Step reverse) n x d := by
    intro n hn reverse
    rw [hstep]
    exact hfull n ((s.mem_nodes n).2 hn) reverse
  obtain ⟨m, T, h1, h2, h3, h4, h5, h6, h7, h8⟩ := selfSimilarity_radii h hdir hkw depth
  obtain ⟨m', T', h1', h2', h3', h4', h5', h6', h7', h8'⟩ := selfSimilarity_radii h' (s.directed ▸ hdir)
    (fun n a hn => hkw n a (by rw [s.node]; exact hn)) depth
  have hT : ∀ n ∈ g.nodes, T n = T' n := by
    intro n hn
    have k1 := h7 n hn
    have k2 := h7' n ((s.mem_nodes n).1 hn)
    rw [radii_full g.nodes hfull hd] at k1
    rw [radii_full g'.nodes hfull' hd] at k2
    ext ⟨out, d, x⟩
    rw [k1, k2, hstep]
  refine ⟨m, m', h1, h1', same_of_simple h2 h2' (h3.trans h3'.symm) h4 h4' (h5.trans h5'.symm)
    (fun n => by rw [h6, h6', s.node]) ?_⟩
  intro u v a
  rw [h8, h8']
  rw [← s.mem_nodes, ← s.mem_nodes]
  refine and_congr_right fun _ => and_congr_right fun hu => and_congr_right fun hv => ?_
  unfold tagSimilarity
  rw [hT u hu, hT v hv]

end

/-! ### A case -/

/-- The triangle of `Scale`, its nodes and edges being listed in another order and two of its edges the other way round. -/
def turnedTriangle : Graph Int (Val ℚ) :=
  ⟨false, false, [], [(3, []), (1, []), (2, [])],
    [⟨3, 2, [(.int 0, [(.str "weight", .num 2)])]⟩, ⟨1, 3, [(.int 0, [(.str "weight", .num 3)])]⟩,
     ⟨2, 1, [(.int 0, [(.str "weight", .num 1)])]⟩]⟩

/-- The hypotheses of the theorems above are met by these two triangles, and the results are indeed those of the same graph
listed otherwise. -/
theorem reorder_sample :
    (unitTriangle 1).WF ∧ turnedTriangle.WF ∧ (unitTriangle 1).Same turnedTriangle ∧
      turnedTriangle.edges = [(3, 2), (3, 1), (1, 2)] ∧ (unitTriangle 1).edges = [(1, 2), (1, 3), (2, 3)] ∧
      (globalThresholdSparsification (2^64-1) (unitTriangle 1) 3 "weight" false true).map (·.edges) =
        .ok [(1, 3), (2, 3)] ∧
      (globalThresholdSparsification (2^64-1) turnedTriangle 3 "weight" false true).map (·.edges) =
        .ok [(3, 2), (3, 1)] := by
  have h : (unitTriangle 1).WF := by constructor <;> decide
  have h' : turnedTriangle.WF := by constructor <;> decide
  refine ⟨h, h', same_of_simple h h' rfl rfl rfl rfl ?_ ?_, by decide +kernel, by decide +kernel, by decide +kernel,
    by decide +kernel⟩
  · intro n
    by_cases hn : n ∈ (unitTriangle 1).nodes
    · have : ∀ n ∈ (unitTriangle 1).nodes, (unitTriangle 1).node.get? n = turnedTriangle.node.get? n := by decide
      exact this n hn
    · have h1 : n ∉ turnedTriangle.nodes := by
        intro hc
        have : ∀ n ∈ turnedTriangle.nodes, n ∈ (unitTriangle 1).nodes := by decide
        exact hn (this n hc)
      rw [Dict.get?_eq_none_iff.2 hn, Dict.get?_eq_none_iff.2 h1]
  · have hout : ∀ (g : Graph Int (Val ℚ)), g.WF → ∀ u v, ¬ (u ∈ g.nodes ∧ v ∈ g.nodes) → g.edge? u v (.int 0) = none := by
      intro g hg u v huv
      unfold Graph.edge?
      cases hk : g.keydict? u v with
      | none => rfl
      | some d =>
        obtain ⟨l, hl, hs, -⟩ := (Graph.keydict?_eq_some hg).1 hk
        obtain ⟨e1, e2⟩ := hg.ends l hl
        rcases samePair_iff.1 hs with ⟨k1, k2⟩ | ⟨_, k1, k2⟩
        · exact absurd ⟨k1 ▸ e1, k2 ▸ e2⟩ huv
        · exact absurd ⟨k1 ▸ e2, k2 ▸ e1⟩ huv
    intro u v a
    have hn : ∀ n, n ∈ (unitTriangle 1).nodes ↔ n ∈ turnedTriangle.nodes := by
      intro n
      constructor
      · have : ∀ n ∈ (unitTriangle 1).nodes, n ∈ turnedTriangle.nodes := by decide
        exact this n
      · have : ∀ n ∈ turnedTriangle.nodes, n ∈ (unitTriangle 1).nodes := by decide
        exact this n
    by_cases huv : u ∈ (unitTriangle 1).nodes ∧ v ∈ (unitTriangle 1).nodes
    · have : ∀ u ∈ (unitTriangle 1).nodes, ∀ v ∈ (unitTriangle 1).nodes,
          (unitTriangle 1).edge? u v (.int 0) = turnedTriangle.edge? u v (.int 0) := by decide +kernel
      rw [this u huv.1 v huv.2]
    · rw [hout _ h u v huv, hout _ h' u v (by rwa [← hn, ← hn])]

/-! ### What depends on the order -/

theorem chains_same : chains.WF ∧ chainsLast.WF ∧ chains.Same chainsLast := by
  have h : chains.WF := chains_ok.1
  have h' : chainsLast.WF := by constructor <;> decide
  refine ⟨h, h', same_of_simple h h' rfl rfl rfl rfl ?_ ?_⟩
  · intro n
    by_cases hn : n ∈ chains.nodes
    · have : ∀ n ∈ chains.nodes, chains.node.get? n = chainsLast.node.get? n := by decide
      exact this n hn
    · have h1 : n ∉ chainsLast.nodes := by
        intro hc
        have : ∀ n ∈ chainsLast.nodes, n ∈ chains.nodes := by decide
        exact hn (this n hc)
      rw [Dict.get?_eq_none_iff.2 hn, Dict.get?_eq_none_iff.2 h1]
  · intro u v a
    rfl

/-- C74 is false of the self similarity projection at depth 2: the same graph, its nodes being listed in another order, has
another projection. -/
theorem selfSimilarity_order_matters : chains.WF ∧ chainsLast.WF ∧ chains.Same chainsLast ∧
    (selfSimilarityProjection chains 2).map (·.hasEdge 3 5) = .ok false ∧
    (selfSimilarityProjection chainsLast 2).map (·.hasEdge 3 5) = .ok true :=
  ⟨chains_same.1, chains_same.2.1, chains_same.2.2, selfSimilarity_depth_not_honoured.2.2⟩

/-- Two graphs with the same three components, of sizes 1, 3 and 4, in two orders. -/
def sizes134 : Graph Int Int :=
  ⟨false, false, [], [(0, []), (1, []), (2, []), (3, []), (4, []), (5, []), (6, []), (7, [])],
    [⟨1, 2, [(.int 0, [])]⟩, ⟨2, 3, [(.int 0, [])]⟩, ⟨4, 5, [(.int 0, [])]⟩, ⟨5, 6, [(.int 0, [])]⟩, ⟨6, 7, [(.int 0, [])]⟩]⟩

@[inherit_doc sizes134]
def sizes314 : Graph Int Int :=
  ⟨false, false, [], [(1, []), (2, []), (3, []), (0, []), (4, []), (5, []), (6, []), (7, [])],
    [⟨1, 2, [(.int 0, [])]⟩, ⟨2, 3, [(.int 0, [])]⟩, ⟨4, 5, [(.int 0, [])]⟩, ⟨5, 6, [(.int 0, [])]⟩, ⟨6, 7, [(.int 0, [])]⟩]⟩

/-- C74 is false of the largest component, even when only one is the largest. -/
theorem largestComponent_order_matters : sizes134.WF ∧ sizes314.WF ∧ sizes134.Same sizes314 ∧
    (largestConnectedComponent sizes134).map (·.map (·.length)) = .ok (some 4) ∧
    (largestConnectedComponent sizes314).map (·.map (·.length)) = .ok (some 3) := by
  have h : sizes134.WF := by constructor <;> decide
  have h' : sizes314.WF := by constructor <;> decide
  refine ⟨h, h', same_of_simple h h' rfl rfl rfl rfl ?_ (fun u v a => Iff.rfl), by decide +kernel, by decide +kernel⟩
  intro n
  by_cases hn : n ∈ sizes134.nodes
  · have : ∀ n ∈ sizes134.nodes, sizes134.node.get? n = sizes314.node.get? n := by decide
    exact this n hn
  · have h1 : n ∉ sizes314.nodes := by
      intro hc
      have : ∀ n ∈ sizes314.nodes, n ∈ sizes134.nodes := by decide
      exact hn (this n hc)
    rw [Dict.get?_eq_none_iff.2 hn, Dict.get?_eq_none_iff.2 h1]

end Pelote
