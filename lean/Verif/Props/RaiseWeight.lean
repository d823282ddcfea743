import Verif.Props.AddEdge

/-! C99: what giving more weight to one edge changes. -/
set_option linter.unusedSectionVars false
namespace Pelote
open Graph
open scoped List

section
variable {V K : Type} [DecidableEq V] [Field K] [LinearOrder K] {g : Graph V (Val K)} {u v : V} {attr : String} {x : K}

/-- The weights once that of the edge between `u` and `v` is `x`. -/
def reweighted (u v : V) (x : K) (w : V → V → K) (p q : V) : K := if (p = u ∧ q = v) ∨ (p = v ∧ q = u) then x else w p q

omit [Field K] [LinearOrder K] in
theorem reweighted_symm {w : V → V → K} (hsym : ∀ p q, w p q = w q p) (p q : V) :
    reweighted u v x w p q = reweighted u v x w q p := by
  unfold reweighted
  rw [hsym p q]
  by_cases h : (p = u ∧ q = v) ∨ (p = v ∧ q = u)
  · rw [if_pos h, if_pos (by rcases h with ⟨rfl, rfl⟩ | ⟨rfl, rfl⟩ <;> simp)]
  · rw [if_neg h, if_neg (by rintro (⟨rfl, rfl⟩ | ⟨rfl, rfl⟩) <;> simp at h)]

theorem reweighted_le {w : V → V → K} (hsym : ∀ p q, w p q = w q p) (hx : w u v ≤ x) (p q : V) :
    w p q ≤ reweighted u v x w p q := by
  unfold reweighted
  split
  · rename_i h
    rcases h with ⟨rfl, rfl⟩ | ⟨rfl, rfl⟩
    · exact hx
    · rw [hsym]; exact hx
  · exact le_refl _

variable (hd : g.directed = false) (hm : g.multi = false) (h : g.WF)
include h hd hm

theorem key_zero {l : Link V (Val K)} (hl : l ∈ g.links) {k : PyKey} {a : Attrs (Val K)} (hk : (k, a) ∈ l.data) : k = .int 0 := by
  have := Dict.mem_keys_of_mem hk
  rw [h.simple hm l hl] at this
  simpa using this

/-- The edges after `g[u][v][attr] = value`. -/
theorem edgesData_setEdgeAttr (value : Val K) :
    (g.setEdgeAttr u v (.int 0) attr value).edgesData = g.edgesData.map (fun e =>
      if (e.1 = u ∧ e.2.1 = v) ∨ (e.1 = v ∧ e.2.1 = u) then (e.1, e.2.1, e.2.2.set (.str attr) value) else e) := by
  have hk := edgesKeys_setEdgeAttr g (u, v, .int 0, []) attr value
  unfold edgesData
  simp only at hk
  rw [hk, List.map_map, List.map_map]
  apply List.map_congr_left
  rintro ⟨p, q, k, a⟩ he
  obtain ⟨l, hl, -, -, hka⟩ := mem_edgesKeys h |>.1 he
  have h0 := key_zero hd hm h hl hka
  subst h0
  simp only [Function.comp, setIfSame, sameEdge, hd, decide_true, Bool.and_true, samePair_iff]
  by_cases hs : (p = u ∧ q = v) ∨ (p = v ∧ q = u)
  · rw [if_pos (by tauto), if_pos hs]
  · rw [if_neg (by tauto), if_neg hs]

theorem edges_setEdgeAttr (value : Val K) : (g.setEdgeAttr u v (.int 0) attr value).edges = g.edges := by
  have : ∀ g : Graph V (Val K), g.edges = g.edgesData.map (fun e => (e.1, e.2.1)) := by
    intro g; unfold Graph.edges Graph.edgesData; rw [List.map_map]; rfl
  rw [this, this, edgesData_setEdgeAttr hd hm h, List.map_map]
  apply List.map_congr_left
  intro e _
  simp only [Function.comp]
  split <;> rfl

theorem hasEdge_setEdgeAttr (value : Val K) (p q : V) :
    (g.setEdgeAttr u v (.int 0) attr value).hasEdge p q = g.hasEdge p q := by
  rw [Bool.eq_iff_iff, hasEdge_listed (WF.setEdgeAttr h _ _ _ _ _), hasEdge_listed h, edges_setEdgeAttr hd hm h]
  rfl

omit hd hm h in
theorem degree_setEdgeAttr (value : Val K) (n : V) (hd : g.directed = false) :
    (g.setEdgeAttr u v (.int 0) attr value).degree n = g.degree n := by
  have hadj := adj_setEdgeAttr g (u, v, .int 0, []) attr value n
  simp only at hadj
  have hd' : (g.setEdgeAttr u v (.int 0) attr value).directed = false := hd
  unfold Graph.degree
  rw [hd, hd', hadj]
  simp only [Bool.false_eq_true, if_false, List.map_map, List.filter_map]
  congr 2
  · apply List.map_congr_left; intro p _; simp
  · have : ((fun p : V × Dict PyKey (Attrs (Val K)) => decide (p.1 = n)) ∘ fun p : V × Dict PyKey (Attrs (Val K)) => (p.1, p.2.map (fun ka =>
        (setIfSame g.directed attr (u, v, .int 0, []) value (n, p.1, ka.1, ka.2)).2.2))) = fun p => decide (p.1 = n) := rfl
    rw [this]
    apply List.map_congr_left; intro p _; simp

theorem weighted_setEdgeAttr {w : V → V → K} (hw : g.Weighted attr w) :
    (g.setEdgeAttr u v (.int 0) attr (.num x)).Weighted attr (reweighted u v x w) := by
  intro e he
  rw [edgesData_setEdgeAttr hd hm h] at he
  obtain ⟨e, hm', rfl⟩ := List.mem_map.1 he
  clear he
  rename' hm' => he
  by_cases hs : (e.1 = u ∧ e.2.1 = v) ∨ (e.1 = v ∧ e.2.1 = u)
  · rw [if_pos hs]
    refine ⟨.num x, Dict.get?_set_self .., ?_⟩
    simp only [reweighted, if_pos hs, Val.toNum]
  · rw [if_neg hs]
    obtain ⟨y, h1, h2⟩ := hw e he
    exact ⟨y, h1, by simp only [reweighted, if_neg hs, h2]⟩

theorem kwSafe_setEdgeAttr {w : V → V → K} (hw : g.Weighted attr w) (hkw : ∀ e ∈ g.edgesData, EdgeKwSafe g.multi e.2.2) :
    ∀ e ∈ (g.setEdgeAttr u v (.int 0) attr (.num x)).edgesData,
      EdgeKwSafe (g.setEdgeAttr u v (.int 0) attr (.num x)).multi e.2.2 := by
  intro e he
  rw [edgesData_setEdgeAttr hd hm h] at he
  obtain ⟨e, hm', rfl⟩ := List.mem_map.1 he
  clear he
  rename' hm' => he
  by_cases hs : (e.1 = u ∧ e.2.1 = v) ∨ (e.1 = v ∧ e.2.1 = u)
  · rw [if_pos hs]
    obtain ⟨y, h1, h2⟩ := hw e he
    intro k hk
    rcases Dict.mem_keys_set.1 hk with hk | rfl
    · exact hkw e he k hk
    · exact hkw e he _ (Dict.mem_keys_of_mem (Dict.mem_of_get? h1))
  · rw [if_neg hs]
    exact hkw e he

end

/-! ### Disparity -/

section
variable {V K : Type} [LinearOrder V] [Field K] [LinearOrder K] [IsStrictOrderedRing K] {g : Graph V (Val K)} {u v : V}
  {attr : String} {x : K} {w : V → V → K}

/-- The share of an edge in the strength of a node, when the weights of all others go up, and when only its own does. -/
theorem nodeStrength_mono {w w' : V → V → K} (hle : ∀ p q, w p q ≤ w' p q) (n : V) : g.nodeStrength w n ≤ g.nodeStrength w' n := by
  unfold Graph.nodeStrength
  apply List.sum_le_sum
  intro e _
  apply add_le_add <;> split <;> first | exact hle _ _ | exact le_refl _

theorem nodeStrength_share {w w' : V → V → K} {a b : K} (hle : ∀ e ∈ g.edges, a * w' e.1 e.2 ≤ b * w e.1 e.2) (n : V) :
    a * g.nodeStrength w' n ≤ b * g.nodeStrength w n := by
  unfold Graph.nodeStrength
  rw [← List.sum_map_mul_left, ← List.sum_map_mul_left]
  apply List.sum_le_sum
  intro e he
  rw [mul_add, mul_add]
  apply add_le_add <;> split <;> first | exact hle e he | simp

/-- C99, in terms of the formula: the score of the edge that gets heavier goes down, the others go up. -/
theorem disparity_raise (h : g.WF) (hd : g.directed = false) (hm : g.multi = false) (hsym : ∀ p q, w p q = w q p)
    (hpos : ∀ p q, g.hasEdge p q = true → 0 < w p q) (hx : w u v ≤ x) {p q : V} (he : g.hasEdge p q = true) :
    let g' := g.setEdgeAttr u v (.int 0) attr (.num x)
    let w' := reweighted u v x w
    (((p = u ∧ q = v) ∨ (p = v ∧ q = u)) → g'.disparity w' p q ≤ g.disparity w p q) ∧
    (¬ ((p = u ∧ q = v) ∨ (p = v ∧ q = u)) → g.disparity w p q ≤ g'.disparity w' p q) := by
  intro g' w'
  have he' : g.hasEdge q p = true := by rwa [Graph.hasEdge_comm hd]
  have hle : ∀ a b, w a b ≤ w' a b := reweighted_le hsym hx
  have hsym' : ∀ a b, w' a b = w' b a := reweighted_symm hsym
  have hpos' : ∀ a b, g.hasEdge a b = true → 0 < w' a b := fun a b hab => (hpos a b hab).trans_le (hle a b)
  have hst : ∀ n, g'.nodeStrength w' n = g.nodeStrength w' n := by
    intro n; unfold Graph.nodeStrength; rw [edges_setEdgeAttr hd hm h]
  have hS : ∀ {a b}, g.hasEdge a b = true → 0 < g.nodeStrength w a := fun hab => (disparity_range h hd hsym hpos hab).1
  have hS' : ∀ {a b}, g.hasEdge a b = true → 0 < g.nodeStrength w' a := fun hab => (disparity_range h hd hsym' hpos' hab).1
  have hle1 : ∀ {a b}, g.hasEdge a b = true → w a b ≤ g.nodeStrength w a :=
    fun hab => weight_le_nodeStrength h hsym (fun a b he => (hpos a b he).le) hab
  have hle1' : ∀ {a b}, g.hasEdge a b = true → w' a b ≤ g.nodeStrength w' a :=
    fun hab => weight_le_nodeStrength h hsym' (fun a b he => (hpos' a b he).le) hab
  unfold Graph.disparity
  rw [hst, hst, degree_setEdgeAttr _ _ hd, degree_setEdgeAttr _ _ hd]
  constructor
  · intro hs
    have hshare : ∀ {a b : V}, g.hasEdge a b = true → w a b = w p q → w' a b = w' p q →
        1 - w' p q / g.nodeStrength w' a ≤ 1 - w p q / g.nodeStrength w a ∧ 0 ≤ 1 - w' p q / g.nodeStrength w' a := by
      intro a b hab e1 e2
      refine ⟨sub_le_sub_left ?_ 1, sub_nonneg.2 ((div_le_one (hS' hab)).2 (e2 ▸ hle1' hab))⟩
      rw [div_le_div_iff₀ (hS hab) (hS' hab)]
      apply nodeStrength_share
      intro e hee
      by_cases hs' : (e.1 = u ∧ e.2 = v) ∨ (e.1 = v ∧ e.2 = u)
      · have e3 : w e.1 e.2 = w p q := by
          rcases hs with ⟨rfl, rfl⟩ | ⟨rfl, rfl⟩ <;> rcases hs' with ⟨h1, h2⟩ | ⟨h1, h2⟩ <;> rw [h1, h2] <;> exact hsym _ _
        have e4 : w' e.1 e.2 = w' p q := by
          simp only [w', reweighted, if_pos hs, if_pos hs']
        rw [e3, e4, mul_comm]
      · have e4 : w' e.1 e.2 = w e.1 e.2 := by simp only [w', reweighted, if_neg hs']
        rw [e4]
        exact mul_le_mul_of_nonneg_right (hle p q) (hpos _ _ ((hasEdge_listed h).2 (.inl hee))).le
    obtain ⟨a1, a2⟩ := hshare he rfl rfl
    obtain ⟨b1, b2⟩ := hshare he' (hsym _ _) (hsym' _ _)
    exact min_le_min (pow_le_pow_left₀ a2 a1 _) (pow_le_pow_left₀ b2 b1 _)
  · intro hs
    have e0 : w' p q = w p q := by simp only [w', reweighted, if_neg hs]
    rw [e0]
    have hshare : ∀ {a b : V}, g.hasEdge a b = true → w a b = w p q →
        1 - w p q / g.nodeStrength w a ≤ 1 - w p q / g.nodeStrength w' a ∧ 0 ≤ 1 - w p q / g.nodeStrength w a := by
      intro a b hab e1
      refine ⟨sub_le_sub_left ?_ 1, sub_nonneg.2 ((div_le_one (hS hab)).2 (e1 ▸ hle1 hab))⟩
      exact div_le_div_of_nonneg_left (hpos _ _ he).le (hS hab) (nodeStrength_mono hle a)
    obtain ⟨a1, a2⟩ := hshare he rfl
    obtain ⟨b1, b2⟩ := hshare he' (hsym _ _)
    exact min_le_min (pow_le_pow_left₀ a2 a1 _) (pow_le_pow_left₀ b2 b1 _)

end

/-! ### Maximum spanning trees -/

section
variable {V K : Type} [DecidableEq V] [Field K] [LinearOrder K] [IsStrictOrderedRing K] {g : Graph V (Val K)} {u v : V}
  {attr : String} {x : K} {w : V → V → K}

omit [IsStrictOrderedRing K] in
theorem Graph.Weighted.hasWeight (hw : g.Weighted attr w) {e : V × V × Attrs (Val K)} (he : e ∈ g.edgesData) :
    HasWeight attr e.2.2 (w e.1 e.2.1) := by
  obtain ⟨y, h1, h2⟩ := hw e he
  unfold HasWeight
  rw [h1]
  cases y with
  | num k => simp only [Val.toNum, Except.ok.injEq] at h2; subst h2; simp
  | bool b => cases b <;> simp only [Val.toNum, Except.ok.injEq] at h2 <;> simp [h2]
  | _ => simp [Val.toNum] at h2

/-- The edges yielded when weights are given by pair. -/
theorem umst_pair_weighted {ulongMax : Nat} (hu : 2^32 - 1 ≤ ulongMax) (h : g.WF) (hw : g.Weighted attr w)
    (hsep : ∀ e ∈ g.edges, ∀ e' ∈ g.edges, w e.1 e.2 = w e'.1 e'.2 ∨ 1 / 10 ^ 8 < |w e.1 e.2 - w e'.1 e'.2|)
    (hord : SafeOrder ulongMax g.order) :
    (unionOfMaximumSpanningTrees ulongMax g attr).err = none ∧
    ∀ p q, (∃ c, (p, q, c) ∈ (unionOfMaximumSpanningTrees ulongMax g attr).yields) ↔
      (p, q) ∈ g.edges ∧ ¬ Linked (g.edges.filter (fun e => decide (w p q < w e.1 e.2))) p q := by
  have hW : g.Weights attr (fun i => w g.edgesData[i].1 g.edgesData[i].2.1) := fun i => hw.hasWeight (List.getElem_mem _)
  have hmem : ∀ i : Fin g.edgesData.length, (g.edgesData[i].1, g.edgesData[i].2.1) ∈ g.edges :=
    fun i => mem_edges.2 ⟨g.edgesData[i].2.2, List.getElem_mem _⟩
  have hN : NoNearTies (fun i : Fin g.edgesData.length => w g.edgesData[i].1 g.edgesData[i].2.1) :=
    fun i j => hsep _ (hmem i) _ (hmem j)
  refine ⟨(unionOfMaximumSpanningTrees_exact hu h hW hN hord).1, fun p q => ?_⟩
  rw [umst_pair_above hu h hW hN hord]
  have hlink : ∀ (t : K) {a b : V}, Linked (g.pairsAbove attr t) a b ↔
      Linked (g.edges.filter (fun e => decide (t < w e.1 e.2))) a b := by
    intro t a b
    constructor <;> refine Linked.bind (fun c d hcd => .of_mem ?_)
    · obtain ⟨k, y, h1, h2, h3⟩ := mem_pairsAbove.1 hcd
      rw [List.mem_filter, decide_eq_true_eq]
      exact ⟨mem_edges.2 ⟨k, h1⟩, HasWeight.unique (hw.hasWeight h1) h2 ▸ h3⟩
    · rw [List.mem_filter, decide_eq_true_eq] at hcd
      obtain ⟨k, hk⟩ := mem_edges.1 hcd.1
      exact mem_pairsAbove.2 ⟨k, _, hk, hw.hasWeight hk, hcd.2⟩
  constructor
  · rintro ⟨c, t, h1, h2, h3⟩
    have := HasWeight.unique h2 (hw.hasWeight h1)
    subst this
    exact ⟨mem_edges.2 ⟨c, h1⟩, fun hc => h3 ((hlink _).2 hc)⟩
  · rintro ⟨h1, h2⟩
    obtain ⟨c, hc⟩ := mem_edges.1 h1
    exact ⟨c, _, hc, hw.hasWeight hc, fun hl => h2 ((hlink _).1 hl)⟩

/-- Two weights are equal or more than `1e-8` apart. -/
def NoNearTiesOn (g : Graph V (Val K)) (w : V → V → K) : Prop :=
  ∀ e ∈ g.edges, ∀ e' ∈ g.edges, w e.1 e.2 = w e'.1 e'.2 ∨ 1 / 10 ^ 8 < |w e.1 e.2 - w e'.1 e'.2|

/-- C99.  Union of maximum spanning trees: the edge that gets heavier stays if it was there, and no other edge appears. -/
theorem unionOfMaximumSpanningTrees_raise {ulongMax : Nat} (hu : 2^32 - 1 ≤ ulongMax) (h : g.WF) (hd : g.directed = false)
    (hm : g.multi = false) (hsym : ∀ p q, w p q = w q p) (hw : g.Weighted attr w) (hx : w u v ≤ x)
    (hsep : NoNearTiesOn g w) (hsep' : NoNearTiesOn g (reweighted u v x w)) (hord : SafeOrder ulongMax g.order) :
    let g' := g.setEdgeAttr u v (.int 0) attr (.num x)
    let kept (g : Graph V (Val K)) (p q : V) := ∃ c, (p, q, c) ∈ (unionOfMaximumSpanningTrees ulongMax g attr).yields
    (unionOfMaximumSpanningTrees ulongMax g attr).err = none ∧ (unionOfMaximumSpanningTrees ulongMax g' attr).err = none ∧
    ∀ p q, (((p = u ∧ q = v) ∨ (p = v ∧ q = u)) → kept g p q → kept g' p q) ∧
      (¬ ((p = u ∧ q = v) ∨ (p = v ∧ q = u)) → kept g' p q → kept g p q) := by
  intro g' kept
  have hle : ∀ a b, w a b ≤ reweighted u v x w a b := reweighted_le hsym hx
  have hedges : g'.edges = g.edges := edges_setEdgeAttr hd hm h _
  obtain ⟨e1, k1⟩ := umst_pair_weighted hu h hw hsep hord
  obtain ⟨e2, k2⟩ := umst_pair_weighted (g := g') (w := reweighted u v x w) hu (WF.setEdgeAttr h _ _ _ _ _)
    (weighted_setEdgeAttr hd hm h hw) (by rw [hedges]; exact hsep') hord
  refine ⟨e1, e2, fun p q => ⟨?_, ?_⟩⟩
  · intro hs hk
    obtain ⟨a1, a2⟩ := (k1 p q).1 hk
    refine (k2 p q).2 ⟨hedges ▸ a1, fun hc => a2 ?_⟩
    revert hc
    refine Linked.bind (fun c d hcd => .of_mem ?_)
    rw [hedges, List.mem_filter, decide_eq_true_eq] at hcd
    rw [List.mem_filter, decide_eq_true_eq]
    refine ⟨hcd.1, ?_⟩
    have h1 := hcd.2
    by_cases hs' : (c = u ∧ d = v) ∨ (c = v ∧ d = u)
    · simp only [reweighted, if_pos hs, if_pos hs'] at h1
      exact absurd h1 (lt_irrefl _)
    · refine (hle p q).trans_lt (h1.trans_eq ?_)
      simp only [reweighted, if_neg hs']
  · intro hs hk
    obtain ⟨a1, a2⟩ := (k2 p q).1 hk
    refine (k1 p q).2 ⟨hedges ▸ a1, fun hc => a2 ?_⟩
    revert hc
    refine Linked.bind (fun c d hcd => .of_mem ?_)
    rw [List.mem_filter, decide_eq_true_eq] at hcd
    rw [hedges, List.mem_filter, decide_eq_true_eq]
    refine ⟨hcd.1, ?_⟩
    have e0 : reweighted u v x w p q = w p q := by simp only [reweighted, if_neg hs]
    rw [e0]
    exact hcd.2.trans_le (hle c d)

end

/-! ### Sparsifications -/

section
variable {V K : Type} [LinearOrder V] [Field K] [LinearOrder K] [IsStrictOrderedRing K] {g : Graph V (Val K)} {u v : V}
  {attr : String} {x : K} {w : V → V → K}

/-- C99.  Edge disparity: the score of the edge that gets heavier does not go up, the other scores do not go down. -/
theorem edgeDisparity_raise [PyOrd V] (ho : OrderedKeys V) (h : g.WF) (hd : g.directed = false) (hm : g.multi = false)
    (hsym : ∀ p q, w p q = w q p) (hw : g.Weighted attr w) (hpos : ∀ p q, g.hasEdge p q = true → 0 < w p q) (hx : w u v ≤ x) :
    ∃ d d', edgeDisparity g attr false = .ok d ∧
      edgeDisparity (g.setEdgeAttr u v (.int 0) attr (.num x)) attr false = .ok d' ∧
      ∀ p q, p ≤ q → g.hasEdge p q = true → ∃ s s', d.get? (p, q) = some s ∧ d'.get? (p, q) = some s' ∧
        (((p = u ∧ q = v) ∨ (p = v ∧ q = u)) → s' ≤ s) ∧ (¬ ((p = u ∧ q = v) ∨ (p = v ∧ q = u)) → s ≤ s') := by
  have hpos' : ∀ p q, (g.setEdgeAttr u v (.int 0) attr (.num x)).hasEdge p q = true → 0 < reweighted u v x w p q := by
    intro p q he
    rw [hasEdge_setEdgeAttr hd hm h] at he
    exact (hpos p q he).trans_le (reweighted_le hsym hx p q)
  obtain ⟨d, h1, -, h2, -⟩ := edgeDisparity_positive ho h hd hm hsym hw hpos
  obtain ⟨d', h1', -, h2', -⟩ := edgeDisparity_positive (g := g.setEdgeAttr u v (.int 0) attr (.num x)) ho
    (WF.setEdgeAttr h _ _ _ _ _) hd hm (reweighted_symm hsym) (weighted_setEdgeAttr hd hm h hw) hpos'
  refine ⟨d, d', h1, h1', fun p q hpq he => ⟨_, _, (h2 p q _).2 ⟨hpq, he, rfl⟩,
    (h2' p q _).2 ⟨hpq, by rwa [hasEdge_setEdgeAttr hd hm h], rfl⟩, ?_⟩⟩
  exact disparity_raise h hd hm hsym hpos hx he

/-- What a sparsification does to the edges when one of them gets heavier: it stays if it was there, and no other edge
appears. -/
def RaiseMonotone (u v : V) (before after : Graph V (Val K)) : Prop :=
  ∀ p q, (((p = u ∧ q = v) ∨ (p = v ∧ q = u)) → (p, q) ∈ before.edges → (p, q) ∈ after.edges) ∧
    (¬ ((p = u ∧ q = v) ∨ (p = v ∧ q = u)) → (p, q) ∈ after.edges → (p, q) ∈ before.edges)

omit [IsStrictOrderedRing K] in
theorem Graph.Weighted.hasNumber (hw : g.Weighted attr w) {e : V × V × Attrs (Val K)} (he : e ∈ g.edgesData) :
    HasNumber attr e.2.2 (w e.1 e.2.1) := by
  obtain ⟨y, h1, h2⟩ := hw e he
  unfold HasNumber
  rw [h1]
  cases y with
  | num k => simp only [Val.toNum, Except.ok.injEq] at h2; subst h2; simp
  | bool b => cases b <;> simp only [Val.toNum, Except.ok.injEq] at h2 <;> simp [h2]
  | _ => simp [Val.toNum] at h2

theorem HasNumber.unique' {a : Attrs (Val K)} {y z : K} (h1 : HasNumber attr a y) (h2 : HasNumber attr a z) : y = z :=
  HasWeight.unique (.inr h1) (.inr h2)

/-- Filtered listings, in terms of pairs. -/
theorem mem_edges_filter {g g₁ : Graph V (Val K)} {f : V × V × Attrs (Val K) → Bool} {good : V → V → Prop}
    (hq : g₁.edgesData = g.edgesData.filter f) (hf : ∀ e ∈ g.edgesData, f e = true ↔ good e.1 e.2.1) (p q : V) :
    (p, q) ∈ g₁.edges ↔ (p, q) ∈ g.edges ∧ good p q := by
  rw [mem_edges, mem_edges, hq]
  constructor
  · rintro ⟨a, ha⟩
    obtain ⟨h1, h2⟩ := List.mem_filter.1 ha
    exact ⟨⟨a, h1⟩, (hf _ h1).1 h2⟩
  · rintro ⟨⟨a, ha⟩, hg⟩
    exact ⟨a, List.mem_filter.2 ⟨ha, (hf _ ha).2 hg⟩⟩

variable {ulongMax : Nat} [PyOrd V] [AttrVal (Val K)] (h : g.WF) (hd : g.directed = false)
  (hm : g.multi = false) (hsym : ∀ p q, w p q = w q p) (hw : g.Weighted "weight" w) (hx : w u v ≤ x)
  (hkw : ∀ e ∈ g.edgesData, EdgeKwSafe g.multi e.2.2)
include h hd hm hsym hw hx hkw

/-- C99.  Global threshold, with or without `keep_connected`. -/
theorem globalThreshold_raise (t : K) (keep : Bool)
    (hk : keep = true → 2^32 - 1 ≤ ulongMax ∧ SafeOrder ulongMax g.order ∧ NoNearTiesOn g w ∧
      NoNearTiesOn g (reweighted u v x w)) :
    ∃ before after, globalThresholdSparsification ulongMax g t "weight" false keep = .ok before ∧
      globalThresholdSparsification ulongMax (g.setEdgeAttr u v (.int 0) "weight" (.num x)) t "weight" false keep = .ok after ∧
      RaiseMonotone u v before after := by
  classical
  have hw' := weighted_setEdgeAttr (u := u) (v := v) (x := x) hd hm h hw
  have humst := fun e : keep = true => unionOfMaximumSpanningTrees_raise (hk e).1 h hd hm hsym hw hx (hk e).2.2.1 (hk e).2.2.2
    (hk e).2.1
  obtain ⟨b, b1, -, -, -, -, -, b2⟩ := globalThreshold_exact ulongMax h t (attr := "weight") false keep
    (fun e he => ⟨_, hw.hasNumber he⟩) (fun e => (humst e).1) hkw
  obtain ⟨a, a1, -, -, -, -, -, a2⟩ := globalThreshold_exact ulongMax (WF.setEdgeAttr h u v (.int 0) "weight" (.num x)) t
    (attr := "weight") false keep
    (fun e he => ⟨_, hw'.hasNumber he⟩) (fun e => (humst e).2.1) (kwSafe_setEdgeAttr hd hm h hw hkw)
  have hreach : ∀ {g : Graph V (Val K)} {w : V → V → K}, g.Weighted "weight" w → ∀ e ∈ g.edgesData,
      (Reaches t "weight" false e.2.2 ↔ t ≤ w e.1 e.2.1) := by
    intro g w hw e he
    constructor
    · rintro ⟨y, h1, h2⟩
      rw [HasNumber.unique' (hw.hasNumber he) h1]
      simpa using h2
    · exact fun ht => ⟨_, hw.hasNumber he, by simpa using ht⟩
  have mb := mem_edges_filter (good := fun p q => t ≤ w p q ∨ keep = true ∧
      ∃ c, (p, q, c) ∈ (unionOfMaximumSpanningTrees ulongMax g "weight").yields) b2 (by
    intro e he
    rw [decide_eq_true_eq, hreach hw e he])
  have ma := mem_edges_filter (good := fun p q => t ≤ reweighted u v x w p q ∨ keep = true ∧
      ∃ c, (p, q, c) ∈ (unionOfMaximumSpanningTrees ulongMax (g.setEdgeAttr u v (.int 0) "weight" (.num x)) "weight").yields) a2
      (by
    intro e he
    rw [decide_eq_true_eq, hreach hw' e he])
  refine ⟨b, a, b1, a1, fun p q => ⟨fun hs hb => ?_, fun hs ha => ?_⟩⟩
  · obtain ⟨h1, h2⟩ := (mb p q).1 hb
    refine (ma p q).2 ⟨by rwa [edges_setEdgeAttr hd hm h], ?_⟩
    rcases h2 with h2 | ⟨hkp, h2⟩
    · exact .inl (h2.trans (reweighted_le hsym hx p q))
    · exact .inr ⟨hkp, ((humst hkp).2.2 p q).1 hs h2⟩
  · obtain ⟨h1, h2⟩ := (ma p q).1 ha
    refine (mb p q).2 ⟨by rwa [edges_setEdgeAttr hd hm h] at h1, ?_⟩
    rcases h2 with h2 | ⟨hkp, h2⟩
    · left
      simpa only [reweighted, if_neg hs] using h2
    · exact .inr ⟨hkp, ((humst hkp).2.2 p q).2 hs h2⟩

/-- C99.  Multiscale backbone, with or without `keep_connected`. -/
theorem multiscaleBackbone_raise (ho : OrderedKeys V) (hpos : ∀ p q, g.hasEdge p q = true → 0 < w p q) (alpha : K) (keep : Bool)
    (hk : keep = true → 2^32 - 1 ≤ ulongMax ∧ SafeOrder ulongMax g.order ∧ NoNearTiesOn g w ∧
      NoNearTiesOn g (reweighted u v x w)) :
    ∃ before after, multiscaleBackbone ulongMax g alpha "weight" keep = .ok before ∧
      multiscaleBackbone ulongMax (g.setEdgeAttr u v (.int 0) "weight" (.num x)) alpha "weight" keep = .ok after ∧
      RaiseMonotone u v before after := by
  classical
  have hw' := weighted_setEdgeAttr (u := u) (v := v) (x := x) hd hm h hw
  have humst := fun e : keep = true => unionOfMaximumSpanningTrees_raise (hk e).1 h hd hm hsym hw hx (hk e).2.2.1 (hk e).2.2.2
    (hk e).2.1
  have hpos' : ∀ p q, (g.setEdgeAttr u v (.int 0) "weight" (.num x)).hasEdge p q = true → 0 < reweighted u v x w p q := by
    intro p q he
    rw [hasEdge_setEdgeAttr hd hm h] at he
    exact (hpos p q he).trans_le (reweighted_le hsym hx p q)
  obtain ⟨b, b1, -, -, -, -, -, b2⟩ := multiscaleBackbone_exact ulongMax ho h hd hm hsym hw hpos alpha keep
    (fun e => (humst e).1) hkw
  obtain ⟨a, a1, -, -, -, -, -, a2⟩ := multiscaleBackbone_exact (g := g.setEdgeAttr u v (.int 0) "weight" (.num x)) ulongMax ho
    (WF.setEdgeAttr h u v (.int 0) "weight" (.num x)) hd hm (reweighted_symm hsym) hw' hpos' alpha keep
    (fun e => (humst e).2.1) (kwSafe_setEdgeAttr hd hm h hw hkw)
  have mb := mem_edges_filter (good := fun p q => g.disparity w p q ≤ alpha ∨ keep = true ∧
      ∃ c, (p, q, c) ∈ (unionOfMaximumSpanningTrees ulongMax g "weight").yields) b2 (by
    intro e he
    rw [decide_eq_true_eq])
  have ma := mem_edges_filter (good := fun p q =>
      (g.setEdgeAttr u v (.int 0) "weight" (.num x)).disparity (reweighted u v x w) p q ≤ alpha ∨ keep = true ∧
      ∃ c, (p, q, c) ∈ (unionOfMaximumSpanningTrees ulongMax (g.setEdgeAttr u v (.int 0) "weight" (.num x)) "weight").yields) a2
      (by
    intro e he
    rw [decide_eq_true_eq])
  refine ⟨b, a, b1, a1, fun p q => ⟨fun hs hb => ?_, fun hs ha => ?_⟩⟩
  · obtain ⟨h1, h2⟩ := (mb p q).1 hb
    have he : g.hasEdge p q = true := (hasEdge_listed h).2 (.inl h1)
    refine (ma p q).2 ⟨by rwa [edges_setEdgeAttr hd hm h], ?_⟩
    rcases h2 with h2 | ⟨hkp, h2⟩
    · exact .inl (((disparity_raise h hd hm hsym hpos hx he).1 hs).trans h2)
    · exact .inr ⟨hkp, ((humst hkp).2.2 p q).1 hs h2⟩
  · obtain ⟨h1, h2⟩ := (ma p q).1 ha
    rw [edges_setEdgeAttr hd hm h] at h1
    have he : g.hasEdge p q = true := (hasEdge_listed h).2 (.inl h1)
    refine (mb p q).2 ⟨h1, ?_⟩
    rcases h2 with h2 | ⟨hkp, h2⟩
    · exact .inl (((disparity_raise h hd hm hsym hpos hx he).2 hs).trans h2)
    · exact .inr ⟨hkp, ((humst hkp).2.2 p q).2 hs h2⟩

end

/-! ### Non-triviality -/

/-- The weights of `pathSample'`. -/
def pathWeights (p q : Int) : ℚ :=
  if (p, q) = (1, 2) ∨ (p, q) = (2, 1) then 3 else if (p, q) = (2, 3) ∨ (p, q) = (3, 2) then 1 else 2

set_option synthInstance.maxSize 2000 in
/-- Giving weight 5 to the lightest edge of `pathSample'`: the hypotheses hold, the edge enters the spanning tree and another
one leaves it. -/
theorem raise_sample : pathSample'.WF ∧ pathSample'.Weighted "weight" pathWeights ∧ NoNearTiesOn pathSample' pathWeights ∧
    NoNearTiesOn pathSample' (reweighted 2 3 5 pathWeights) ∧
    (unionOfMaximumSpanningTrees (2^64 - 1) (pathSample'.setEdgeAttr 2 3 (.int 0) "weight" (.num 5)) "weight").yields.map
      (fun e => (e.1, e.2.1)) = [(2, 3), (1, 2), (3, 4)] ∧
    (unionOfMaximumSpanningTrees (2^64 - 1) pathSample' "weight").yields.map (fun e => (e.1, e.2.1)) =
      [(1, 2), (1, 3), (3, 4)] := by
  refine ⟨pathSample_added.wf', ?_, ?_, ?_, ?_, ?_⟩
  · intro e he
    have : pathSample'.edgesData = [(1, 2, [(.str "weight", .num 3)]), (1, 3, [(.str "weight", .num 2)]),
        (2, 3, [(.str "weight", .num 1)]), (3, 4, [(.str "weight", .num 2)])] := by decide +kernel
    rw [this] at he
    simp only [List.mem_cons, List.not_mem_nil, or_false] at he
    rcases he with rfl | rfl | rfl | rfl <;> exact ⟨_, rfl, rfl⟩
  · unfold NoNearTiesOn; decide +kernel
  · unfold NoNearTiesOn; decide +kernel
  all_goals decide +kernel

end Pelote
