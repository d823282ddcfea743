import Verif.Lemmas.Disparity
import Mathlib.Algebra.Order.BigOperators.Group.List
import Mathlib.Algebra.Order.Group.MinMax
import Mathlib.Tactic.NormNum

/-! C30, C31: edge disparity. -/
namespace Pelote
variable {V K : Type} [LinearOrder V] [Field K] [LinearOrder K]

/-- C30.  `edge_disparity` raises `TypeError` on directed graphs and on multigraphs. -/
theorem edgeDisparity_kind [PyOrd V] (g : Graph V (Val K)) (attr : String) (reverse : Bool)
    (hk : g.directed = true ∨ g.multi = true) : ∃ m, edgeDisparity g attr reverse = .error (.typeError m) := by
  unfold edgeDisparity edgeDisparityA edgeDisparityN
  rcases hk with h | h <;> simp [h]

/-- On a simple undirected graph whose edges carry numeric weights, whatever the operations on numbers: if the score of every
edge can be computed there is exactly one entry per edge, under the ordered pair of its ends. -/
theorem edgeDisparityN_exact {N : Type} [Zero N] [One N] [PyOrd V] (ops : NumOps N) (ho : OrderedKeys V) {g : Graph V (Val N)}
    (h : g.WF) (hd : g.directed = false) (hm : g.multi = false) {attr : String} {w : V → V → N}
    (hsym : ∀ u v, w u v = w v u) (hw : g.Weighted attr w) (reverse : Bool) {f : V → V → N}
    (hf : ∀ u v (x : Val N), g.hasEdge u v = true → x.toNum = .ok (w u v) →
      disparityScore ops reverse x (g.degree u) (g.degree v) (g.strengthN ops w u) (g.strengthN ops w v) = .ok (f u v)) :
    ∃ d, edgeDisparityN ops g attr reverse = .ok d ∧ d.keys.Nodup ∧
      ∀ u v x, d.get? (u, v) = some x ↔ u ≤ v ∧ g.hasEdge u v = true ∧ x = f u v := by
  have hok : ∀ e ∈ g.edgesData, weightOf attr e.2.2 = .ok (w e.1 e.2.1) := by
    intro e he
    obtain ⟨x, h1, h2⟩ := hw e he
    simp only [weightOf, h1, h2]
  have hwds := weightedDegrees_eq ops (g := g) (attr := attr) (S := g.strengthN ops w) g.nodes
    (fun n _ => weightedDegree_eq ops h hd hsym hok n)
  have hedge : ∀ n, ∀ e ∈ g.edgesOf n, g.hasEdge n e.2.1 = true := by
    rintro n ⟨u, m, k, a⟩ he
    obtain ⟨_, l, hl, hs, _⟩ := (mem_edgesOf h).1 he
    exact Graph.hasEdge_iff.2 ⟨l, hl, hs⟩
  have hget : ∀ x ∈ g.nodes, Dict.get? (g.nodes.map (fun n => (n, g.strengthN ops w n))) x =
      some (g.strengthN ops w x) := by
    intro x hx
    rw [get?_map_self, if_pos hx]
  obtain ⟨d, h1, h2, h3⟩ := disparityNodes_eq ops ho (g := g) (attr := attr) (reverse := reverse)
    (wd := g.nodes.map (fun n => (n, g.strengthN ops w n))) (S := g.strengthN ops w)
    (f := f) g.nodes hget
    (fun n _ e he => hget _ (Graph.hasEdge_mem h (hedge n e he)).2)
    (by
      rintro n _ ⟨u, m, k, a⟩ he
      have hu : u = n := ((mem_edgesOf h).1 he).1
      subst hu
      have hx : ∃ x : Val N, a.get? (.str attr) = some x ∧ x.toNum = .ok (w u m) := by
        rcases (edgesOf_listed h hd).1 ⟨k, he⟩ with h1 | h1
        · exact hw _ h1
        · have := hw _ h1
          simp only at this
          rwa [hsym u m]
      obtain ⟨x, hx1, hx2⟩ := hx
      have e1 := hedge u _ he
      simp only at e1
      rw [hx1, Option.getD_some]
      exact hf u m x e1 hx2) [] (by simp [Dict.keys])
  refine ⟨d, ?_, h2, ?_⟩
  · unfold edgeDisparityN
    simp only [hd, hm, Bool.or_self, Bool.false_eq_true, if_false, hwds, h1]
  · intro u v x
    rw [h3]
    have hmem : v ∈ (g.edgesOf u).map (fun e => e.2.1) ↔ g.hasEdge u v = true := by
      constructor
      · intro hv
        obtain ⟨e, he, rfl⟩ := List.mem_map.1 hv
        exact hedge u e he
      · intro he
        obtain ⟨l, hl, hs⟩ := Graph.hasEdge_iff.1 he
        obtain ⟨⟨k, a⟩, hka⟩ := List.exists_mem_of_ne_nil _ (h.nonempty l hl)
        exact List.mem_map.2 ⟨(u, v, k, a), (mem_edgesOf h).2 ⟨rfl, l, hl, hs, hka⟩, rfl⟩
    simp only [hmem]
    by_cases he : g.hasEdge u v = true
    · have hu := (Graph.hasEdge_mem h he).1
      by_cases hle : u ≤ v
      · simp [hu, he, hle, eq_comm]
      · simp only [hle, false_and, and_false, if_false, Dict.get?, reduceCtorEq]
    · simp [he, Dict.get?]

/-- C30, C31 and C77, in any arithmetic.  On a simple undirected graph whose edges carry numeric weights, no node of positive
degree having strength 0, there is exactly one entry per edge, under the ordered pair of its ends. -/
theorem edgeDisparityA_exact [PyOrd V] (ar : Arith K) (ho : OrderedKeys V) {g : Graph V (Val K)}
    (h : g.WF) (hd : g.directed = false) (hm : g.multi = false) {attr : String} {w : V → V → K}
    (hsym : ∀ u v, w u v = w v u) (hw : g.Weighted attr w)
    (hS : ∀ u v, g.hasEdge u v = true → g.roundedStrength ar.rnd w u ≠ 0) (reverse : Bool) :
    ∃ d, edgeDisparityA ar g attr reverse = .ok d ∧ d.keys.Nodup ∧
      ∀ u v x, d.get? (u, v) = some x ↔
        u ≤ v ∧ g.hasEdge u v = true ∧ x = g.roundedDisparity ar.rnd ar.pow reverse w u v := by
  refine edgeDisparityN_exact ar.ops ho h hd hm hsym hw reverse ?_
  intro u v x he hx
  have s1 := hS u v he
  have s2 := hS v u (by rwa [Graph.hasEdge_comm hd])
  rw [strengthN_ops, strengthN_ops]
  simp only [disparityScore, hx, Arith.ops, pyDiv, s1, s2, if_false, Except.map, Graph.roundedDisparity, sideScore]
  cases reverse <;> rfl

/-- C30 and C31.  On a simple undirected graph whose edges carry numeric weights, no node of positive
degree having strength 0, there is exactly one entry per edge, under the ordered pair of its ends: the
documented formula, or 1 minus it when `reverse` is set. -/
theorem edgeDisparity_exact [IsStrictOrderedRing K] [PyOrd V] (ho : OrderedKeys V) {g : Graph V (Val K)}
    (h : g.WF) (hd : g.directed = false) (hm : g.multi = false) {attr : String} {w : V → V → K}
    (hsym : ∀ u v, w u v = w v u) (hw : g.Weighted attr w)
    (hS : ∀ u v, g.hasEdge u v = true → g.nodeStrength w u ≠ 0) (reverse : Bool) :
    ∃ d, edgeDisparity g attr reverse = .ok d ∧ d.keys.Nodup ∧
      ∀ u v x, d.get? (u, v) = some x ↔
        u ≤ v ∧ g.hasEdge u v = true ∧ x = if reverse then 1 - g.disparity w u v else g.disparity w u v := by
  have hst : ∀ n, g.roundedStrength id w n = g.nodeStrength w n := roundedStrength_id h hd hsym
  obtain ⟨d, h1, h2, h3⟩ := edgeDisparityA_exact Arith.exact ho h hd hm hsym hw
    (fun u v he => by rw [show Arith.exact.rnd = (id : K → K) from rfl, hst]; exact hS u v he) reverse
  refine ⟨d, h1, h2, fun u v x => ?_⟩
  rw [h3]
  have : g.roundedDisparity Arith.exact.rnd Arith.exact.pow reverse w u v =
      if reverse then 1 - g.disparity w u v else g.disparity w u v := by
    unfold Graph.roundedDisparity Graph.disparity sideScore
    simp only [Arith.exact, hst, id]
    cases reverse
    · rfl
    · simp only [if_true]
      rw [max_sub_sub_left]
  rw [this]

/-- The strength of an end of an edge is at least the weight of the edge when no weight is negative. -/
theorem weight_le_nodeStrength [IsStrictOrderedRing K] {A : Type} {g : Graph V A} (h : g.WF)
    {w : V → V → K} (hsym : ∀ u v, w u v = w v u)
    (hpos : ∀ u v, g.hasEdge u v = true → 0 ≤ w u v) {u v : V} (he : g.hasEdge u v = true) :
    w u v ≤ g.nodeStrength w u := by
  have hedge : ∀ e ∈ g.edges, g.hasEdge e.1 e.2 = true := fun e he => (hasEdge_listed h).2 (.inl he)
  have hnn : ∀ e ∈ g.edges, ∀ n : V, 0 ≤ (if e.1 = n then w e.1 e.2 else 0) := by
    intro e he n
    split
    · exact hpos _ _ (hedge e he)
    · exact le_refl 0
  have hnn' : ∀ e ∈ g.edges, ∀ n : V, 0 ≤ (if e.2 = n then w e.1 e.2 else 0) := by
    intro e he n
    split
    · exact hpos _ _ (hedge e he)
    · exact le_refl 0
  have hsum : ∀ e ∈ g.edges, (if e.1 = u then w e.1 e.2 else 0) + (if e.2 = u then w e.1 e.2 else 0) ≤
      g.nodeStrength w u := by
    intro e he
    unfold Graph.nodeStrength
    refine List.single_le_sum ?_ _ (List.mem_map_of_mem he)
    intro x hx
    obtain ⟨e', he', rfl⟩ := List.mem_map.1 hx
    exact add_nonneg (hnn e' he' u) (hnn' e' he' u)
  rcases (hasEdge_listed h).1 he with h1 | ⟨_, h1⟩
  · refine le_trans ?_ (hsum _ h1)
    have := hnn' _ h1 u
    simp only [if_true] at this ⊢
    exact le_add_of_nonneg_right this
  · refine le_trans ?_ (hsum _ h1)
    have := hnn _ h1 u
    simp only [if_true] at this ⊢
    rw [hsym u v]
    exact le_add_of_nonneg_left this

/-- C30.  With positive weights every node of positive degree has positive strength, so that
`edgeDisparity_exact` applies, and every disparity is between 0 and 1. -/
theorem disparity_range [IsStrictOrderedRing K] {g : Graph V (Val K)} (h : g.WF)
    (hd : g.directed = false) {w : V → V → K} (hsym : ∀ u v, w u v = w v u)
    (hpos : ∀ u v, g.hasEdge u v = true → 0 < w u v) {u v : V} (he : g.hasEdge u v = true) :
    0 < g.nodeStrength w u ∧ 0 ≤ g.disparity w u v ∧ g.disparity w u v ≤ 1 := by
  have he' : g.hasEdge v u = true := by rwa [Graph.hasEdge_comm hd]
  have h1 := weight_le_nodeStrength h hsym (fun u v he => (hpos u v he).le) he
  have h2 := weight_le_nodeStrength h hsym (fun u v he => (hpos u v he).le) he'
  rw [hsym v u] at h2
  have hw := hpos u v he
  have key : ∀ S : K, w u v ≤ S → 0 ≤ 1 - w u v / S ∧ 1 - w u v / S ≤ 1 := by
    intro S hS
    have hS0 := lt_of_lt_of_le hw hS
    refine ⟨sub_nonneg.2 ((div_le_one hS0).2 hS), sub_le_self 1 (div_nonneg hw.le hS0.le)⟩
  obtain ⟨a1, a2⟩ := key _ h1
  obtain ⟨b1, b2⟩ := key _ h2
  refine ⟨lt_of_lt_of_le hw h1, ?_, ?_⟩
  · exact le_min (pow_nonneg a1 _) (pow_nonneg b1 _)
  · exact (min_le_left _ _).trans (pow_le_one₀ a1 a2)

/-- C30, everything together for positive weights. -/
theorem edgeDisparity_positive [IsStrictOrderedRing K] [PyOrd V] (ho : OrderedKeys V) {g : Graph V (Val K)}
    (h : g.WF) (hd : g.directed = false) (hm : g.multi = false) {attr : String} {w : V → V → K}
    (hsym : ∀ u v, w u v = w v u) (hw : g.Weighted attr w)
    (hpos : ∀ u v, g.hasEdge u v = true → 0 < w u v) :
    ∃ d, edgeDisparity g attr false = .ok d ∧ d.keys.Nodup ∧
      (∀ u v x, d.get? (u, v) = some x ↔ u ≤ v ∧ g.hasEdge u v = true ∧ x = g.disparity w u v) ∧
      ∀ k x, d.get? k = some x → 0 ≤ x ∧ x ≤ 1 := by
  obtain ⟨d, h1, h2, h3⟩ := edgeDisparity_exact ho h hd hm hsym hw
    (fun u v he => (disparity_range h hd hsym hpos he).1.ne') false
  simp only [Bool.false_eq_true, if_false] at h3
  refine ⟨d, h1, h2, h3, ?_⟩
  rintro ⟨u, v⟩ x hx
  obtain ⟨_, he, rfl⟩ := (h3 u v x).1 hx
  exact (disparity_range h hd hsym hpos he).2

/-- C31.  The reversed scores are 1 minus the scores, on the same edges. -/
theorem edgeDisparity_reverse [IsStrictOrderedRing K] [PyOrd V] (ho : OrderedKeys V) {g : Graph V (Val K)}
    (h : g.WF) (hd : g.directed = false) (hm : g.multi = false) {attr : String} {w : V → V → K}
    (hsym : ∀ u v, w u v = w v u) (hw : g.Weighted attr w)
    (hS : ∀ u v, g.hasEdge u v = true → g.nodeStrength w u ≠ 0) :
    ∃ d d', edgeDisparity g attr false = .ok d ∧ edgeDisparity g attr true = .ok d' ∧
      ∀ k, d'.get? k = (d.get? k).map (fun x => 1 - x) := by
  obtain ⟨d, h1, _, h3⟩ := edgeDisparity_exact ho h hd hm hsym hw hS false
  obtain ⟨d', h1', _, h3'⟩ := edgeDisparity_exact ho h hd hm hsym hw hS true
  refine ⟨d, d', h1, h1', ?_⟩
  rintro ⟨u, v⟩
  apply Option.ext
  intro x
  rw [h3']
  simp only [Option.map_eq_some_iff, h3, if_true, Bool.false_eq_true, if_false]
  constructor
  · rintro ⟨a, b, rfl⟩; exact ⟨_, ⟨a, b, rfl⟩, rfl⟩
  · rintro ⟨_, ⟨a, b, rfl⟩, rfl⟩; exact ⟨a, b, rfl⟩

/-- A weighted path `1 -3- 2 -1- 3`, with an isolated node. -/
def weightedPath : Graph Int (Val ℚ) :=
  ⟨false, false, [], [(1, []), (2, []), (3, []), (4, [])],
    [⟨1, 2, [(.int 0, [(.str "weight", .num 3)])]⟩, ⟨3, 2, [(.int 0, [(.str "weight", .num 1)])]⟩]⟩

/-- Its weights. -/
def weightedPathWeights (u v : Int) : ℚ := if u = 3 ∨ v = 3 then 1 else 3

/-- Non-triviality: the hypotheses hold on the weighted path, whose disparities are 1/4 and 3/4. -/
example : weightedPath.WF ∧ weightedPath.Weighted "weight" weightedPathWeights ∧
    (∀ u v, weightedPathWeights u v = weightedPathWeights v u) ∧
    (∀ u v, weightedPath.hasEdge u v = true → 0 < weightedPathWeights u v) := by
  refine ⟨by constructor <;> decide, ?_, ?_, ?_⟩
  · intro e he
    have : e ∈ [((1 : Int), (2 : Int), ([(.str "weight", .num 3)] : Attrs (Val ℚ))),
      (2, 3, [(.str "weight", .num 1)])] := he
    simp only [List.mem_cons, List.not_mem_nil, or_false] at this
    rcases this with rfl | rfl
    · exact ⟨.num 3, rfl, rfl⟩
    · exact ⟨.num 1, rfl, rfl⟩
  · intro u v; unfold weightedPathWeights; simp only [or_comm]
  · intro u v _; unfold weightedPathWeights; split <;> norm_num

example : edgeDisparity weightedPath "weight" false = .ok [((1, 2), 1 / 4), ((2, 3), 3 / 4)] ∧
    edgeDisparity weightedPath "weight" true = .ok [((1, 2), 3 / 4), ((2, 3), 1 / 4)] := by decide +kernel

/-- An edge without the weight attribute makes the call raise (`None` cannot be divided). -/
theorem edgeDisparity_missing_weight :
    edgeDisparity (K := ℚ) (⟨false, false, [], [(1, []), (2, [])], [⟨1, 2, [(.int 0, [])]⟩]⟩ : Graph Int (Val ℚ))
      "weight" false = .error (.typeError "unsupported operand") := by decide +kernel

/-- A node of strength 0 makes the call raise. -/
theorem edgeDisparity_zero_strength :
    edgeDisparity (K := ℚ) (⟨false, false, [], [(1, []), (2, [])],
      [⟨1, 2, [(.int 0, [(.str "weight", .num 0)])]⟩]⟩ : Graph Int (Val ℚ))
      "weight" false = .error .zeroDivisionError := by decide +kernel

end Pelote
