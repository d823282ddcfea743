import Verif.Lemmas.IntWeights
import Verif.Props.ProjectionX64

/-! C112: projections by cosine similarity and by dot product of integer weights. -/
set_option linter.unusedSectionVars false
namespace Pelote
open XNum

section
variable {V : Type} [LinearOrder V] [PyOrd V] [AttrVal (Val (XNum ℝ))] {g : Graph V (Val (XNum ℝ))} {ns : List V}
  {partAttr weightAttr : String} {z : V → V → ℤ} {threshold : Option (XNum ℝ)}

/-- The square root of CPython. -/
noncomputable def sqrtFloat (x : ℝ) : ℝ := round64 (Real.sqrt x)

theorem metricInt_sane : Sane (metricInt sqrtFloat) :=
  ⟨by simp [metricInt, zero_def, lt], by show decide ((0 : ℝ) < 1) = true; simp⟩

theorem metricInt_sqrt (N : ℤ) (hN : 0 ≤ N) : (metricInt sqrtFloat).sqrt (.fin (N : ℝ)) =
    if N < tooLarge then .ok (.fin (intRoot N)) else .error .overflowError := by
  have h0 : (0 : ℝ) ≤ N := by exact_mod_cast hN
  show (ofInt (.fin (N : ℝ))).map _ = _
  rw [ofInt_fin, abs_of_nonneg h0]
  simp only [Int.cast_lt]
  split <;> rfl

theorem squareSum_nonneg {A : Type} (g : Graph V A) (z : V → V → ℤ) (u : V) : 0 ≤ g.squareSum z u :=
  Finset.sum_nonneg (fun _ _ => sq_nonneg _)

theorem metricInt_lt (h : g.WF) (u : V) :
    (metricInt sqrtFloat).lt 0 (squareN (metricInt sqrtFloat) g (fun u v => .fin (z u v : ℝ)) u) = true ↔
      ∃ t, g.hasEdge u t = true ∧ z u t ≠ 0 := by
  rw [squareN_int sqrtFloat h, ← squareSum_pos h]
  show decide ((0 : ℝ) < _) = true ↔ _
  rw [decide_eq_true_eq]
  exact_mod_cast Iff.rfl

theorem hasNorm_int (h : g.WF) (u : V) : HasNorm (metricInt sqrtFloat) true g (fun u v => .fin (z u v : ℝ)) u ↔
    ∃ t, g.hasEdge u t = true ∧ z u t ≠ 0 := by
  unfold HasNorm
  rw [metricInt_lt h]
  constructor
  · rintro ⟨_, h2⟩
    exact h2 rfl
  · rintro ⟨t, h1, h2⟩
    exact ⟨List.ne_nil_of_mem (Graph.mem_neighbors.2 h1), fun _ => ⟨t, h1, h2⟩⟩

/-- C112.  `cosine` raises `OverflowError` on integer weights when the sum of the squares of the weights of a node of the part is too
large for a float. -/
theorem cosine_int_overflow (check : Bool) (h : ProjectableN g ns partAttr weightAttr (fun u v => .fin (z u v : ℝ)))
    (ht : ∀ t, threshold = some t → t.le 0 = false) {u : V} (hu : u ∈ g.nodes) (hun : u ∈ ns) (hl : tooLarge ≤ g.squareSum z u) :
    monopartiteProjectionN (metricInt sqrtFloat) true g ns partAttr weightAttr check threshold = .error .overflowError := by
  refine projectionN_raises h ht ?_ hu hun ?_ ?_
  · intro x e' he
    cases x with
    | fin a =>
      change (ofInt (.fin a)).map _ = _ at he
      rw [ofInt_fin] at he
      split at he
      · cases he
      · cases he; rfl
    | inf s => cases he
    | nan => cases he
  · rw [metricInt_lt h.wf, ← squareSum_pos h.wf]
    refine lt_of_lt_of_le ?_ hl
    exact sub_pos.2 (pow_lt_pow_right₀ (by norm_num) (by norm_num))
  · rw [squareN_int sqrtFloat h.wf, metricInt_sqrt _ (squareSum_nonneg g z u), if_neg (not_lt.2 hl)]

/-- The cosine of two nodes whose norms can be computed. -/
theorem similarity_int (h : g.WF) {u v : V} (hu : ∃ t, g.hasEdge u t = true ∧ z u t ≠ 0) (hv : ∃ t, g.hasEdge v t = true ∧ z v t ≠ 0)
    (hul : g.squareSum z u < tooLarge) (hvl : g.squareSum z v < tooLarge) :
    similarityN (metricInt sqrtFloat) true g (fun u v => .fin (z u v : ℝ)) u v =
      .ok (.fin (intCosine (g.productSum z u v : ℤ) (g.squareSum z u : ℤ) (g.squareSum z v : ℤ))) := by
  have hu0 := (squareSum_pos h z u).2 hu
  have hv0 := (squareSum_pos h z v).2 hv
  have hcs := abs_productSum_le (g := g) z u v
  obtain ⟨h1, h2, -⟩ := intCosine_spec (by omega) (by omega) hul hvl hcs
  unfold similarityN
  rw [squareN_int sqrtFloat h, squareN_int sqrtFloat h, productN_int sqrtFloat h, metricInt_sqrt _ hu0.le, metricInt_sqrt _ hv0.le,
    if_pos hul, if_pos hvl]
  simp only [if_true, Except.bind]
  have hN : (1 : ℝ) ≤ (g.squareSum z u : ℤ) := by exact_mod_cast hu0
  have hM : (1 : ℝ) ≤ (g.squareSum z v : ℤ) := by exact_mod_cast hv0
  have hNt : ((g.squareSum z u : ℤ) : ℝ) < (tooLarge : ℤ) := by exact_mod_cast hul
  have hMt : ((g.squareSum z v : ℤ) : ℝ) < (tooLarge : ℤ) := by exact_mod_cast hvl
  have a1 := (intRoot_near hN hNt).2.1
  have b1 := (intRoot_near hM hMt).2.1
  have hab : 0 ≤ intRoot (g.squareSum z u : ℤ) * intRoot (g.squareSum z v : ℤ) := by positivity
  have hmul : (metricInt sqrtFloat).times (.fin (intRoot (g.squareSum z u : ℤ))) (.fin (intRoot (g.squareSum z v : ℤ))) =
      .fin (round64 (intRoot (g.squareSum z u : ℤ) * intRoot (g.squareSum z v : ℤ))) := by
    show store _ = _
    apply store_fin
    rw [abs_round64_eq, abs_of_nonneg hab]
    exact (round64_lt_top hab).2 (intRoot_mul hN hM hNt hMt)
  rw [hmul]
  show (ofInt _).bind _ = _
  have hp : |((g.productSum z u v : ℤ) : ℝ)| < (tooLarge : ℤ) := by
    refine hcs.trans_lt ?_
    have e : Real.sqrt (tooLarge : ℤ) * Real.sqrt (tooLarge : ℤ) = (tooLarge : ℤ) :=
      Real.mul_self_sqrt (by linarith)
    rw [← e]
    exact mul_lt_mul'' (Real.sqrt_lt_sqrt (by linarith) hNt) (Real.sqrt_lt_sqrt (by linarith) hMt) (Real.sqrt_nonneg _) (Real.sqrt_nonneg _)
  rw [ofInt_fin, if_pos hp]
  simp only [Except.bind, div64, h1.ne', if_false]
  rw [store_fin]
  · rfl
  · refine (abs_round64_le' (M := 2) ⟨1, 1, by norm_num, by norm_num, by norm_num⟩ h2).trans_lt ?_
    exact lt_of_le_of_lt (by norm_num : (2 : ℝ) ≤ 2 ^ 1) (pow_lt_pow_right₀ (by norm_num) (by norm_num))

/-- C112.  When no such sum is too large, `cosine` raises `KeyError` if a node all weights of which are 0 shares a neighbor with a node
of lesser label that has another weight. -/
theorem cosine_int_zero (check : Bool) (h : ProjectableN g ns partAttr weightAttr (fun u v => .fin (z u v : ℝ)))
    (ht : ∀ t, threshold = some t → t.le 0 = false) (hl : ∀ u ∈ ns, g.squareSum z u < tooLarge) {u v : V} (huv : u < v) (hu : u ∈ ns)
    (hv : v ∈ ns) (hs : g.Sharing u v) (hz : ∃ t, g.hasEdge u t = true ∧ z u t ≠ 0) (hz' : ∀ t, g.hasEdge v t = true → z v t = 0) :
    monopartiteProjectionN (metricInt sqrtFloat) true g ns partAttr weightAttr check threshold = .error .keyError := by
  refine (projectionN_cases metricInt_sane h ht ?_ ?_).1 ⟨u, v, huv, hu, hv, hs, (hasNorm_int h.wf u).2 hz, fun hn => ?_⟩
  · intro u hu _ _
    rw [squareN_int sqrtFloat h.wf, metricInt_sqrt _ (squareSum_nonneg g z u), if_pos (hl u hu)]
    exact ⟨_, rfl⟩
  · intro u v _ hu hv _ h1 h2
    exact ⟨_, similarity_int h.wf ((hasNorm_int h.wf u).1 h1) ((hasNorm_int h.wf v).1 h2) (hl u hu) (hl v hv)⟩
  · obtain ⟨t, h1, h2⟩ := (hasNorm_int h.wf v).1 hn
    exact h2 (hz' t h1)

/-- C112.  `cosine` raises `OverflowError` for no other reason. -/
theorem cosine_int_overflow_iff (check : Bool) (h : ProjectableN g ns partAttr weightAttr (fun u v => .fin (z u v : ℝ)))
    (ht : ∀ t, threshold = some t → t.le 0 = false) :
    monopartiteProjectionN (metricInt sqrtFloat) true g ns partAttr weightAttr check threshold = .error .overflowError ↔
      ∃ u ∈ g.nodes, u ∈ ns ∧ tooLarge ≤ g.squareSum z u := by
  constructor
  · intro he
    by_contra hc
    have hl : ∀ u ∈ ns, g.squareSum z u < tooLarge := by
      intro u hu
      by_cases hg : u ∈ g.nodes
      · exact not_le.1 fun hl => hc ⟨u, hg, hu, hl⟩
      · refine lt_of_le_of_lt (not_lt.1 fun h0 => ?_) (sub_pos.2 (pow_lt_pow_right₀ (by norm_num) (by norm_num)) : (0 : ℤ) < tooLarge)
        obtain ⟨t, h1, _⟩ := (squareSum_pos h.wf z u).1 h0
        exact hg (Graph.hasEdge_mem h.wf h1).1
    have key := projectionN_cases (check := check) (cosine := true) (threshold := threshold) metricInt_sane h ht (by
        intro u hu _ _
        rw [squareN_int sqrtFloat h.wf, metricInt_sqrt _ (squareSum_nonneg g z u), if_pos (hl u hu)]
        exact ⟨_, rfl⟩) (fun u v _ hu hv _ h1 h2 =>
        ⟨_, similarity_int h.wf ((hasNorm_int h.wf u).1 h1) ((hasNorm_int h.wf v).1 h2) (hl u hu) (hl v hv)⟩)
    by_cases hx : ∃ u v, u < v ∧ u ∈ ns ∧ v ∈ ns ∧ g.Sharing u v ∧
        HasNorm (metricInt sqrtFloat) true g (fun u v => .fin (z u v : ℝ)) u ∧
        ¬ HasNorm (metricInt sqrtFloat) true g (fun u v => .fin (z u v : ℝ)) v
    · rw [key.1 hx] at he
      cases he
    · obtain ⟨m, hm, -⟩ := key.2 hx
      rw [hm] at he
      cases he
  · rintro ⟨u, hg, hu, hl⟩
    exact cosine_int_overflow check h ht hg hu hl

/-- C112.  When no sum of squares is too large and no node of the part that has a neighbor has only weights 0, `cosine` does not raise on
integer weights, of any size, and the similarity of two nodes is their cosine up to a relative error of `7 / 2 ** 52` and an absolute error
of `2 ** -1075`: it has the right sign, is never infinite nor NaN, and is 0 only if the cosine is. -/
theorem cosine_int (check : Bool) (h : ProjectableN g ns partAttr weightAttr (fun u v => .fin (z u v : ℝ)))
    (ht : ∀ t, threshold = some t → t.le 0 = false) (hl : ∀ u ∈ ns, g.squareSum z u < tooLarge)
    (hz : ∀ u ∈ ns, g.neighbors u ≠ [] → ∃ t, g.hasEdge u t = true ∧ z u t ≠ 0) :
    ∃ m, monopartiteProjectionN (metricInt sqrtFloat) true g ns partAttr weightAttr check threshold = .ok m ∧ m.WF ∧
      (∀ n a, m.node.get? n = some a ↔ n ∈ ns ∧ ∃ b, g.node.get? n = some b ∧ a = b.erase (.str partAttr)) ∧
      ∃ c : V → V → ℝ,
        (∀ u v a, m.edge? u v (.int 0) = some a ↔ u ≠ v ∧ u ∈ ns ∧ v ∈ ns ∧ g.Sharing u v ∧
          (∀ t, threshold = some t → (XNum.fin (c u v)).lt t = false) ∧ a = [(.str "weight", .num (.fin (c u v)))]) ∧
        ∀ u v, u ∈ ns → v ∈ ns → g.Sharing u v →
          (0 < c u v ↔ 0 < g.productSum z u v) ∧ (c u v < 0 ↔ g.productSum z u v < 0) ∧
          |c u v - g.productSum z u v / (Real.sqrt (g.squareSum z u) * Real.sqrt (g.squareSum z v))| ≤
            7 / 2 ^ 52 * |g.productSum z u v / (Real.sqrt (g.squareSum z u) * Real.sqrt (g.squareSum z v))| + 2 ^ (-1075 : ℤ) := by
  have hne : ∀ {u v}, g.Sharing u v → g.neighbors u ≠ [] := by
    rintro u v ⟨t, h1, _⟩
    exact List.ne_nil_of_mem (Graph.mem_neighbors.2 h1)
  have hcomm : ∀ {u v}, g.Sharing u v → g.Sharing v u := fun ⟨t, h1, h2⟩ => ⟨t, h2, h1⟩
  have hsim : ∀ u v, u ∈ ns → v ∈ ns → g.Sharing u v → similarityN (metricInt sqrtFloat) true g (fun u v => .fin (z u v : ℝ)) u v =
      .ok (.fin (intCosine (g.productSum z u v : ℤ) (g.squareSum z u : ℤ) (g.squareSum z v : ℤ))) := fun u v hu hv hs =>
    similarity_int h.wf (hz u hu (hne hs)) (hz v hv (hne (hcomm hs))) (hl u hu) (hl v hv)
  obtain ⟨m, h1, h2, h3, h4⟩ := (projectionN_cases (check := check) metricInt_sane h ht (by
      intro u hu _ _
      rw [squareN_int sqrtFloat h.wf, metricInt_sqrt _ (squareSum_nonneg g z u), if_pos (hl u hu)]
      exact ⟨_, rfl⟩) (fun u v _ hu hv hs _ _ => ⟨_, hsim u v hu hv hs⟩)).2 (by
      rintro ⟨u, v, _, _, hv, hs, _, hn⟩
      exact hn ((hasNorm_int h.wf v).2 (hz v hv (hne (hcomm hs)))))
  have hprod : ∀ u v, g.productSum z u v = g.productSum z v u := by
    intro u v
    unfold Graph.productSum
    rw [Finset.inter_comm]
    simp only [mul_comm]
  have hpair : ∀ {u v}, u ∈ ns → v ∈ ns → g.Sharing u v → min u v ∈ ns ∧ max u v ∈ ns ∧ g.Sharing (min u v) (max u v) := by
    intro u v hu hv hs
    rcases le_total u v with hle | hle
    · rw [min_eq_left hle, max_eq_right hle]; exact ⟨hu, hv, hs⟩
    · rw [min_eq_right hle, max_eq_left hle]; exact ⟨hv, hu, hcomm hs⟩
  refine ⟨m, h1, h2, h3, fun u v => intCosine (g.productSum z (min u v) (max u v) : ℤ) (g.squareSum z (min u v) : ℤ)
    (g.squareSum z (max u v) : ℤ), ?_, ?_⟩
  · intro u v a
    rw [h4]
    constructor
    · rintro ⟨a1, a2, a3, a4, a5, x, a6, a7, a8⟩
      obtain ⟨b1, b2, b3⟩ := hpair a2 a3 a4
      rw [hsim _ _ b1 b2 b3] at a6
      cases a6
      exact ⟨a1, a2, a3, a4, a7, a8⟩
    · rintro ⟨a1, a2, a3, a4, a5, a6⟩
      obtain ⟨b1, b2, b3⟩ := hpair a2 a3 a4
      exact ⟨a1, a2, a3, a4, (hasNorm_int h.wf _).2 (hz _ b1 (hne b3)), _, hsim _ _ b1 b2 b3, a5, a6⟩
  · intro u v hu hv hs
    obtain ⟨b1, b2, b3⟩ := hpair hu hv hs
    have hu0 := (squareSum_pos h.wf z _).2 (hz _ b1 (hne b3))
    have hv0 := (squareSum_pos h.wf z _).2 (hz _ b2 (hne (hcomm b3)))
    obtain ⟨-, -, c1, c2, c3⟩ := intCosine_spec (p := g.productSum z (min u v) (max u v)) (by omega) (by omega) (hl _ b1) (hl _ b2)
      (abs_productSum_le (g := g) z _ _)
    rcases le_total u v with hle | hle
    · simp only [min_eq_left hle, max_eq_right hle] at c1 c2 c3 ⊢
      exact ⟨c1, c2, c3⟩
    · simp only [min_eq_right hle, max_eq_left hle] at c1 c2 c3 ⊢
      rw [hprod u v, mul_comm (Real.sqrt (g.squareSum z u : ℤ))]
      exact ⟨c1, c2, c3⟩

/-- C112.  The projection by dot product of integer weights never raises, and its weights are exact, of any size. -/
theorem dotProduct_int (check : Bool) (h : ProjectableN g ns partAttr weightAttr (fun u v => .fin (z u v : ℝ)))
    (ht : ∀ t, threshold = some t → t.le 0 = false) :
    ∃ m, monopartiteProjectionN (metricInt sqrtFloat) false g ns partAttr weightAttr check threshold = .ok m ∧ m.WF ∧
      (∀ n a, m.node.get? n = some a ↔ n ∈ ns ∧ ∃ b, g.node.get? n = some b ∧ a = b.erase (.str partAttr)) ∧
      ∀ u v a, m.edge? u v (.int 0) = some a ↔ u ≠ v ∧ u ∈ ns ∧ v ∈ ns ∧ g.Sharing u v ∧
        (∀ t, threshold = some t → (XNum.fin (g.productSum z u v : ℝ)).lt t = false) ∧
        a = [(.str "weight", .num (.fin (g.productSum z u v : ℝ)))] := by
  have hne : ∀ {u v}, g.Sharing u v → g.neighbors u ≠ [] := by
    rintro u v ⟨t, h1, _⟩
    exact List.ne_nil_of_mem (Graph.mem_neighbors.2 h1)
  have hcomm : ∀ {u v}, g.Sharing u v → g.Sharing v u := fun ⟨t, h1, h2⟩ => ⟨t, h2, h1⟩
  have hsim : ∀ u v, similarityN (metricInt sqrtFloat) false g (fun u v => .fin (z u v : ℝ)) u v =
      .ok (.fin ((g.productSum z u v : ℤ) : ℝ)) := by
    intro u v
    unfold similarityN
    rw [productN_int sqrtFloat h.wf]
    simp
  have hprod : ∀ u v, g.productSum z (min u v) (max u v) = g.productSum z u v := by
    intro u v
    rcases le_total u v with hle | hle
    · rw [min_eq_left hle, max_eq_right hle]
    · rw [min_eq_right hle, max_eq_left hle]
      unfold Graph.productSum
      rw [Finset.inter_comm]
      simp only [mul_comm]
  obtain ⟨m, h1, h2, h3, h4⟩ := (projectionN_cases (check := check) (cosine := false) metricInt_sane h ht (by intro _ _ hc; cases hc)
      (fun u v _ _ _ _ _ _ => ⟨_, hsim u v⟩)).2 (by
      rintro ⟨u, v, _, _, _, hs, _, hn⟩
      exact hn ⟨hne (hcomm hs), by simp⟩)
  refine ⟨m, h1, h2, h3, fun u v a => ?_⟩
  rw [h4]
  constructor
  · rintro ⟨a1, a2, a3, a4, a5, x, a6, a7, a8⟩
    rw [hsim, hprod] at a6
    cases a6
    exact ⟨a1, a2, a3, a4, a7, a8⟩
  · rintro ⟨a1, a2, a3, a4, a5, a6⟩
    refine ⟨a1, a2, a3, a4, ⟨?_, by simp⟩, _, by rw [hsim, hprod], a5, a6⟩
    rcases le_total u v with hle | hle
    · rw [min_eq_left hle]; exact hne a4
    · rw [min_eq_right hle]; exact hne (hcomm a4)

end

/-! ### Witnesses -/

/-- Accounts 1 and 2 share the same page 10 with the given weights: their vectors are parallel. -/
def intPair (a b : ℤ) : Graph Int (Val (XNum ℝ)) :=
  ⟨false, false, [], [(1, []), (2, []), (10, [])],
    [⟨1, 10, [(.int 0, [(.str "weight", .num (.fin (a : ℝ)))])]⟩, ⟨2, 10, [(.int 0, [(.str "weight", .num (.fin (b : ℝ)))])]⟩]⟩

/-- The weights of the sample. -/
def intPairWeights (a b : ℤ) (u v : Int) : ℤ := if u = 1 ∨ v = 1 then a else b

/-- The hypotheses of the theorems of this file hold of the sample, whatever the weights. -/
theorem intPair_projectable [AttrVal (Val (XNum ℝ))] (a b : ℤ) :
    ProjectableN (intPair a b) [1, 2] "part" "weight" (fun u v => .fin (intPairWeights a b u v : ℝ)) where
  wf := by constructor <;> simp [intPair, Graph.nodes, Dict.keys, samePair]
  undirected := rfl
  simple := rfl
  nonempty := ⟨1, by simp [intPair, Graph.nodes, Dict.keys], by simp⟩
  bipartite := by
    intro u v he
    obtain ⟨l, hl, hs⟩ := Graph.hasEdge_iff.1 he
    simp only [intPair, List.mem_cons, List.not_mem_nil, or_false] at hl
    rcases hl with rfl | rfl <;> rcases samePair_iff.1 hs with ⟨rfl, rfl⟩ | ⟨_, rfl, rfl⟩ <;> simp
  comparable := by intro u _ v _; rfl
  names := by
    intro n c hc _
    have : (n, c) ∈ (intPair a b).node := Dict.mem_of_get? hc
    simp only [intPair, List.mem_cons, Prod.mk.injEq, List.not_mem_nil, or_false] at this
    rcases this with ⟨_, rfl⟩ | ⟨_, rfl⟩ | ⟨_, rfl⟩ <;> simp [Graph.NodeKwSafe, Dict.erase, Dict.keys]
  weights := by
    intro u v c hc
    obtain ⟨l, hl, hs, hd⟩ : ∃ l ∈ (intPair a b).links, samePair false u v l.u l.v = true ∧ l.data.get? (.int 0) = some c := by
      unfold Graph.edge? Graph.keydict? at hc
      obtain ⟨d, hd, hc⟩ := Option.bind_eq_some_iff.1 hc
      obtain ⟨l, hl, rfl⟩ := Option.map_eq_some_iff.1 hd
      exact ⟨l, List.mem_of_find?_eq_some hl, List.find?_some (p := fun x : Link Int (Val (XNum ℝ)) => samePair false u v x.u x.v) hl, hc⟩
    simp only [intPair, List.mem_cons, List.not_mem_nil, or_false] at hl
    rcases hl with rfl | rfl <;> simp only [Dict.get?_cons, if_true, Option.some.injEq] at hd <;> subst hd <;>
      rcases samePair_iff.1 hs with ⟨rfl, rfl⟩ | ⟨_, rfl, rfl⟩ <;> rfl

/-- The sums of the sample. -/
theorem intPair_sums (a b : ℤ) : (intPair a b).squareSum (intPairWeights a b) 1 = a ^ 2 ∧
    (intPair a b).squareSum (intPairWeights a b) 2 = b ^ 2 ∧ (intPair a b).productSum (intPairWeights a b) 1 2 = a * b := by
  have h1 : (intPair a b).nbhd 1 = {10} := rfl
  have h2 : (intPair a b).nbhd 2 = {10} := rfl
  refine ⟨?_, ?_, ?_⟩ <;> simp [Graph.squareSum, Graph.productSum, h1, h2, intPairWeights]

/-- C112, findings.  Integer weights of `2 ** 512` make `cosine` raise, weights of `2 ** 511` do not. -/
theorem intPair_findings [AttrVal (Val (XNum ℝ))] :
    monopartiteProjectionN (metricInt sqrtFloat) true (intPair (2 ^ 512) 1) [1, 2] "part" "weight" true none = .error .overflowError ∧
    ∃ m, monopartiteProjectionN (metricInt sqrtFloat) true (intPair (2 ^ 511) 1) [1, 2] "part" "weight" true none = .ok m := by
  constructor
  · refine cosine_int_overflow true (intPair_projectable _ _) (by intro t ht; cases ht) (u := 1)
      (by simp [intPair, Graph.nodes, Dict.keys]) (by simp) ?_
    rw [(intPair_sums _ _).1]
    decide +kernel
  · obtain ⟨m, hm, -⟩ := cosine_int (threshold := none) true (intPair_projectable (2 ^ 511) 1) (by intro t ht; cases ht) (by
        intro u hu
        simp only [List.mem_cons, List.not_mem_nil, or_false] at hu
        rcases hu with rfl | rfl
        · rw [(intPair_sums _ _).1]; decide +kernel
        · rw [(intPair_sums _ _).2.1]; decide +kernel) (by
        intro u hu _
        simp only [List.mem_cons, List.not_mem_nil, or_false] at hu
        rcases hu with rfl | rfl
        · exact ⟨10, rfl, by simp [intPairWeights]⟩
        · exact ⟨10, rfl, by simp [intPairWeights]⟩)
    exact ⟨m, hm⟩

attribute [local instance] pairAttrVal

/-- The link of the projection of two accounts with integer weights. -/
def intLink (a b : ℚ) (cosine : Bool) (threshold : Option (XNum ℚ)) : Py (Option (Attrs (Val (XNum ℚ)))) :=
  (monopartiteProjectionN (metricInt clampSqrt) cosine (pairSample (.fin a) (.fin b)) [1, 2] "part" "weight" true threshold).map
    (fun m => m.edge? 1 2 (.int 0))

set_option synthInstance.maxSize 2000 in
/-- C112, findings.  The same weights, as integers and as floats: the dot product of two weights of `2 ** 700` is exact or infinite, their
cosine raises or is NaN, and the dot product of `2 ** 53 + 1` with 1 is exact. -/
theorem intLink_findings :
    intLink (2 ^ 700) (2 ^ 700) false none = .ok (some [(.str "weight", .num (.fin (2 ^ 1400)))]) ∧
    pairLink (.fin (2 ^ 700)) (.fin (2 ^ 700)) false none = .ok (some [(.str "weight", .num (.inf false))]) ∧
    intLink (2 ^ 700) (2 ^ 700) true none = .error .overflowError ∧
    pairLink (.fin (2 ^ 700)) (.fin (2 ^ 700)) true none = .ok (some [(.str "weight", .num .nan)]) ∧
    intLink (2 ^ 53 + 1) 1 false none = .ok (some [(.str "weight", .num (.fin (2 ^ 53 + 1)))]) ∧
    intLink 1 0 true none = .error .keyError ∧ intLink 0 1 true none = .ok none := by
  refine ⟨?_, ?_, ?_, ?_, ?_, ?_, ?_⟩ <;> decide +kernel

end Pelote
