import Verif.Lemmas.NullModel
import Verif.Props.Disparity
import Verif.Props.Sparsification
import Mathlib.Analysis.SpecialFunctions.Integrals.Basic

/-! Property C109: the statistical test of the multiscale backbone. -/
namespace Pelote
open MeasureTheory

/-- C109.  The formula of the documentation is that of the article, an integral. -/
theorem disparity_integral (k : Nat) (hk : 2 ≤ k) (p : ℝ) :
    (1 - p) ^ (k - 1) = 1 - ((k : ℝ) - 1) * ∫ x in (0 : ℝ)..p, (1 - x) ^ (k - 2) := by
  obtain ⟨m, rfl⟩ : ∃ m, k = m + 2 := ⟨k - 2, by omega⟩
  have h1 : m + 2 - 1 = m + 1 := by omega
  have h2 : m + 2 - 2 = m := by omega
  rw [h1, h2, intervalIntegral.integral_comp_sub_left (fun x => x ^ m) 1, integral_pow]
  push_cast
  have : (m : ℝ) + 1 ≠ 0 := by positivity
  simp only [sub_zero, one_pow]
  field_simp
  ring

section
variable {V : Type} [LinearOrder V]

/-- The probability that one of the shares of the strength of `u`, cut at random into as many shares as `u` has edges, is at
least the weight of the edge between `u` and `v`. -/
noncomputable def Graph.pValue (g : Graph V (Val ℝ)) (w : V → V → ℝ) (u v : V) (j : Option (Fin (g.degree u - 1))) : ℝ :=
  (nullModel (g.degree u - 1)).real {y | w u v ≤ share y j * g.nodeStrength w u}

theorem pValue_eq {g : Graph V (Val ℝ)} (h : g.WF) {w : V → V → ℝ} (hsym : ∀ u v, w u v = w v u)
    (hpos : ∀ u v, g.hasEdge u v = true → 0 < w u v) {u v : V} (he : g.hasEdge u v = true)
    (j : Option (Fin (g.degree u - 1))) :
    g.pValue w u v j = (1 - w u v / g.nodeStrength w u) ^ (g.degree u - 1) := by
  have hle := weight_le_nodeStrength h hsym (fun a b hab => (hpos a b hab).le) he
  have hw := hpos u v he
  have hs : 0 < g.nodeStrength w u := hw.trans_le hle
  rw [← nullModel_share j (div_nonneg hw.le hs.le) ((div_le_one hs).2 hle)]
  unfold Graph.pValue
  congr 1
  ext y
  exact (div_le_iff₀ hs).symm

/-- C109.  Scores are p-values: the least of the probabilities, at each end of the edge, that a share of the strength of the end
cut at random would be as large as the edge. -/
theorem edgeDisparity_pValue [PyOrd V] (ho : OrderedKeys V) {g : Graph V (Val ℝ)}
    (h : g.WF) (hd : g.directed = false) (hm : g.multi = false) {attr : String} {w : V → V → ℝ}
    (hsym : ∀ u v, w u v = w v u) (hw : g.Weighted attr w)
    (hpos : ∀ u v, g.hasEdge u v = true → 0 < w u v) (reverse : Bool) :
    ∃ d, edgeDisparity g attr reverse = .ok d ∧ d.keys.Nodup ∧
      ∀ u v x, d.get? (u, v) = some x ↔ u ≤ v ∧ g.hasEdge u v = true ∧
        ∀ j k, x = if reverse then max (1 - g.pValue w u v j) (1 - g.pValue w v u k)
          else min (g.pValue w u v j) (g.pValue w v u k) := by
  have hS : ∀ u v, g.hasEdge u v = true → g.nodeStrength w u ≠ 0 := fun u v he =>
    ((hpos u v he).trans_le (weight_le_nodeStrength h hsym (fun a b hab => (hpos a b hab).le) he)).ne'
  obtain ⟨d, h1, h2, h3⟩ := edgeDisparity_exact ho h hd hm hsym hw hS reverse
  refine ⟨d, h1, h2, fun u v x => ?_⟩
  rw [h3]
  refine and_congr_right fun _ => and_congr_right fun he => ?_
  have he' : g.hasEdge v u = true := by rwa [Graph.hasEdge_comm hd]
  have hval : ∀ j k, (if reverse then max (1 - g.pValue w u v j) (1 - g.pValue w v u k)
      else min (g.pValue w u v j) (g.pValue w v u k)) = if reverse then 1 - g.disparity w u v else g.disparity w u v := by
    intro j k
    rw [pValue_eq h hsym hpos he, pValue_eq h hsym hpos he', max_sub_sub_left]
    unfold Graph.disparity
    rw [hsym v u]
  simp only [hval]
  exact ⟨fun h _ _ => h, fun h => h none none⟩

/-- C109.  The backbone keeps the edges which are significant at one of their ends: with probability at most `alpha`, a share
of the strength of the end cut at random would be as large. -/
theorem multiscaleBackbone_pValue [PyOrd V] [AttrVal (Val ℝ)] (ulongMax : Nat) (ho : OrderedKeys V) {g : Graph V (Val ℝ)}
    (h : g.WF) (hd : g.directed = false) (hm : g.multi = false) {attr : String} {w : V → V → ℝ}
    (hsym : ∀ u v, w u v = w v u) (hw : g.Weighted attr w)
    (hpos : ∀ u v, g.hasEdge u v = true → 0 < w u v) (alpha : ℝ)
    (hkw : ∀ e ∈ g.edgesData, Graph.EdgeKwSafe g.multi e.2.2) :
    ∃ g', multiscaleBackbone ulongMax g alpha attr false = .ok g' ∧ g'.WF ∧
      g'.directed = g.directed ∧ g'.multi = g.multi ∧ g'.attrs = g.attrs ∧ g'.node = g.node ∧
      ∃ p : V × V × Attrs (Val ℝ) → Bool, g'.edgesData = g.edgesData.filter p ∧
        ∀ e ∈ g.edgesData, ∀ j k, p e = true ↔ g.pValue w e.1 e.2.1 j ≤ alpha ∨ g.pValue w e.2.1 e.1 k ≤ alpha := by
  obtain ⟨g', h1, h2, h3, h4, h5, h6, h7⟩ := multiscaleBackbone_exact ulongMax ho h hd hm hsym hw hpos alpha false (by simp) hkw
  refine ⟨g', h1, h2, h3, h4, h5, h6, _, h7, ?_⟩
  intro e he j k
  have hu : g.hasEdge e.1 e.2.1 = true := (hasEdge_listed h).2 (.inl (mem_edges.2 ⟨e.2.2, he⟩))
  rw [pValue_eq h hsym hpos hu, pValue_eq h hsym hpos (by rwa [Graph.hasEdge_comm hd]), ← min_le_iff]
  unfold Graph.disparity
  simp [hsym e.2.1 e.1]

/-- C109.  The level of the test: were the strength `s` of a node cut at random, a given edge of the node would be significant at
this node, that is to say have a p-value of at most `alpha`, with probability `alpha`, whatever the strength and the degree; never
if it is the only edge. -/
theorem backbone_level {n : Nat} (j k : Option (Fin n)) {s alpha : ℝ} (hs : 0 < s) (h0 : 0 ≤ alpha) (h1 : alpha < 1) :
    (nullModel n).real {y | (nullModel n).real {z | share y j * s ≤ share z k * s} ≤ alpha} = if n = 0 then 0 else alpha := by
  rw [nullModel_congr (t' := {y | (1 - share y j) ^ n ≤ alpha})]
  · split
    · rename_i hn
      subst hn
      simp [not_le.2 h1]
    · rename_i hn
      exact nullModel_level hn j h0 h1.le
  · intro y hy
    have hr := share_range hy j
    simp only [Set.mem_setOf_eq, mul_le_mul_iff_left₀ hs]
    rw [nullModel_share k hr.1 hr.2]

/-- C109.  The level of the test of an edge is not `alpha`: were the strengths of its two ends, of degree 2 or more, cut at
random independently, the edge would be significant at one of its ends, and kept, with probability `1 - (1 - alpha) ^ 2`, about
twice `alpha`. -/
theorem backbone_level_both {n m : Nat} (hn : n ≠ 0) (hm : m ≠ 0) (j k : Option (Fin n)) (i l : Option (Fin m)) {s t alpha : ℝ}
    (hs : 0 < s) (ht : 0 < t) (h0 : 0 ≤ alpha) (h1 : alpha < 1) :
    ((nullModel n).prod (nullModel m)).real
        ({y | (nullModel n).real {z | share y.1 j * s ≤ share z k * s} ≤ alpha} ∪
          {y | (nullModel m).real {z | share y.2 i * t ≤ share z l * t} ≤ alpha}) = 1 - (1 - alpha) ^ 2 := by
  rw [← nullModel_level_both hn hm j i h0 h1.le]
  have c1 : ∀ᵐ y ∂(nullModel n).prod (nullModel m), y.1 ∈ cuts n :=
    Measure.quasiMeasurePreserving_fst.ae (ProbabilityTheory.ae_cond_mem (cuts_measurable n))
  have c2 : ∀ᵐ y ∂(nullModel n).prod (nullModel m), y.2 ∈ cuts m :=
    Measure.quasiMeasurePreserving_snd.ae (ProbabilityTheory.ae_cond_mem (cuts_measurable m))
  refine measureReal_congr ?_
  filter_upwards [c1, c2] with y h1 h2
  have r1 := share_range h1 j
  have r2 := share_range h2 i
  apply propext
  show ((nullModel n).real {z | share y.1 j * s ≤ share z k * s} ≤ alpha ∨
    (nullModel m).real {z | share y.2 i * t ≤ share z l * t} ≤ alpha) ↔ min ((1 - share y.1 j) ^ n) ((1 - share y.2 i) ^ m) ≤ alpha
  simp only [mul_le_mul_iff_left₀ hs, mul_le_mul_iff_left₀ ht]
  rw [nullModel_share k r1.1 r1.2, nullModel_share l r2.1 r2.2, min_le_iff]

/-- The usual level. -/
example : (1 : ℝ) - (1 - 0.05) ^ 2 = 0.0975 := by norm_num

/-- C109.  The test on a node whose strength `s` is cut at random into the weights of its edges: the edge towards a leaf gets a
score of at most `alpha` with probability `alpha`. -/
theorem edgeDisparity_random_leaf [PyOrd V] (ho : OrderedKeys V) {n : Nat} (hn : n ≠ 0) (G : (Fin n → ℝ) → Graph V (Val ℝ))
    (w : (Fin n → ℝ) → V → V → ℝ) {attr : String} {u v : V} {s : ℝ} (j : Option (Fin n)) (huv : u ≤ v)
    (hG : ∀ y ∈ cuts n, (∀ j, 0 < share y j) → (G y).WF ∧ (G y).directed = false ∧ (G y).multi = false ∧
      (∀ a b, w y a b = w y b a) ∧ (G y).Weighted attr (w y) ∧ (∀ a b, (G y).hasEdge a b = true → 0 < w y a b) ∧
      (G y).hasEdge u v = true ∧ (G y).degree u = n + 1 ∧ (G y).degree v = 1 ∧ (G y).nodeStrength (w y) u = s ∧
      w y u v = share y j * s)
    {alpha : ℝ} (h0 : 0 ≤ alpha) (h1 : alpha < 1) :
    (nullModel n).real {y | ∃ d x, edgeDisparity (G y) attr false = .ok d ∧ d.get? (u, v) = some x ∧ x ≤ alpha} = alpha := by
  refine Eq.trans (measureReal_congr ?_) (nullModel_level hn j h0 h1.le)
  filter_upwards [share_pos_ae n, ProbabilityTheory.ae_cond_mem (cuts_measurable n)] with y hy hc
  obtain ⟨g1, g2, g3, g4, g5, g6, g7, g8, g9, g10, g11⟩ := hG y hc hy
  obtain ⟨d, e1, -, e2, -⟩ := edgeDisparity_positive ho g1 g2 g3 g4 g5 g6
  have hs : 0 < s := by
    have := g6 u v g7
    rw [g11] at this
    exact (pos_iff_pos_of_mul_pos this).1 (hy j)
  have hval : (G y).disparity (w y) u v = min ((1 - share y j) ^ n) 1 := by
    unfold Graph.disparity
    rw [g8, g9, g10, g11, mul_div_assoc, div_self hs.ne', mul_one]
    simp
  apply propext
  show (∃ d x, edgeDisparity (G y) attr false = .ok d ∧ d.get? (u, v) = some x ∧ x ≤ alpha) ↔ (1 - share y j) ^ n ≤ alpha
  have hle : min ((1 - share y j) ^ n) 1 ≤ alpha ↔ (1 - share y j) ^ n ≤ alpha := by
    rw [min_le_iff]
    exact or_iff_left (not_le.2 h1)
  rw [← hle, ← hval]
  constructor
  · rintro ⟨d', x, k1, k2, k3⟩
    rw [e1] at k1
    cases k1
    rw [((e2 u v x).1 k2).2.2] at k3
    exact k3
  · intro hx
    exact ⟨d, _, e1, (e2 u v _).2 ⟨huv, g7, rfl⟩, hx⟩

end

/-! ### Cases -/

/-- A node with two leaves, the weights of the edges being those of a cut of 10. -/
noncomputable def cutPath (y : Fin 1 → ℝ) : Graph Int (Val ℝ) :=
  ⟨false, false, [], [(0, []), (1, []), (2, [])],
    [⟨0, 1, [(.int 0, [(.str "weight", .num (share y (some 0) * 10))])]⟩,
     ⟨0, 2, [(.int 0, [(.str "weight", .num (share y none * 10))])]⟩]⟩

/-- Its weights. -/
noncomputable def cutPathWeights (y : Fin 1 → ℝ) (u v : Int) : ℝ := if u = 2 ∨ v = 2 then share y none * 10 else share y (some 0) * 10

theorem cutPath_meets (y : Fin 1 → ℝ) (hy : ∀ j, 0 < share y j) :
    (cutPath y).WF ∧ (cutPath y).directed = false ∧ (cutPath y).multi = false ∧
      (∀ a b, cutPathWeights y a b = cutPathWeights y b a) ∧ (cutPath y).Weighted "weight" (cutPathWeights y) ∧
      (∀ a b, (cutPath y).hasEdge a b = true → 0 < cutPathWeights y a b) ∧ (cutPath y).hasEdge 0 1 = true ∧
      (cutPath y).degree 0 = 2 ∧ (cutPath y).degree 1 = 1 ∧ (cutPath y).nodeStrength (cutPathWeights y) 0 = 10 ∧
      cutPathWeights y 0 1 = share y (some 0) * 10 := by
  have he : (cutPath y).edgesData = [(0, 1, [(.str "weight", .num (share y (some 0) * 10))]),
    (0, 2, [(.str "weight", .num (share y none * 10))])] := rfl
  refine ⟨?_, rfl, rfl, ?_, ?_, ?_, rfl, rfl, rfl, ?_, rfl⟩
  · constructor <;> simp [cutPath, Graph.nodes, Dict.keys, samePair]
  · intro a b
    unfold cutPathWeights
    simp only [or_comm]
  · intro e h
    rw [he] at h
    simp only [List.mem_cons, List.not_mem_nil, or_false] at h
    rcases h with rfl | rfl
    · exact ⟨_, rfl, rfl⟩
    · exact ⟨_, rfl, rfl⟩
  · intro a b _
    unfold cutPathWeights
    split
    · exact mul_pos (hy none) (by norm_num)
    · exact mul_pos (hy (some 0)) (by norm_num)
  · have hee : (cutPath y).edges = [(0, 1), (0, 2)] := rfl
    unfold Graph.nodeStrength
    rw [hee]
    have := share_sum y
    rw [Fintype.sum_option, Fin.sum_univ_one] at this
    simp [cutPathWeights]
    linarith

/-- On this graph: with probability 1/20, the first edge is significant at the level 1/20. -/
example : (nullModel 1).real {y | ∃ d x, edgeDisparity (cutPath y) "weight" false = .ok d ∧ d.get? (0, 1) = some x ∧ x ≤ 1 / 20} =
    1 / 20 :=
  edgeDisparity_random_leaf (fun _ _ => rfl) one_ne_zero cutPath cutPathWeights (some 0) (by norm_num)
    (fun y _ hy => cutPath_meets y hy) (by norm_num) (by norm_num)

end Pelote
