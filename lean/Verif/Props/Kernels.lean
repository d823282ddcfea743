import Verif.Lemmas.Kernels
import Verif.Props.ProjectionMeaning
import Verif.Props.ProjectionFloat

/-! C114: the matrix of the weights of a projection is positive semidefinite for every metric but overlap and pmi, and the square
root of 1 minus a normalised similarity is a distance. -/
set_option linter.unusedSectionVars false
namespace Pelote

/-- The quadratic form of the weights of a projection, with `d` on the diagonal. -/
def Graph.kernelForm {V K : Type} [DecidableEq V] [CommRing K] (m : Graph V (Val K)) (d x : V → K) : K :=
  ∑ u ∈ m.nodes.toFinset, ∑ v ∈ m.nodes.toFinset, x u * x v * (if u = v then d u else m.linkWeight u v)

section
variable {V : Type} [LinearOrder V] [PyOrd V] [AttrVal (Val ℝ)] {g : Graph V (Val ℝ)} {part : Part V ℝ}
  {partAttr weightAttr : String} {check : Bool} {w : V → V → ℝ}

/-- How similar a node is to itself: 1 for a normalised similarity. -/
def ownSimilarity (kind : Metric) (g : Graph V (Val ℝ)) (w : V → V → ℝ) (u : V) : ℝ :=
  match kind with
  | .intersection => ((g.nbhd u).card : ℝ)
  | .dotProduct => ∑ t ∈ g.nbhd u, w u t ^ 2
  | _ => 1

theorem similarity_form (w : V → V → ℝ) (kind : Metric) (hk : kind ≠ .overlap) (hp : kind ≠ .pmi) (P : Finset V) (A : V → Finset V) (x : V → ℝ) :
    0 ≤ ∑ u ∈ P, ∑ v ∈ P, x u * x v * similarity kind (A u) (A v) (w u) (w v) := by
  cases kind with
  | overlap => exact absurd rfl hk
  | pmi => exact absurd rfl hp
  | intersection =>
    have := gram_nonneg P A (fun _ _ => 1) x
    simpa [similarity] using this
  | jaccard => simpa only [similarity, rnd_real] using jaccard_nonneg P A x
  | dice => simpa only [similarity, rnd_real] using dice_nonneg P A x
  | binaryCosine =>
    refine le_of_le_of_eq (gram_nonneg P A (fun u _ => (PyMath.sqrt ((A u).card : ℝ))⁻¹) x) ?_
    refine Finset.sum_congr rfl fun u _ => Finset.sum_congr rfl fun v _ => ?_
    simp only [similarity, rnd_real, Finset.sum_const, nsmul_eq_mul, div_eq_mul_inv, mul_inv]
  | dotProduct => exact gram_nonneg P A w x
  | cosine =>
    refine le_of_le_of_eq (gram_nonneg P A (fun u t => w u t * (PyMath.sqrt (∑ t ∈ A u, w u t * w u t))⁻¹) x) ?_
    refine Finset.sum_congr rfl fun u _ => Finset.sum_congr rfl fun v _ => ?_
    simp only [similarity, rnd_real, div_eq_mul_inv, mul_inv, Finset.sum_mul]
    congr 1
    exact Finset.sum_congr rfl fun t _ => by ring

theorem similarity_self_le (kind : Metric) (hk : kind ≠ .overlap) (hp : kind ≠ .pmi) (u : V) :
    similarity kind (g.nbhd u) (g.nbhd u) (w u) (w u) ≤ ownSimilarity kind g w u := by
  cases kind with
  | overlap => exact absurd rfl hk
  | pmi => exact absurd rfl hp
  | intersection => simp [similarity, ownSimilarity]
  | dotProduct => simp [similarity, ownSimilarity, sq]
  | jaccard => simp only [similarity, rnd_real, ownSimilarity, Finset.inter_self, Finset.union_self]; exact div_self_le_one _
  | dice =>
    simp only [similarity, rnd_real, ownSimilarity, Finset.inter_self]
    push_cast
    rw [← two_mul]
    exact div_self_le_one _
  | binaryCosine =>
    simp only [similarity, rnd_real, ownSimilarity, Finset.inter_self]
    change _ / (Real.sqrt _ * Real.sqrt _) ≤ _
    rw [Real.mul_self_sqrt (Nat.cast_nonneg _)]
    exact div_self_le_one _
  | cosine =>
    simp only [similarity, rnd_real, ownSimilarity, Finset.inter_self]
    change _ / (Real.sqrt _ * Real.sqrt _) ≤ _
    rw [Real.mul_self_sqrt (Finset.sum_nonneg fun t _ => mul_self_nonneg _)]
    exact div_self_le_one _

theorem similarity_disjoint (kind : Metric) (hp : kind ≠ .pmi) {A B : Finset V} (h : A ∩ B = ∅) (a b : V → ℝ) :
    similarity kind A B a b = 0 := by
  cases kind <;> first | exact absurd rfl hp | simp [similarity, rnd_real, h]

theorem projection_values {kind : Metric} (hp : kind ≠ .pmi) (h : Projectable g part partAttr weightAttr kind check w)
    {metric : Option String} (hn : (metric, kind) ∈ metricNames) :
    ∃ m, monopartiteProjection g part partAttr weightAttr metric check none = .ok m ∧
      ∀ u ∈ m.nodes, ∀ v ∈ m.nodes, u ≠ v → m.linkWeight u v = similarity kind (g.nbhd u) (g.nbhd v) (w u) (w v) := by
  obtain ⟨m, h1, h2, h3, h4⟩ := projection_linkWeight sqrt_pos_real (fun _ h => h) h hn
  refine ⟨m, h1, fun u hu v hv hne => ?_⟩
  rw [projection_part h.wf h.notFrozen h1] at hu hv
  cases he : m.hasEdge u v with
  | true => exact h4 u v he
  | false =>
    rw [linkWeight_none he, similarity_disjoint kind hp]
    by_contra hc
    rw [(h3 u v).2 ⟨hne, hu, hv, Finset.nonempty_iff_ne_empty.2 hc⟩] at he
    cases he

/-- C114.  Over the real numbers, the weights of a projection without threshold by Jaccard, dice, binary cosine, cosine or dot
product, or without metric, form a positive semidefinite matrix, each node being similar to itself as it should. -/
theorem projection_kernel {kind : Metric} (hk : kind ≠ .overlap) (hp : kind ≠ .pmi)
    (h : Projectable g part partAttr weightAttr kind check w) {metric : Option String} (hn : (metric, kind) ∈ metricNames) :
    ∃ m, monopartiteProjection g part partAttr weightAttr metric check none = .ok m ∧
      ∀ x : V → ℝ, 0 ≤ m.kernelForm (ownSimilarity kind g w) x := by
  obtain ⟨m, h1, h2⟩ := projection_values hp h hn
  refine ⟨m, h1, fun x => le_trans (similarity_form w kind hk hp m.nodes.toFinset g.nbhd x) ?_⟩
  refine Finset.sum_le_sum fun u hu => Finset.sum_le_sum fun v hv => ?_
  split_ifs with e
  · subst e
    exact mul_le_mul_of_nonneg_left (similarity_self_le kind hk hp u) (mul_self_nonneg _)
  · rw [h2 u (List.mem_toFinset.1 hu) v (List.mem_toFinset.1 hv) e]

theorem sqrt_triangle {a b c : ℝ} (h : ∀ p q : ℝ, 0 ≤ p * (p + q) * a + q * (p + q) * b - p * q * c) :
    Real.sqrt c ≤ Real.sqrt a + Real.sqrt b := by
  have ha : 0 ≤ a := by simpa using h 1 0
  have hb : 0 ≤ b := by simpa using h 0 1
  have hlim : ∀ {b c : ℝ}, 0 ≤ b → (∀ p : ℝ, 0 < p → p * c ≤ (p + 1) * b) → c ≤ b := by
    intro b c hb hl
    by_contra hc
    push Not at hc
    have hd : 0 < c - b := sub_pos.2 hc
    have := hl (b / (c - b) + 1) (by positivity)
    have e : (b / (c - b) + 1) * (c - b) = b + (c - b) := by field_simp
    nlinarith
  rcases ha.eq_or_lt with h0 | h0
  · refine (Real.sqrt_le_sqrt (hlim hb fun p _ => ?_)).trans (le_add_of_nonneg_left (Real.sqrt_nonneg _))
    have := h p 1
    rw [← h0] at this
    linarith
  rcases hb.eq_or_lt with h1 | h1
  · refine (Real.sqrt_le_sqrt (hlim ha fun p _ => ?_)).trans (le_add_of_nonneg_right (Real.sqrt_nonneg _))
    have := h 1 p
    rw [← h1] at this
    linarith
  · have h2 := h (Real.sqrt b) (Real.sqrt a)
    have sa := Real.sq_sqrt ha
    have sb := Real.sq_sqrt hb
    have pa := Real.sqrt_pos.2 h0
    have pb := Real.sqrt_pos.2 h1
    generalize Real.sqrt a = s at *
    generalize Real.sqrt b = r at *
    rw [← sa, ← sb] at h2
    refine Real.sqrt_le_iff.2 ⟨by positivity, ?_⟩
    have : 0 ≤ (r * s) * ((s + r) ^ 2 - c) := by nlinarith
    have := nonneg_of_mul_nonneg_right this (by positivity)
    linarith

/-- C114.  The square root of 1 minus the weights by Jaccard, dice, binary cosine or cosine (1 between nodes that are not linked)
satisfies the triangle inequality. -/
theorem projection_sqrt_distance {kind : Metric} (hk : kind ∈ [Metric.jaccard, .dice, .binaryCosine, .cosine])
    (h : Projectable g part partAttr weightAttr kind check w) {metric : Option String} (hn : (metric, kind) ∈ metricNames) :
    ∃ m, monopartiteProjection g part partAttr weightAttr metric check none = .ok m ∧
      ∀ u ∈ m.nodes, ∀ v ∈ m.nodes, ∀ z ∈ m.nodes, u ≠ v → v ≠ z → u ≠ z →
        Real.sqrt (1 - m.linkWeight u z) ≤ Real.sqrt (1 - m.linkWeight u v) + Real.sqrt (1 - m.linkWeight v z) := by
  have hk1 : kind ≠ .overlap := by rintro rfl; simp at hk
  have hk2 : kind ≠ .pmi := by rintro rfl; simp at hk
  obtain ⟨m, h1, h2⟩ := projection_values hk2 h hn
  refine ⟨m, h1, fun u hu v hv z hz n1 n2 n3 => sqrt_triangle fun p q => ?_⟩
  have hform := similarity_form w kind hk1 hk2 {u, v, z} g.nbhd
    (fun n => if n = u then p else if n = v then -(p + q) else q)
  have hs : ∀ A B : V, similarity kind (g.nbhd A) (g.nbhd B) (w A) (w B) = similarity kind (g.nbhd B) (g.nbhd A) (w B) (w A) := by
    intro A B
    cases kind <;> simp [similarity, Finset.inter_comm, Finset.union_comm, mul_comm, min_comm, add_comm]
  have hd : ∀ n, similarity kind (g.nbhd n) (g.nbhd n) (w n) (w n) ≤ 1 := by
    intro n
    have := similarity_self_le (g := g) (w := w) kind hk1 hk2 n
    rcases (by simpa using hk : kind = .jaccard ∨ kind = .dice ∨ kind = .binaryCosine ∨ kind = .cosine) with
      rfl | rfl | rfl | rfl <;> exact this
  have three : ∀ f : V → ℝ, ∑ n ∈ ({u, v, z} : Finset V), f n = f u + (f v + f z) := fun f => by
    rw [Finset.sum_insert (by simp [n1, n3]), Finset.sum_insert (by simp [n2]), Finset.sum_singleton]
  rw [three, three, three, three] at hform
  simp only [if_true, if_neg n1.symm, if_neg n3.symm, if_neg n2.symm] at hform
  rw [hs v u, hs z u, hs z v, ← h2 u hu v hv n1, ← h2 u hu z hz n3, ← h2 v hv z hz n2] at hform
  have d1 := mul_le_mul_of_nonneg_left (hd u) (mul_self_nonneg p)
  have d2 := mul_le_mul_of_nonneg_left (hd v) (mul_self_nonneg (p + q))
  have d3 := mul_le_mul_of_nonneg_left (hd z) (mul_self_nonneg q)
  nlinarith

/-- Non-triviality: the hypotheses hold of `twins`. -/
example : (∃ m, monopartiteProjection twins (.collection [1, 2, 3, 4]) "part" "weight" (some "dice") true none = .ok m ∧
    ∀ x : Int → ℝ, 0 ≤ m.kernelForm (fun _ => 1) x) ∧
    ∃ m, monopartiteProjection twins (.collection [1, 2, 3, 4]) "part" "weight" (some "dice") true none = .ok m ∧
      ∀ u ∈ m.nodes, ∀ v ∈ m.nodes, ∀ z ∈ m.nodes, u ≠ v → v ≠ z → u ≠ z →
        Real.sqrt (1 - m.linkWeight u z) ≤ Real.sqrt (1 - m.linkWeight u v) + Real.sqrt (1 - m.linkWeight v z) :=
  ⟨projection_kernel (by simp) (by simp) (twins_projectable .dice (by simp) true).1 (by simp [metricNames]),
    projection_sqrt_distance (by simp) (twins_projectable .dice (by simp) true).1 (by simp [metricNames])⟩

end

/-- Stand-ins; nothing is rounded. -/
local instance ratMathKernels : PyMath ℚ := ⟨id, id, id⟩

/-- Accounts 1, 2, 3 and pages 10 to 13: account 2 shares them all, account 1 all but the last and account 3 all but the first. -/
def coverSample : Graph Int (Val ℚ) :=
  ⟨false, false, [], [(1, []), (2, []), (3, []), (10, []), (11, []), (12, []), (13, [])],
    [⟨1, 10, [(.int 0, [])]⟩, ⟨1, 11, [(.int 0, [])]⟩, ⟨1, 12, [(.int 0, [])]⟩, ⟨2, 10, [(.int 0, [])]⟩, ⟨2, 11, [(.int 0, [])]⟩,
     ⟨2, 12, [(.int 0, [])]⟩, ⟨2, 13, [(.int 0, [])]⟩, ⟨3, 11, [(.int 0, [])]⟩, ⟨3, 12, [(.int 0, [])]⟩, ⟨3, 13, [(.int 0, [])]⟩]⟩

/-- C114.  By overlap, or by Jaccard with a threshold, the matrix is not positive semidefinite. -/
theorem projection_not_kernel : chainSample.WF ∧ coverSample.WF ∧
    (monopartiteProjection chainSample (.collection [1, 2, 3]) "part" "weight" (some "overlap") true none).map
      (fun m => m.kernelForm (fun _ => 1) (fun n => if n = 2 then -1 else 1)) = .ok (-1) ∧
    (monopartiteProjection coverSample (.collection [1, 2, 3]) "part" "weight" (some "jaccard") true none).map
      (fun m => m.kernelForm (fun _ => 1) (fun n => if n = 2 then -7 else 5)) = .ok 19 ∧
    (monopartiteProjection coverSample (.collection [1, 2, 3]) "part" "weight" (some "jaccard") true (some (.num (3 / 5)))).map
      (fun m => m.kernelForm (fun _ => 1) (fun n => if n = 2 then -7 else 5)) = .ok (-6) := by
  refine ⟨by constructor <;> decide +kernel, by constructor <;> decide +kernel, by decide +kernel, by decide +kernel,
    by decide +kernel⟩

end Pelote
