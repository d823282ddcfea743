import Verif.Spec.NullModel
import Mathlib.Analysis.SpecialFunctions.Pow.NNReal
import Mathlib.MeasureTheory.Measure.Prod
import Mathlib.MeasureTheory.Measure.Real

/-! The distribution of the shares of a cut. -/
namespace Pelote
open MeasureTheory

theorem cuts_measurable (n : Nat) : MeasurableSet (cuts n) := by
  have h1 : MeasurableSet {y : Fin n → ℝ | ∀ i, 0 ≤ y i} := by
    rw [Set.setOf_forall]
    exact MeasurableSet.iInter fun i => measurableSet_le measurable_const (measurable_pi_apply i)
  have h2 : MeasurableSet {y : Fin n → ℝ | ∑ i, y i ≤ 1} :=
    measurableSet_le (Finset.measurable_sum _ fun i _ => measurable_pi_apply i) measurable_const
  exact h1.inter h2

theorem share_measurable {n : Nat} (j : Option (Fin n)) : Measurable (fun y : Fin n → ℝ => share y j) := by
  cases j with
  | none => exact measurable_const.sub (Finset.measurable_sum _ fun i _ => measurable_pi_apply i)
  | some i => exact measurable_pi_apply i

theorem cuts_le_one {n : Nat} {y : Fin n → ℝ} (hy : y ∈ cuts n) (i : Fin n) : y i ≤ 1 :=
  (Finset.single_le_sum (fun k _ => hy.1 k) (Finset.mem_univ i)).trans hy.2

theorem share_range {n : Nat} {y : Fin n → ℝ} (hy : y ∈ cuts n) (j : Option (Fin n)) : 0 ≤ share y j ∧ share y j ≤ 1 := by
  cases j with
  | none =>
    have := Finset.sum_nonneg fun i (_ : i ∈ Finset.univ) => hy.1 i
    have := hy.2
    simp only [share]
    constructor <;> linarith
  | some i => exact ⟨hy.1 i, cuts_le_one hy i⟩

/-- All the shares together. -/
theorem share_sum {n : Nat} (y : Fin n → ℝ) : ∑ j, share y j = 1 := by
  rw [Fintype.sum_option]
  simp [share]

theorem cuts_volume_ne_top (n : Nat) : volume (cuts n) ≠ ⊤ := by
  have : cuts n ⊆ Set.Icc 0 1 := by
    intro y hy
    exact ⟨fun i => hy.1 i, fun i => cuts_le_one hy i⟩
  refine ne_top_of_le_ne_top ?_ (measure_mono this)
  rw [Real.volume_Icc_pi]
  exact ENNReal.prod_ne_top fun i _ => ENNReal.ofReal_ne_top

theorem cuts_volume_ne_zero (n : Nat) : volume (cuts n) ≠ 0 := by
  have hsub : Set.Icc (0 : Fin n → ℝ) (fun _ => 1 / (n + 1 : ℝ)) ⊆ cuts n := by
    intro y hy
    refine ⟨fun i => hy.1 i, ?_⟩
    calc ∑ i, y i ≤ ∑ _i : Fin n, 1 / (n + 1 : ℝ) := Finset.sum_le_sum fun i _ => hy.2 i
      _ = n / (n + 1 : ℝ) := by simp [div_eq_mul_inv]
      _ ≤ 1 := by rw [div_le_one (by positivity)]; linarith
  intro h0
  have h1 := measure_mono_null hsub h0
  rw [Real.volume_Icc_pi, Finset.prod_eq_zero_iff] at h1
  obtain ⟨i, _, hi⟩ := h1
  rw [ENNReal.ofReal_eq_zero] at hi
  have : (0 : ℝ) < 1 / (n + 1 : ℝ) := by positivity
  simp only [Pi.zero_apply, sub_zero] at hi
  linarith

instance nullModel_prob (n : Nat) : IsProbabilityMeasure (nullModel n) :=
  ProbabilityTheory.cond_isProbabilityMeasure_of_finite (cuts_volume_ne_zero n) (cuts_volume_ne_top n)

/-- The cut where everything goes to one share. -/
noncomputable def corner {n : Nat} : Option (Fin n) → Fin n → ℝ
  | none => 0
  | some i => Pi.single i 1

theorem corner_cuts {n : Nat} (j : Option (Fin n)) : corner j ∈ cuts n := by
  cases j with
  | none => exact ⟨fun i => le_refl _, by simp [corner]⟩
  | some i =>
    refine ⟨fun k => ?_, by simp [corner]⟩
    simp only [corner, Pi.single_apply]
    split <;> norm_num

theorem share_corner {n : Nat} (j : Option (Fin n)) : share (corner j) j = 1 := by
  cases j <;> simp [share, corner]

/-- The cuts where a share is at least `p` are all the cuts, shrunk towards the one where everything goes to that share. -/
theorem cuts_inter_share {n : Nat} (j : Option (Fin n)) {p : ℝ} (h0 : 0 ≤ p) (h1 : p ≤ 1) :
    cuts n ∩ {y | p ≤ share y j} = AffineMap.homothety (corner j) (1 - p) '' cuts n := by
  have hap : ∀ y : Fin n → ℝ, AffineMap.homothety (corner j) (1 - p) y = (1 - p) • y + p • corner j := by
    intro y
    rw [AffineMap.homothety_apply]
    simp only [vsub_eq_sub, vadd_eq_add, smul_sub, sub_smul, one_smul]
    abel
  have hc := corner_cuts j
  ext z
  simp only [Set.mem_inter_iff, Set.mem_image, hap]
  constructor
  · rintro ⟨hz, hp⟩
    simp only [Set.mem_setOf_eq] at hp
    rcases h1.eq_or_lt with rfl | hlt
    · refine ⟨corner j, hc, ?_⟩
      simp only [sub_self, zero_smul, zero_add, one_smul]
      cases j with
      | none =>
        simp only [share] at hp
        have hs : ∑ i, z i = 0 := le_antisymm (by linarith) (Finset.sum_nonneg fun i _ => hz.1 i)
        funext k
        exact ((Finset.sum_eq_zero_iff_of_nonneg fun i _ => hz.1 i).1 hs k (Finset.mem_univ k)).symm
      | some i =>
        simp only [share] at hp
        have hi : z i = 1 := le_antisymm (cuts_le_one hz i) hp
        funext k
        simp only [corner, Pi.single_apply]
        split
        · rename_i hk; rw [hk, hi]
        · rename_i hk
          have := Finset.add_le_sum (fun k _ => hz.1 k) (Finset.mem_univ i) (Finset.mem_univ k) (Ne.symm hk)
          have h2 := hz.2
          have h3 := hz.1 k
          linarith
    · have hq : (0 : ℝ) < 1 - p := by linarith
      refine ⟨(1 - p)⁻¹ • (z - p • corner j), ⟨?_, ?_⟩, ?_⟩
      · intro k
        simp only [Pi.smul_apply, Pi.sub_apply, smul_eq_mul]
        refine mul_nonneg (inv_nonneg.2 hq.le) ?_
        cases j with
        | none => simpa [corner] using hz.1 k
        | some i =>
          simp only [corner, Pi.single_apply]
          split
          · rename_i hk
            simp only [share] at hp
            rw [hk]; linarith
          · simpa using hz.1 k
      · simp only [Pi.smul_apply, Pi.sub_apply, smul_eq_mul]
        rw [← Finset.mul_sum, Finset.sum_sub_distrib, ← Finset.mul_sum, inv_mul_le_iff₀ hq]
        cases j with
        | none => simp only [share] at hp; simp only [corner, Pi.zero_apply, Finset.sum_const_zero]; linarith
        | some i =>
          have h2 := hz.2
          simp only [corner, Finset.sum_pi_single', Finset.mem_univ, if_true]
          linarith
      · rw [smul_smul, mul_inv_cancel₀ hq.ne', one_smul, sub_add_cancel]
  · rintro ⟨y, hy, rfl⟩
    have hq : (0 : ℝ) ≤ 1 - p := by linarith
    refine ⟨⟨fun k => ?_, ?_⟩, ?_⟩
    · exact add_nonneg (mul_nonneg hq (hy.1 k)) (mul_nonneg h0 (hc.1 k))
    · simp only [Pi.add_apply, Pi.smul_apply, smul_eq_mul]
      rw [Finset.sum_add_distrib, ← Finset.mul_sum, ← Finset.mul_sum]
      nlinarith [mul_le_mul_of_nonneg_left hy.2 hq, mul_le_mul_of_nonneg_left hc.2 h0]
    · have hshare : share ((1 - p) • y + p • corner j) j = (1 - p) * share y j + p * share (corner j) j := by
        cases j with
        | none =>
          simp only [share, Pi.add_apply, Pi.smul_apply, smul_eq_mul]
          rw [Finset.sum_add_distrib, ← Finset.mul_sum, ← Finset.mul_sum]
          ring
        | some i => simp [share]
      show p ≤ _
      rw [hshare, share_corner, mul_one]
      have := mul_nonneg hq (share_range hy j).1
      linarith

theorem nullModel_apply {n : Nat} (t : Set (Fin n → ℝ)) :
    (nullModel n).real t = (volume (cuts n)).toReal⁻¹ * (volume (cuts n ∩ t)).toReal := by
  unfold nullModel Measure.real
  rw [ProbabilityTheory.cond_apply (cuts_measurable n), ENNReal.toReal_mul, ENNReal.toReal_inv]

theorem nullModel_congr {n : Nat} {t t' : Set (Fin n → ℝ)} (h : ∀ y ∈ cuts n, y ∈ t ↔ y ∈ t') :
    (nullModel n).real t = (nullModel n).real t' := by
  rw [nullModel_apply, nullModel_apply]
  congr 3
  ext y
  simp only [Set.mem_inter_iff]
  exact and_congr_right (h y)

/-- A share is at least `p` with probability `(1 - p) ^ n`. -/
theorem nullModel_share {n : Nat} (j : Option (Fin n)) {p : ℝ} (h0 : 0 ≤ p) (h1 : p ≤ 1) :
    (nullModel n).real {y | p ≤ share y j} = (1 - p) ^ n := by
  have hq : (0 : ℝ) ≤ 1 - p := by linarith
  rw [nullModel_apply, cuts_inter_share j h0 h1, Measure.addHaar_image_homothety, Module.finrank_fin_fun,
    abs_of_nonneg (pow_nonneg hq n), ENNReal.toReal_mul, ENNReal.toReal_ofReal (pow_nonneg hq n)]
  have : (volume (cuts n)).toReal ≠ 0 := ENNReal.toReal_ne_zero.2 ⟨cuts_volume_ne_zero n, cuts_volume_ne_top n⟩
  field_simp

/-- The score of a share is at most `alpha` with probability `alpha`. -/
theorem nullModel_level {n : Nat} (hn : n ≠ 0) (j : Option (Fin n)) {alpha : ℝ} (h0 : 0 ≤ alpha) (h1 : alpha ≤ 1) :
    (nullModel n).real {y | (1 - share y j) ^ n ≤ alpha} = alpha := by
  obtain ⟨b, hb0, hb1, rfl⟩ : ∃ b : ℝ, 0 ≤ b ∧ b ≤ 1 ∧ b ^ n = alpha :=
    ⟨alpha ^ ((n : ℝ)⁻¹), Real.rpow_nonneg h0 _, Real.rpow_le_one h0 h1 (by positivity), Real.rpow_inv_natCast_pow h0 hn⟩
  have : (nullModel n).real {y | (1 - share y j) ^ n ≤ b ^ n} = (nullModel n).real {y | 1 - b ≤ share y j} := by
    refine nullModel_congr fun y hy => ?_
    have := share_range hy j
    simp only [Set.mem_setOf_eq]
    rw [pow_le_pow_iff_left₀ (by linarith) hb0 hn]
    constructor <;> intro h <;> linarith
  rw [this, nullModel_share j (by linarith) (by linarith)]
  ring

theorem score_measurable {n : Nat} (j : Option (Fin n)) (alpha : ℝ) :
    MeasurableSet {y : Fin n → ℝ | (1 - share y j) ^ n ≤ alpha} :=
  measurableSet_le ((measurable_const.sub (share_measurable j)).pow_const n) measurable_const

/-- The least of the scores of two shares drawn independently is at most `alpha` with probability `1 - (1 - alpha) ^ 2`. -/
theorem nullModel_level_both {n m : Nat} (hn : n ≠ 0) (hm : m ≠ 0) (j : Option (Fin n)) (k : Option (Fin m)) {alpha : ℝ}
    (h0 : 0 ≤ alpha) (h1 : alpha ≤ 1) :
    ((nullModel n).prod (nullModel m)).real {y | min ((1 - share y.1 j) ^ n) ((1 - share y.2 k) ^ m) ≤ alpha} =
      1 - (1 - alpha) ^ 2 := by
  have hset : {y : (Fin n → ℝ) × (Fin m → ℝ) | min ((1 - share y.1 j) ^ n) ((1 - share y.2 k) ^ m) ≤ alpha} =
      ({y | (1 - share y j) ^ n ≤ alpha}ᶜ ×ˢ {y | (1 - share y k) ^ m ≤ alpha}ᶜ)ᶜ := by
    ext y
    simp only [Set.mem_setOf_eq, Set.mem_compl_iff, Set.mem_prod, min_le_iff]
    tauto
  have m1 := score_measurable (n := n) j alpha
  have m2 := score_measurable (n := m) k alpha
  have hprod : ∀ (a : Set (Fin n → ℝ)) (b : Set (Fin m → ℝ)), ((nullModel n).prod (nullModel m)).real (a ×ˢ b) =
      (nullModel n).real a * (nullModel m).real b := by
    intro a b
    unfold Measure.real
    rw [Measure.prod_prod, ENNReal.toReal_mul]
  rw [hset, probReal_compl_eq_one_sub (m1.compl.prod m2.compl), hprod, probReal_compl_eq_one_sub m1,
    probReal_compl_eq_one_sub m2, nullModel_level hn j h0 h1, nullModel_level hm k h0 h1]
  ring

/-- No share is 0, almost surely. -/
theorem share_pos_ae (n : Nat) : ∀ᵐ y ∂nullModel n, ∀ j, 0 < share y j := by
  rw [ae_all_iff]
  intro j
  have hm : MeasurableSet {y : Fin n → ℝ | 0 < share y j} := measurableSet_lt measurable_const (share_measurable j)
  have h1 : (1 : ℝ) ≤ (nullModel n).real {y | 0 < share y j} := by
    have ht : Filter.Tendsto (fun p : ℝ => (1 - p) ^ n) (nhdsWithin 0 (Set.Ioi 0)) (nhds 1) := by
      have : Continuous (fun p : ℝ => (1 - p) ^ n) := by fun_prop
      have h2 := this.tendsto 0
      simp only [sub_zero, one_pow] at h2
      exact h2.mono_left nhdsWithin_le_nhds
    refine le_of_tendsto ht ?_
    filter_upwards [Ioo_mem_nhdsGT (zero_lt_one (α := ℝ))] with p hp
    rw [← nullModel_share j hp.1.le hp.2.le]
    refine measureReal_mono ?_
    intro y hy
    exact hp.1.trans_le hy
  have h2 : (nullModel n).real {y | 0 < share y j} = 1 := le_antisymm measureReal_le_one h1
  have h3 : (nullModel n) {y | 0 < share y j} = 1 := by
    rw [measureReal_def] at h2
    rwa [ENNReal.toReal_eq_one_iff] at h2
  exact (prob_compl_eq_zero_iff hm).2 h3

end Pelote
