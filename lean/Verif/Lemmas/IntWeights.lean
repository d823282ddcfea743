import Verif.Model.IntWeights
import Verif.Spec.IntWeights
import Verif.Lemmas.Near
import Verif.Lemmas.ProjectionX64
import Mathlib.Algebra.Order.BigOperators.Ring.Finset

/-! Integers as floats, and the cosine computed from exact sums. -/
set_option linter.unusedSectionVars false
namespace Pelote
open XNum

section
variable {K : Type} [Field K] [LinearOrder K] [IsStrictOrderedRing K] [FloorRing K]

/-- Numbers that are nearer to the last float before a power of 2 than to this power. -/
theorem round64_le_last {e : ℤ} (he : -1074 ≤ e) {x : K} (hx : 0 ≤ x) (h : x < (2 ^ 53 - 1 / 2) * 2 ^ e) :
    round64 x ≤ (2 ^ 53 - 1) * 2 ^ e := by
  have hp := two_zpow_pos (K := K) e
  have hf : IsFloat64 (((2 : K) ^ 53 - 1) * 2 ^ e) := ⟨2 ^ 53 - 1, e, by norm_num, he, by norm_num⟩
  rcases le_or_gt x ((2 ^ 53 - 1) * 2 ^ e) with hle | hlt
  · have := round64_mono hx hle
    rwa [round64_fix hf] at this
  · have e53 : (2 : K) ^ (e + 53) = 2 ^ 53 * 2 ^ e := by rw [zpow_add₀ two_ne_zero, mul_comm]; norm_cast
    have e52 : (2 : K) ^ (e + 52) = 2 ^ 52 * 2 ^ e := by rw [zpow_add₀ two_ne_zero, mul_comm]; norm_cast
    refine le_of_eq ?_
    have := round64_eq (x := x) (m := 2 ^ 53 - 1) he (by rw [e52]; nlinarith) (by rw [e53]; nlinarith) (by
      push_cast
      rw [abs_of_pos (by linarith)]
      nlinarith)
    rw [this]
    norm_num

/-- The middle of the last float before a power of 2 and of this power. -/
theorem round64_middle {e : ℤ} (he : -1074 ≤ e) : round64 (((2 : K) ^ 53 - 1 / 2) * 2 ^ e) = 2 ^ 53 * 2 ^ e := by
  have hp := two_zpow_pos (K := K) e
  have e53 : (2 : K) ^ (e + 53) = 2 ^ 53 * 2 ^ e := by rw [zpow_add₀ two_ne_zero, mul_comm]; norm_cast
  have e52 : (2 : K) ^ (e + 52) = 2 ^ 52 * 2 ^ e := by rw [zpow_add₀ two_ne_zero, mul_comm]; norm_cast
  set x : K := ((2 : K) ^ 53 - 1 / 2) * 2 ^ e with hxdef
  have h1 : (2 : K) ^ (e + 52) ≤ x := by rw [e52, hxdef]; nlinarith
  have h2 : x < (2 : K) ^ (e + 53) := by rw [e53, hxdef]; nlinarith
  have hpos : 0 < x := (two_zpow_pos _).trans_le h1
  have hu : ulpExp x = e := by
    have l1 : e + 52 ≤ Int.log 2 x := (Int.zpow_le_iff_le_log (b := 2) (by norm_num) hpos).1 (by exact_mod_cast h1)
    have l2 : Int.log 2 x < e + 53 := (Int.lt_zpow_iff_log_lt (b := 2) (by norm_num) hpos).1 (by exact_mod_cast h2)
    unfold ulpExp
    rw [abs_of_pos hpos]
    omega
  unfold round64
  rw [hu, hxdef, mul_div_cancel_right₀ _ hp.ne']
  have hfl : ⌊((2 : K) ^ 53 - 1 / 2)⌋ = 2 ^ 53 - 1 := by
    rw [Int.floor_eq_iff]
    push_cast
    constructor <;> linarith
  have : halfEven ((2 : K) ^ 53 - 1 / 2) = 2 ^ 53 := by
    unfold halfEven
    rw [hfl]
    rw [if_neg (by norm_num), if_neg (by norm_num), if_neg (by norm_num)]
    norm_num
  rw [this]
  norm_num

theorem top_eq : (2 : K) ^ 1024 = 2 ^ 53 * 2 ^ (971 : ℤ) := by
  rw [show (971 : ℤ) = ((971 : ℕ) : ℤ) from rfl, zpow_natCast, ← pow_add]

theorem tooLarge_eq : ((tooLarge : ℤ) : K) = (2 ^ 53 - 1 / 2) * 2 ^ (971 : ℤ) := by
  unfold tooLarge
  push_cast
  rw [show (971 : ℤ) = ((970 : ℕ) : ℤ) + 1 from rfl, zpow_add₀ two_ne_zero, zpow_natCast, zpow_one,
    show (1024 : ℕ) = 54 + 970 from rfl, pow_add]
  ring

/-- Which nonnegative numbers can be converted to floats. -/
theorem round64_lt_top {x : K} (hx : 0 ≤ x) : round64 x < 2 ^ 1024 ↔ x < (tooLarge : ℤ) := by
  rw [tooLarge_eq, top_eq]
  have hp := two_zpow_pos (K := K) 971
  constructor
  · intro h
    by_contra hn
    have h1 := round64_mono (x := ((2 : K) ^ 53 - 1 / 2) * 2 ^ (971 : ℤ)) (by
      have : (0 : K) ≤ 2 ^ 53 - 1 / 2 := by norm_num
      positivity) (not_lt.1 hn)
    rw [round64_middle (by norm_num)] at h1
    exact absurd h (not_lt.2 h1)
  · intro h
    refine (round64_le_last (by norm_num) hx h).trans_lt ?_
    exact mul_lt_mul_of_pos_right (by norm_num) hp

theorem abs_round64_eq (x : K) : |round64 x| = round64 |x| := by
  rcases le_total 0 x with h | h
  · rw [abs_of_nonneg h, abs_of_nonneg (round64_nonneg h)]
  · have := round64_nonneg (neg_nonneg.2 h)
    rw [abs_of_nonpos h, round64_neg] at *
    rw [abs_of_nonpos (by linarith)]

theorem ofInt_fin (a : K) : ofInt (.fin a) = if |a| < (tooLarge : ℤ) then .ok (.fin (round64 a)) else .error .overflowError := by
  unfold ofInt
  simp only [abs_round64_eq, round64_lt_top (abs_nonneg a)]

end

/-! ### The cosine -/

theorem sqrt_top_lt {x : ℝ} (h0 : 0 ≤ x) (h : x < 2 ^ 1024) (hf : IsFloat64 x) : Real.sqrt x < (2 ^ 53 - 1 / 2) * 2 ^ (459 : ℤ) := by
  have hx : x ≤ (2 ^ 53 - 1) * 2 ^ (971 : ℤ) := by
    by_contra hn
    have h1 : x < (tooLarge : ℤ) := by
      rw [← round64_lt_top h0, round64_fix hf]; exact h
    rw [tooLarge_eq] at h1
    have h2 := round64_le_last (by norm_num) h0 h1
    rw [round64_fix hf] at h2
    exact hn h2
  have e971 : (2 : ℝ) ^ (971 : ℤ) = 2 ^ 53 * 2 ^ (918 : ℤ) := by
    rw [show (971 : ℤ) = ((53 : ℕ) : ℤ) + 918 from rfl, zpow_add₀ two_ne_zero, zpow_natCast]
  have e918 : (2 : ℝ) ^ (918 : ℤ) = 2 ^ (459 : ℤ) * 2 ^ (459 : ℤ) := by rw [← zpow_add₀ two_ne_zero]; norm_num
  have hp := two_zpow_pos (K := ℝ) 459
  rw [e971, e918] at hx
  generalize (2 : ℝ) ^ (459 : ℤ) = q at hx hp ⊢
  rw [Real.sqrt_lt' (mul_pos (by norm_num) hp)]
  nlinarith [mul_pos hp hp]

/-- The norm computed from the exact sum of the squares. -/
noncomputable def intRoot (N : ℝ) : ℝ := round64 (Real.sqrt (round64 N))

theorem intRoot_near {N : ℝ} (h1 : 1 ≤ N) (ht : N < (tooLarge : ℤ)) :
    Near 2 (intRoot N) (Real.sqrt N) ∧ 1 ≤ intRoot N ∧ intRoot N ≤ (2 ^ 53 - 1) * 2 ^ (459 : ℤ) := by
  have hsmall : (2 : ℝ) ^ (-1022 : ℤ) ≤ 1 := zpow_le_one_of_nonpos₀ one_le_two (by norm_num)
  have r1 : 1 ≤ round64 N := by
    have := round64_mono zero_le_one h1
    rwa [round64_one] at this
  have hs1 : 1 ≤ Real.sqrt (round64 N) := by rw [Real.one_le_sqrt]; exact r1
  have n1 : Near (2 * 1) (round64 N) N := (near_round64 (hsmall.trans h1)).mono (by norm_num)
  refine ⟨(near_round64 (hsmall.trans hs1)).trans n1.sqrt, ?_, ?_⟩
  · have := round64_mono zero_le_one hs1
    rwa [round64_one] at this
  · have h0 : (0 : ℝ) ≤ N := zero_le_one.trans h1
    exact round64_le_last (by norm_num) (Real.sqrt_nonneg _)
      (sqrt_top_lt (round64_nonneg h0) ((round64_lt_top h0).2 ht) (round64_isFloat _))

/-- The product of two norms does not overflow. -/
theorem intRoot_mul {N M : ℝ} (hN : 1 ≤ N) (hM : 1 ≤ M) (hNt : N < (tooLarge : ℤ)) (hMt : M < (tooLarge : ℤ)) :
    intRoot N * intRoot M < (tooLarge : ℤ) := by
  obtain ⟨-, a1, a2⟩ := intRoot_near hN hNt
  obtain ⟨-, b1, b2⟩ := intRoot_near hM hMt
  have e971 : (2 : ℝ) ^ (971 : ℤ) = 2 ^ 53 * 2 ^ (918 : ℤ) := by
    rw [show (971 : ℤ) = ((53 : ℕ) : ℤ) + 918 from rfl, zpow_add₀ two_ne_zero, zpow_natCast]
  have e918 : (2 : ℝ) ^ (918 : ℤ) = 2 ^ (459 : ℤ) * 2 ^ (459 : ℤ) := by rw [← zpow_add₀ two_ne_zero]; norm_num
  have hp := two_zpow_pos (K := ℝ) 459
  have h1 : intRoot N * intRoot M ≤ ((2 ^ 53 - 1) * 2 ^ (459 : ℤ)) * ((2 ^ 53 - 1) * 2 ^ (459 : ℤ)) :=
    mul_le_mul a2 b2 (zero_le_one.trans b1) (zero_le_one.trans (a1.trans a2))
  rw [tooLarge_eq, e971, e918]
  refine h1.trans_lt ?_
  generalize (2 : ℝ) ^ (459 : ℤ) = q at hp ⊢
  nlinarith [mul_pos hp hp]

/-- The cosine computed from exact sums. -/
noncomputable def intCosine (p N M : ℝ) : ℝ := round64 (round64 p / round64 (intRoot N * intRoot M))

theorem round64_abs_error {x : ℝ} (hx : 0 ≤ x) : |round64 x - x| ≤ x / 2 ^ 53 + 2 ^ (-1075 : ℤ) := by
  rcases le_or_gt ((2 : ℝ) ^ (-1022 : ℤ)) x with h | h
  · exact (round64_rel h).trans (le_add_of_nonneg_right (two_zpow_pos _).le)
  · rcases hx.eq_or_lt with rfl | hpos
    · rw [round64_zero, sub_zero, abs_zero, zero_div, zero_add]
      exact (two_zpow_pos _).le
    refine (abs_round64_sub x).trans ?_
    have hu : ulpExp x = -1074 := by
      by_contra hne
      have h1 := ulp_le hpos (lt_of_le_of_ne (ulpExp_ge x) (Ne.symm hne))
      have h2 : (2 : ℝ) ^ (-1022 : ℤ) ≤ 2 ^ (ulpExp x + 52) :=
        zpow_le_zpow_right₀ one_le_two (by have := ulpExp_ge x; omega)
      exact absurd (h2.trans h1) (not_le.2 h)
    rw [hu]
    have : (2 : ℝ) ^ (-1074 : ℤ) / 2 = 2 ^ (-1075 : ℤ) := by
      rw [show (-1074 : ℤ) = -1075 + 1 by norm_num, zpow_add₀ two_ne_zero, zpow_one, mul_div_cancel_right₀ _ two_ne_zero]
    rw [this]
    exact le_add_of_nonneg_left (by positivity)

theorem intCosine_pos {p N M : ℝ} (hp : 1 ≤ p) (hN : 1 ≤ N) (hM : 1 ≤ M) (hNt : N < (tooLarge : ℤ)) (hMt : M < (tooLarge : ℤ))
    (hcs : p ≤ Real.sqrt N * Real.sqrt M) :
    0 < round64 (intRoot N * intRoot M) ∧ |round64 p / round64 (intRoot N * intRoot M)| ≤ 2 ∧ 0 < intCosine p N M ∧
      |intCosine p N M - p / (Real.sqrt N * Real.sqrt M)| ≤ 7 / 2 ^ 52 * (p / (Real.sqrt N * Real.sqrt M)) + 2 ^ (-1075 : ℤ) := by
  obtain ⟨a0, a1, a2⟩ := intRoot_near hN hNt
  obtain ⟨b0, b1, b2⟩ := intRoot_near hM hMt
  have hsmall : (2 : ℝ) ^ (-1022 : ℤ) ≤ 1 := zpow_le_one_of_nonpos₀ one_le_two (by norm_num)
  have hab : 1 ≤ intRoot N * intRoot M := one_le_mul_of_one_le_of_one_le a1 b1
  have hd1 : 1 ≤ round64 (intRoot N * intRoot M) := by
    have := round64_mono zero_le_one hab
    rwa [round64_one] at this
  have hd0 : 0 < round64 (intRoot N * intRoot M) := zero_lt_one.trans_le hd1
  have hsN : 1 ≤ Real.sqrt N := by rw [Real.one_le_sqrt]; exact hN
  have hsM : 1 ≤ Real.sqrt M := by rw [Real.one_le_sqrt]; exact hM
  have hD : 0 < Real.sqrt N * Real.sqrt M := by positivity
  have n1 : Near 5 (round64 (intRoot N * intRoot M)) (Real.sqrt N * Real.sqrt M) :=
    ((near_round64 (hsmall.trans hab)).trans (a0.mul b0)).mono (by norm_num)
  have n2 : Near 6 (round64 p / round64 (intRoot N * intRoot M)) (p / (Real.sqrt N * Real.sqrt M)) :=
    ((near_round64 (hsmall.trans hp)).div n1 hd0 hD).mono (by norm_num)
  have hc1 : p / (Real.sqrt N * Real.sqrt M) ≤ 1 := (div_le_one hD).2 hcs
  have hc0 : 0 < p / (Real.sqrt N * Real.sqrt M) := div_pos (by linarith) hD
  set c := p / (Real.sqrt N * Real.sqrt M) with hc
  set q := round64 p / round64 (intRoot N * intRoot M) with hq
  have h6 := n2.abs_sub (by norm_num)
  push_cast at h6
  have hq0 : 0 ≤ q := n2.1
  have h6' := abs_le.1 h6
  have hq2 : q ≤ 2 := by
    have : (6 : ℝ) / 2 ^ 52 * c ≤ 1 := by
      have : (6 : ℝ) / 2 ^ 52 ≤ 1 := by norm_num
      nlinarith
    linarith [h6'.2]
  have herr := round64_abs_error hq0
  refine ⟨hd0, by rw [abs_of_nonneg hq0]; exact hq2, ?_, ?_⟩
  · -- the quotient is at least the least float
    have r1 : 1 ≤ round64 p := by
      have := round64_mono zero_le_one hp
      rwa [round64_one] at this
    have hdt : round64 (intRoot N * intRoot M) < 2 ^ 1024 :=
      (round64_lt_top (by linarith)).2 (intRoot_mul hN hM hNt hMt)
    have hlow : (2 : ℝ) ^ (-1074 : ℤ) ≤ q := by
      rw [hq, le_div_iff₀ hd0]
      refine le_trans ?_ r1
      calc (2 : ℝ) ^ (-1074 : ℤ) * _ ≤ 2 ^ (-1074 : ℤ) * 2 ^ 1024 := mul_le_mul_of_nonneg_left hdt.le (two_zpow_pos _).le
        _ = 2 ^ (-50 : ℤ) := by
            rw [show (2 : ℝ) ^ 1024 = 2 ^ (1024 : ℤ) from (zpow_natCast 2 1024).symm, ← zpow_add₀ two_ne_zero]; norm_num
        _ ≤ 1 := zpow_le_one_of_nonpos₀ one_le_two (by norm_num)
    have := round64_mono (two_zpow_pos _).le hlow
    rw [round64_float (two_zpow_pos _).le ⟨1, -1074, by norm_num, by norm_num, by simp⟩] at this
    exact (two_zpow_pos _).trans_le this
  · have hqc : q / 2 ^ 53 ≤ 1 / 2 ^ 52 * c := by
      have : q ≤ 2 * c := by
        have : (6 : ℝ) / 2 ^ 52 * c ≤ c := by
          have : (6 : ℝ) / 2 ^ 52 ≤ 1 := by norm_num
          nlinarith
        linarith [h6'.2]
      rw [div_le_iff₀ (by positivity)]
      have e : (1 : ℝ) / 2 ^ 52 * c * 2 ^ 53 = 2 * c := by ring
      rw [e]; exact this
    have h7 : intCosine p N M - c = (round64 q - q) + (q - c) := by unfold intCosine; ring
    rw [h7]
    refine (abs_add_le _ _).trans ?_
    have e : (7 : ℝ) / 2 ^ 52 * c = 1 / 2 ^ 52 * c + 6 / 2 ^ 52 * c := by ring
    rw [e]
    linarith

theorem intCosine_neg (p N M : ℝ) : intCosine (-p) N M = -intCosine p N M := by
  unfold intCosine
  rw [round64_neg, neg_div, round64_neg]

/-- The cosine computed from the exact sum `p` of the products and the exact sums `N` and `M` of the squares. -/
theorem intCosine_spec {p N M : ℤ} (hN : 1 ≤ N) (hM : 1 ≤ M) (hNt : N < tooLarge) (hMt : M < tooLarge)
    (hcs : |(p : ℝ)| ≤ Real.sqrt N * Real.sqrt M) :
    0 < round64 (intRoot N * intRoot M) ∧ |round64 (p : ℝ) / round64 (intRoot N * intRoot M)| ≤ 2 ∧
      (0 < intCosine p N M ↔ 0 < p) ∧ (intCosine p N M < 0 ↔ p < 0) ∧
      |intCosine p N M - p / (Real.sqrt N * Real.sqrt M)| ≤
        7 / 2 ^ 52 * |(p : ℝ) / (Real.sqrt N * Real.sqrt M)| + 2 ^ (-1075 : ℤ) := by
  have hN' : (1 : ℝ) ≤ N := by exact_mod_cast hN
  have hM' : (1 : ℝ) ≤ M := by exact_mod_cast hM
  have hNt' : (N : ℝ) < (tooLarge : ℤ) := by exact_mod_cast hNt
  have hMt' : (M : ℝ) < (tooLarge : ℤ) := by exact_mod_cast hMt
  have hsN : 1 ≤ Real.sqrt N := by rw [Real.one_le_sqrt]; exact hN'
  have hsM : 1 ≤ Real.sqrt M := by rw [Real.one_le_sqrt]; exact hM'
  have hD : 0 < Real.sqrt N * Real.sqrt M := by positivity
  rcases lt_trichotomy p 0 with hp | rfl | hp
  · have hp1 : (1 : ℝ) ≤ -p := by exact_mod_cast (by omega : (1 : ℤ) ≤ -p)
    have hcs' : (-p : ℝ) ≤ Real.sqrt N * Real.sqrt M := (neg_le_abs _).trans hcs
    obtain ⟨h1, h2, h3, h4⟩ := intCosine_pos hp1 hN' hM' hNt' hMt' hcs'
    rw [intCosine_neg] at h3 h4
    rw [round64_neg, neg_div, abs_neg] at h2
    refine ⟨h1, h2, ⟨fun h => by linarith, fun h => by omega⟩, ⟨fun _ => hp, fun _ => by linarith⟩, ?_⟩
    have hneg : (p : ℝ) / (Real.sqrt N * Real.sqrt M) ≤ 0 := div_nonpos_of_nonpos_of_nonneg (by linarith) hD.le
    rw [abs_of_nonpos hneg]
    rw [neg_div, neg_sub_neg, abs_sub_comm] at h4
    exact h4
  · have hz : intCosine (0 : ℝ) N M = 0 := by unfold intCosine; rw [round64_zero, zero_div, round64_zero]
    have hd1 : 0 < round64 (intRoot N * intRoot M) := by
      have := round64_mono zero_le_one (one_le_mul_of_one_le_of_one_le (intRoot_near hN' hNt').2.1 (intRoot_near hM' hMt').2.1)
      rw [round64_one] at this
      exact zero_lt_one.trans_le this
    refine ⟨hd1, by simp [round64_zero], by simp [hz], by simp [hz], ?_⟩
    simp only [Int.cast_zero, hz, zero_div, sub_zero, abs_zero, mul_zero, zero_add]
    exact (two_zpow_pos _).le
  · have hp1 : (1 : ℝ) ≤ p := by exact_mod_cast (by omega : (1 : ℤ) ≤ p)
    obtain ⟨h1, h2, h3, h4⟩ := intCosine_pos hp1 hN' hM' hNt' hMt' ((le_abs_self _).trans hcs)
    refine ⟨h1, h2, ⟨fun _ => hp, fun _ => h3⟩, ⟨fun h => by linarith, fun h => by omega⟩, ?_⟩
    rw [abs_of_nonneg (div_nonneg (by linarith) hD.le)]
    exact h4

/-! ### Sums -/
section
variable {V A : Type} [LinearOrder V] {g : Graph V A}

theorem nbhd_toFinset (h : g.WF) (n : V) : g.nbhd n = (g.neighbors n).toFinset := by
  ext t
  unfold Graph.nbhd
  rw [List.mem_toFinset, List.mem_toFinset, List.mem_filter, Graph.mem_neighbors]
  exact ⟨fun ht => ht.2, fun ht => ⟨(Graph.hasEdge_mem h ht).2, ht⟩⟩

theorem shared_toFinset (h : g.WF) (u v : V) : g.nbhd u ∩ g.nbhd v = (g.sharedList u v).toFinset := by
  ext t
  rw [nbhd_toFinset h, nbhd_toFinset h, Finset.mem_inter, List.mem_toFinset, List.mem_toFinset, List.mem_toFinset]
  unfold Graph.sharedList
  rw [List.mem_filter, Graph.mem_neighbors, Graph.mem_neighbors]

theorem dotN_int {K : Type} [Field K] [LinearOrder K] [IsStrictOrderedRing K] [FloorRing K] (sqrt : K → K) (l : List V) (a b : V → ℤ) :
    dotN (metricInt sqrt) l (fun t => .fin (a t : K)) (fun t => .fin (b t : K)) = .fin (((l.map (fun t => a t * b t)).sum : ℤ) : K) := by
  have : ∀ (l : List V) (s : K), l.foldl (fun s t => (metricInt sqrt).add s ((metricInt sqrt).mul (.fin (a t : K)) (.fin (b t : K)))) (.fin s) =
      .fin (s + (((l.map (fun t => a t * b t)).sum : ℤ) : K)) := by
    intro l
    induction l with
    | nil => intro s; simp
    | cons t l ih =>
      intro s
      rw [List.foldl_cons]
      have : (metricInt sqrt).add (.fin s) ((metricInt sqrt).mul (.fin (a t : K)) (.fin (b t : K))) = .fin (s + (a t : K) * b t) := rfl
      rw [this, ih, List.map_cons, List.sum_cons]
      push_cast
      rw [add_assoc]
  have := this l 0
  rw [zero_add] at this
  exact this

theorem squareN_int {K : Type} [Field K] [LinearOrder K] [IsStrictOrderedRing K] [FloorRing K] (sqrt : K → K) (h : g.WF)
    (z : V → V → ℤ) (u : V) :
    squareN (metricInt sqrt) g (fun u v => .fin (z u v : K)) u = .fin ((g.squareSum z u : ℤ) : K) := by
  unfold squareN Graph.squareSum
  rw [dotN_int, nbhd_toFinset h, List.sum_toFinset _ (Graph.neighbors_nodup h u)]
  simp only [sq]

theorem productN_int {K : Type} [Field K] [LinearOrder K] [IsStrictOrderedRing K] [FloorRing K] (sqrt : K → K) (h : g.WF)
    (z : V → V → ℤ) (u v : V) :
    productN (metricInt sqrt) g (fun u v => .fin (z u v : K)) u v = .fin ((g.productSum z u v : ℤ) : K) := by
  unfold productN Graph.productSum
  have hnd : (g.sharedList u v).Nodup := (Graph.neighbors_nodup h u).filter _
  rw [dotN_int, shared_toFinset h, List.sum_toFinset _ hnd]

theorem productSum_sq_le (z : V → V → ℤ) (u v : V) : g.productSum z u v ^ 2 ≤ g.squareSum z u * g.squareSum z v := by
  unfold Graph.productSum Graph.squareSum
  refine (Finset.sum_mul_sq_le_sq_mul_sq _ _ _).trans ?_
  refine mul_le_mul (Finset.sum_le_sum_of_subset_of_nonneg Finset.inter_subset_left (fun _ _ _ => sq_nonneg _))
    (Finset.sum_le_sum_of_subset_of_nonneg Finset.inter_subset_right (fun _ _ _ => sq_nonneg _))
    (Finset.sum_nonneg (fun _ _ => sq_nonneg _)) (Finset.sum_nonneg (fun _ _ => sq_nonneg _))

theorem abs_productSum_le (z : V → V → ℤ) (u v : V) :
    |((g.productSum z u v : ℤ) : ℝ)| ≤ Real.sqrt (g.squareSum z u : ℤ) * Real.sqrt (g.squareSum z v : ℤ) := by
  have h1 : 0 ≤ g.squareSum z u := Finset.sum_nonneg (fun _ _ => sq_nonneg _)
  have h0 : (0 : ℝ) ≤ (g.squareSum z u : ℤ) := by exact_mod_cast h1
  rw [← Real.sqrt_mul h0]
  apply Real.abs_le_sqrt
  exact_mod_cast productSum_sq_le z u v

theorem squareSum_pos (h : g.WF) (z : V → V → ℤ) (u : V) : 0 < g.squareSum z u ↔ ∃ t, g.hasEdge u t = true ∧ z u t ≠ 0 := by
  unfold Graph.squareSum
  rw [nbhd_toFinset h, Finset.sum_pos_iff_of_nonneg (fun _ _ => sq_nonneg _)]
  simp only [List.mem_toFinset, Graph.mem_neighbors, sq_pos_iff]

end
end Pelote
