import Verif.Props.Binary64
import Verif.Model.Disparity
import Mathlib.Tactic.Positivity
import Mathlib.Tactic.Linarith

/-! Lemmas about the compensated sum of floats of Python 3.12. -/
set_option linter.unusedSectionVars false
namespace Pelote

variable {K : Type} [Field K] [LinearOrder K] [IsStrictOrderedRing K] [FloorRing K]

/-! ### Multiples of a power of 2 -/

/-- A multiple of `2 ^ e`. -/
def OnGrid (e : ℤ) (x : K) : Prop := ∃ m : ℤ, x = m * 2 ^ e

theorem OnGrid.zero (e : ℤ) : OnGrid e (0 : K) := ⟨0, by simp⟩

theorem OnGrid.add {e : ℤ} {x y : K} : OnGrid e x → OnGrid e y → OnGrid e (x + y)
  | ⟨m, hm⟩, ⟨n, hn⟩ => ⟨m + n, by rw [hm, hn]; push_cast; ring⟩

theorem OnGrid.sub {e : ℤ} {x y : K} : OnGrid e x → OnGrid e y → OnGrid e (x - y)
  | ⟨m, hm⟩, ⟨n, hn⟩ => ⟨m - n, by rw [hm, hn]; push_cast; ring⟩

theorem OnGrid.mono {e e' : ℤ} (h : e' ≤ e) {x : K} : OnGrid e x → OnGrid e' x
  | ⟨m, hm⟩ => by
    refine ⟨m * 2 ^ (e - e').toNat, ?_⟩
    rw [hm, Int.cast_mul, Int.cast_pow, Int.cast_ofNat, mul_assoc]
    congr 1
    rw [← zpow_natCast, ← zpow_add₀ (by norm_num : (2 : K) ≠ 0)]
    congr 1
    omega

/-- Two multiples of `2 ^ e` less than `2 ^ e` apart are equal. -/
theorem OnGrid.eq {e : ℤ} {x y : K} (hx : OnGrid e x) (hy : OnGrid e y) (h : |x - y| < 2 ^ e) : x = y := by
  obtain ⟨m, hm⟩ := hx.sub hy
  have hp := two_zpow_pos (K := K) e
  rw [hm, abs_mul, abs_of_pos hp] at h
  have h1 : |(m : K)| < 1 := by
    by_contra hc
    rw [not_lt] at hc
    exact absurd h (not_lt.2 (le_mul_of_one_le_left hp.le hc))
  have h2 : m = 0 := by
    rw [← Int.cast_abs] at h1
    have : |m| < 1 := by exact_mod_cast h1
    exact abs_eq_zero.1 (le_antisymm (by omega) (abs_nonneg m))
  rw [h2, Int.cast_zero, zero_mul] at hm
  exact sub_eq_zero.1 hm

theorem IsFloat64.onGrid {x : K} (h : IsFloat64 x) : OnGrid (ulpExp x) x := by
  obtain ⟨m, e, hm, he, rfl⟩ := h
  rcases eq_or_ne ((m : K) * 2 ^ e) 0 with h0 | h0
  · rw [h0]; exact OnGrid.zero _
  refine OnGrid.mono ?_ (⟨m, rfl⟩ : OnGrid e ((m : K) * 2 ^ e))
  have hp := two_zpow_pos (K := K) e
  have h1 : |(m : K) * 2 ^ e| < 2 ^ (e + 53) := by
    rw [abs_mul, abs_of_pos hp, add_comm, zpow_add₀ (by norm_num)]
    refine mul_lt_mul_of_pos_right ?_ hp
    rw [← Int.cast_abs]
    exact_mod_cast hm
  have h2 : Int.log 2 |(m : K) * 2 ^ e| < e + 53 :=
    (Int.lt_zpow_iff_log_lt (b := 2) (by norm_num) (abs_pos.2 h0)).1 (by exact_mod_cast h1)
  unfold ulpExp
  omega

theorem IsFloat64.onLeast {x : K} (h : IsFloat64 x) : OnGrid (-1074) x := h.onGrid.mono (ulpExp_ge x)

theorem OnGrid.isFloat {e : ℤ} (he : -1074 ≤ e) {x : K} (h : OnGrid e x) (hx : |x| < 2 ^ (e + 53)) : IsFloat64 x := by
  obtain ⟨m, rfl⟩ := h
  refine ⟨m, e, ?_, he, rfl⟩
  have hp := two_zpow_pos (K := K) e
  rw [abs_mul, abs_of_pos hp, add_comm, zpow_add₀ (by norm_num)] at hx
  have := lt_of_mul_lt_mul_right hx hp.le
  rw [← Int.cast_abs] at this
  exact_mod_cast this

/-- Floats of any sign are unchanged. -/
theorem round64_fix {x : K} (h : IsFloat64 x) : round64 x = x := by
  have := (round64_nearest x h).1
  rw [sub_self, abs_zero] at this
  exact sub_eq_zero.1 (abs_eq_zero.1 (le_antisymm this (abs_nonneg _)))

theorem round64_onGrid (x : K) : OnGrid (ulpExp x) (round64 x) := ⟨_, rfl⟩

/-- Rounding a multiple of `2 ^ e` gives a multiple of `2 ^ e`. -/
theorem OnGrid.round64 {e : ℤ} {x : K} (h : OnGrid e x) : OnGrid e (round64 x) := by
  rcases le_total e (ulpExp x) with h1 | h1
  · exact (round64_onGrid x).mono h1
  · rw [round64_fix ((h.mono h1).isFloat (ulpExp_ge x) (abs_lt_ulp x))]
    exact h

/-- On the multiples of the least float, the relative error is at most `2 ^ (-53)`, even near 0. -/
theorem round64_rel_grid {x : K} (h : OnGrid (-1074) x) : |round64 x - x| ≤ 1 / 2 ^ 53 * |x| := by
  rcases eq_or_ne x 0 with rfl | h0
  · rw [round64_zero, sub_self, abs_zero, mul_zero]
  rcases (ulpExp_ge x).eq_or_lt with hu | hu
  · have hx := abs_lt_ulp x
    rw [← hu] at hx
    rw [round64_fix (h.isFloat le_rfl hx), sub_self, abs_zero]
    exact mul_nonneg (by positivity) (abs_nonneg _)
  · have e : ulpExp |x| = ulpExp x := by unfold ulpExp; rw [abs_abs]
    have h1 := ulp_le (abs_pos.2 h0) (by rwa [e])
    rw [e] at h1
    refine (abs_round64_sub x).trans ?_
    have h2 : (2 : K) ^ ulpExp x / 2 = 1 / 2 ^ 53 * 2 ^ (ulpExp x + 52) := by
      rw [zpow_add₀ (by norm_num)]
      norm_num
      ring
    rw [h2]
    exact mul_le_mul_of_nonneg_left h1 (by positivity)

/-! ### The error of one addition -/

/-- What the addition of two nonnegative floats loses is computed exactly from the larger one. -/
theorem fastTwoSum {s x : K} (hs : IsFloat64 s) (hx : IsFloat64 x) (hx0 : 0 ≤ x) (h : x ≤ s) :
    round64 (round64 (s - round64 (s + x)) + x) = s + x - round64 (s + x) ∧
      |s + x - round64 (s + x)| ≤ 1 / 2 ^ 53 * (s + x) := by
  have hs0 := hx0.trans h
  have hsum0 : 0 ≤ s + x := add_nonneg hs0 hx0
  have herr : |s + x - round64 (s + x)| ≤ 1 / 2 ^ 53 * (s + x) := by
    have := round64_rel_grid (hs.onLeast.add hx.onLeast)
    rwa [abs_of_nonneg hsum0, abs_sub_comm] at this
  refine ⟨?_, herr⟩
  rcases hx0.eq_or_lt with rfl | hxp
  · rw [add_zero s, round64_fix hs, sub_self, round64_zero, add_zero, round64_zero]
  have hsp := hxp.trans_le h
  have ht1 : s ≤ round64 (s + x) := by
    have := round64_mono hs0 (le_add_of_nonneg_right hx0 : s ≤ s + x)
    rwa [round64_fix hs] at this
  -- the rounded sum is at most twice the larger one
  have h2s : IsFloat64 (s + s) := by
    obtain ⟨m, e, hm, he, rfl⟩ := hs
    exact ⟨m, e + 1, hm, by omega, by rw [zpow_add₀ (by norm_num), zpow_one]; ring⟩
  have ht2 : round64 (s + x) ≤ s + s := by
    have := round64_mono hsum0 (by linarith : s + x ≤ s + s)
    rwa [round64_fix h2s] at this
  have hu1 : ulpExp s ≤ ulpExp (s + x) := ulpExp_mono hsp (by linarith)
  have htg : OnGrid (ulpExp s) (round64 (s + x)) := (round64_onGrid _).mono hu1
  have hd : IsFloat64 (s - round64 (s + x)) := by
    refine (hs.onGrid.sub htg).isFloat (ulpExp_ge s) ?_
    rw [abs_sub_comm, abs_of_nonneg (sub_nonneg.2 ht1)]
    have := lt_ulp hs0
    linarith
  rw [round64_fix hd]
  have hu2 : ulpExp x ≤ ulpExp s := ulpExp_mono hxp h
  have he : IsFloat64 (s - round64 (s + x) + x) := by
    refine (((hs.onGrid.mono hu2).sub (htg.mono hu2)).add hx.onGrid).isFloat (ulpExp_ge x) ?_
    have h1 := (round64_nearest (s + x) hs).1
    have h2 : s - (s + x) = -x := by ring
    rw [h2, abs_neg, abs_of_nonneg hx0, abs_sub_comm] at h1
    rw [show s - round64 (s + x) + x = s + x - round64 (s + x) by ring]
    exact h1.trans_lt (lt_ulp hx0)
  rw [round64_fix he]
  ring

/-- One step of the sum: the new sum and the new compensation. -/
theorem compensatedStep_eq {s x c : K} (hs : IsFloat64 s) (hx : IsFloat64 x) (hs0 : 0 ≤ s) (hx0 : 0 ≤ x) :
    compensatedStep round64 (s, c) x = (round64 (s + x), round64 (c + (s + x - round64 (s + x)))) ∧
      |s + x - round64 (s + x)| ≤ 1 / 2 ^ 53 * (s + x) := by
  unfold compensatedStep
  simp only
  rw [abs_of_nonneg hx0, abs_of_nonneg hs0]
  by_cases h : x ≤ s
  · obtain ⟨h1, h2⟩ := fastTwoSum hs hx hx0 h
    rw [if_pos h, h1]
    exact ⟨rfl, h2⟩
  · obtain ⟨h1, h2⟩ := fastTwoSum hx hs hs0 (not_le.1 h).le
    rw [add_comm x s] at h1 h2
    rw [if_neg h, h1]
    exact ⟨rfl, h2⟩

/-! ### All the steps -/

/-- The state of the sum: `S` is the exact sum, `E` the sum of what was lost at each addition, `A` the sum of the absolute
values of it, `k` the number of additions. -/
structure SumState (S f c E A : K) (k : ℕ) : Prop where
  float : IsFloat64 f
  nonneg : 0 ≤ f
  nonneg' : 0 ≤ S
  exact : f + E = S
  grid : OnGrid (-1074) c
  grid' : OnGrid (-1074) E
  le : |E| ≤ A
  near : |c - E| ≤ ((1 + 1 / 2 ^ 53) ^ k - 1) * A
  sum : f ≤ S * (1 + 1 / 2 ^ 53) ^ k
  small : A ≤ k * (1 / 2 ^ 53) * (S * (1 + 1 / 2 ^ 53) ^ k)

theorem SumState.step {S f c E A x : K} {k : ℕ} (h : SumState S f c E A k) (hx : IsFloat64 x) (hx0 : 0 ≤ x) :
    ∃ E' A', SumState (S + x) (compensatedStep round64 (f, c) x).1 (compensatedStep round64 (f, c) x).2 E' A' (k + 1) := by
  obtain ⟨e1, e2⟩ := compensatedStep_eq (c := c) h.float hx h.nonneg hx0
  rw [e1]
  have hu0 : (0 : K) ≤ 1 / 2 ^ 53 := by positivity
  have htf : IsFloat64 (round64 (f + x)) := round64_isFloat _
  have hx' : 0 ≤ f + x := add_nonneg h.nonneg hx0
  have hpow : (1 : K) ≤ (1 + 1 / 2 ^ 53) ^ k := one_le_pow₀ (by linarith)
  have hA : 0 ≤ A := (abs_nonneg _).trans h.le
  generalize he : f + x - round64 (f + x) = e at e2
  have heg : OnGrid (-1074) e := by
    rw [← he]; exact (h.float.onLeast.add hx.onLeast).sub htf.onLeast
  have hcg : OnGrid (-1074) (c + e) := h.grid.add heg
  have hsum : f + x ≤ (S + x) * (1 + 1 / 2 ^ 53) ^ k := by
    rw [add_mul]; exact add_le_add h.sum (le_mul_of_one_le_right hx0 hpow)
  have hSx : 0 ≤ S + x := add_nonneg h.nonneg' hx0
  refine ⟨E + e, A + |e|, ⟨htf, round64_nonneg hx', hSx, ?_, hcg.round64, h.grid'.add heg, ?_, ?_, ?_, ?_⟩⟩
  · have := h.exact
    rw [← he]; linarith
  · exact (abs_add_le _ _).trans (by linarith [h.le])
  · have r := round64_rel_grid hcg
    have h1 : |c + e| ≤ |c - E| + (A + |e|) := by
      have : c + e = (c - E) + (E + e) := by ring
      rw [this]
      exact (abs_add_le _ _).trans (by have := abs_add_le E e; have := h.le; linarith)
    have h2 : |round64 (c + e) - (E + e)| ≤ |round64 (c + e) - (c + e)| + |c - E| := by
      have : round64 (c + e) - (E + e) = (round64 (c + e) - (c + e)) + (c - E) := by ring
      rw [this]; exact abs_add_le _ _
    have h3 : 0 ≤ ((1 + 1 / 2 ^ 53 : K) ^ k - 1) * |e| := mul_nonneg (by linarith) (abs_nonneg e)
    have h4 : |c - E| ≤ ((1 + 1 / 2 ^ 53) ^ k - 1) * (A + |e|) := by
      have := h.near
      rw [mul_add]; linarith
    calc |round64 (c + e) - (E + e)| ≤ 1 / 2 ^ 53 * (|c - E| + (A + |e|)) + |c - E| := by
          have := mul_le_mul_of_nonneg_left h1 hu0
          linarith
      _ = (1 + 1 / 2 ^ 53) * |c - E| + 1 / 2 ^ 53 * (A + |e|) := by ring
      _ ≤ (1 + 1 / 2 ^ 53) * (((1 + 1 / 2 ^ 53) ^ k - 1) * (A + |e|)) + 1 / 2 ^ 53 * (A + |e|) := by
          have := mul_le_mul_of_nonneg_left h4 (by linarith : (0 : K) ≤ 1 + 1 / 2 ^ 53)
          linarith
      _ = _ := by ring
  · have r := abs_le.1 (round64_rel_grid (h.float.onLeast.add hx.onLeast))
    rw [abs_of_nonneg hx'] at r
    calc round64 (f + x) ≤ (f + x) * (1 + 1 / 2 ^ 53) := by linarith [r.2]
      _ ≤ (S + x) * (1 + 1 / 2 ^ 53) ^ k * (1 + 1 / 2 ^ 53) := mul_le_mul_of_nonneg_right hsum (by linarith)
      _ = _ := by ring
  · have h1 : (1 + 1 / 2 ^ 53 : K) ^ k ≤ (1 + 1 / 2 ^ 53) ^ (k + 1) := pow_le_pow_right₀ (by linarith) (by omega)
    have h2 : (S + x) * (1 + 1 / 2 ^ 53) ^ k ≤ (S + x) * (1 + 1 / 2 ^ 53) ^ (k + 1) := mul_le_mul_of_nonneg_left h1 hSx
    have h3 : S * (1 + 1 / 2 ^ 53) ^ k ≤ (S + x) * (1 + 1 / 2 ^ 53) ^ k :=
      mul_le_mul_of_nonneg_right (by linarith) (by linarith)
    have hk : (0 : K) ≤ k * (1 / 2 ^ 53) := mul_nonneg (Nat.cast_nonneg _) hu0
    have h4 : A ≤ k * (1 / 2 ^ 53) * ((S + x) * (1 + 1 / 2 ^ 53) ^ (k + 1)) :=
      h.small.trans (mul_le_mul_of_nonneg_left (h3.trans h2) hk)
    have h5 : |e| ≤ 1 / 2 ^ 53 * ((S + x) * (1 + 1 / 2 ^ 53) ^ (k + 1)) :=
      e2.trans (mul_le_mul_of_nonneg_left (hsum.trans h2) hu0)
    push_cast
    linarith

theorem SumState.steps {l : List K} (hl : ∀ x ∈ l, IsFloat64 x ∧ 0 ≤ x) {S f c E A : K} {k : ℕ}
    (h : SumState S f c E A k) :
    ∃ E' A', SumState (S + l.sum) (l.foldl (compensatedStep round64) (f, c)).1
      (l.foldl (compensatedStep round64) (f, c)).2 E' A' (k + l.length) := by
  induction l generalizing S f c E A k with
  | nil => exact ⟨E, A, by simpa using h⟩
  | cons x l ih =>
    obtain ⟨E', A', h'⟩ := h.step (hl x (by simp)).1 (hl x (by simp)).2
    obtain ⟨E'', A'', h''⟩ := ih (fun y hy => hl y (by simp [hy])) h'
    refine ⟨E'', A'', ?_⟩
    rw [List.foldl_cons, List.sum_cons, List.length_cons, ← add_assoc, show k + (l.length + 1) = k + 1 + l.length by omega]
    exact h''

/-- A number hardly below a float is rounded to it. -/
theorem round64_below {x : K} (hx : IsFloat64 x) (hx0 : 0 < x) : round64 (x * (1 - 1 / 2 ^ 56)) = x := by
  have hy2 : x / 2 ≤ x * (1 - 1 / 2 ^ 56) := by
    rw [div_eq_mul_one_div]
    exact mul_le_mul_of_nonneg_left (by norm_num) hx0.le
  have hy0 : 0 < x * (1 - 1 / 2 ^ 56) := (half_pos hx0).trans_le hy2
  have hu : ulpExp x - 1 ≤ ulpExp (x * (1 - 1 / 2 ^ 56)) := by
    have h1 := Int.zpow_log_le_self (b := 2) (by norm_num) hx0
    have h2 : Int.log 2 x - 1 ≤ Int.log 2 (x * (1 - 1 / 2 ^ 56)) := by
      refine (Int.zpow_le_iff_le_log (b := 2) (by norm_num) hy0).1 (le_trans ?_ hy2)
      rw [zpow_sub₀ (by norm_num), zpow_one]
      exact div_le_div_of_nonneg_right (by exact_mod_cast h1) (by norm_num)
    unfold ulpExp
    rw [abs_of_pos hx0, abs_of_pos hy0]
    omega
  refine OnGrid.eq ((round64_onGrid _).mono hu) (hx.onGrid.mono (by omega)) ?_
  have h1 := (round64_nearest (x * (1 - 1 / 2 ^ 56)) hx).1
  have h2 : x - x * (1 - 1 / 2 ^ 56) = x / 2 ^ 56 := by ring
  rw [h2, abs_of_pos (div_pos hx0 (by positivity) : 0 < x / 2 ^ 56)] at h1
  have h3 : |round64 (x * (1 - 1 / 2 ^ 56)) - x| ≤ x / 2 ^ 55 := by
    rw [abs_le] at h1 ⊢
    constructor <;> linarith
  have h4 := lt_ulp hx0.le
  refine h3.trans_lt ?_
  rw [div_lt_iff₀ (by positivity)]
  refine h4.trans_le ?_
  rw [← zpow_natCast (2 : K) 55, ← zpow_add₀ (by norm_num)]
  exact zpow_le_zpow_right₀ (by norm_num) (by push_cast; omega)

end Pelote
