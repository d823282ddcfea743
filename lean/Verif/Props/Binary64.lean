import Verif.Lemmas.Binary64
import Mathlib.Data.Rat.Floor

/-! The rounding used by C65 and C66 is that of IEEE 754: the result is a float, none is nearer, and of two equally near
ones it is the even one. -/
namespace Pelote
variable {K : Type} [Field K] [LinearOrder K] [IsStrictOrderedRing K] [FloorRing K]

/-- No integer is nearer; if another one is as near, the result is even. -/
theorem halfEven_nearest (y : K) (n : ℤ) :
    |(halfEven y : K) - y| ≤ |(n : K) - y| ∧
      (n ≠ halfEven y → |(n : K) - y| = |(halfEven y : K) - y| → Even (halfEven y)) := by
  have h0 := Int.floor_le y
  have h1 := Int.lt_floor_add_one y
  have hn : n ≤ ⌊y⌋ ∨ ⌊y⌋ + 1 ≤ n := by omega
  have hcast : ((n : K) ≤ (⌊y⌋ : K)) ∨ ((⌊y⌋ : K) + 1 ≤ n) := by
    rcases hn with hn | hn
    · left; exact_mod_cast hn
    · right; exact_mod_cast hn
  have habs : |(n : K) - y| = y - n ∧ (n : K) ≤ ⌊y⌋ ∨ |(n : K) - y| = n - y ∧ (⌊y⌋ : K) + 1 ≤ n := by
    rcases hcast with h | h
    · left; exact ⟨by rw [abs_of_nonpos (by linarith)]; ring, h⟩
    · right; exact ⟨by rw [abs_of_nonneg (by linarith)], h⟩
  have hneF : ∀ {a : ℤ}, n ≠ a → (n : K) ≠ (a : K) := fun h => by exact_mod_cast h
  unfold halfEven
  split_ifs with c1 c2 c3
  · have e : |(⌊y⌋ : K) - y| = y - ⌊y⌋ := by rw [abs_of_nonpos (by linarith)]; ring
    rw [e]
    rcases habs with ⟨h, h'⟩ | ⟨h, h'⟩ <;> rw [h]
    · exact ⟨by linarith, fun hne heq => absurd (by linarith) (hneF hne)⟩
    · exact ⟨by linarith, fun hne heq => by linarith⟩
  · have e : |((⌊y⌋ + 1 : ℤ) : K) - y| = ⌊y⌋ + 1 - y := by
      push_cast; rw [abs_of_nonneg (by linarith)]
    rw [e]
    rcases habs with ⟨h, h'⟩ | ⟨h, h'⟩ <;> rw [h]
    · exact ⟨by linarith, fun hne heq => by linarith⟩
    · exact ⟨by linarith, fun hne heq => absurd (by push_cast; linarith) (hneF hne)⟩
  · have e : |(⌊y⌋ : K) - y| = y - ⌊y⌋ := by rw [abs_of_nonpos (by linarith)]; ring
    rw [e]
    refine ⟨?_, fun _ _ => Int.even_iff.2 c3⟩
    rcases habs with ⟨h, h'⟩ | ⟨h, h'⟩ <;> rw [h] <;> linarith
  · have e : |((⌊y⌋ + 1 : ℤ) : K) - y| = ⌊y⌋ + 1 - y := by
      push_cast; rw [abs_of_nonneg (by linarith)]
    rw [e]
    refine ⟨?_, fun _ _ => Int.even_iff.2 (by omega)⟩
    rcases habs with ⟨h, h'⟩ | ⟨h, h'⟩ <;> rw [h] <;> linarith

theorem abs_lt_ulp (x : K) : |x| < 2 ^ (ulpExp x + 53) := by
  have := lt_ulp (abs_nonneg x)
  have e : ulpExp |x| = ulpExp x := by unfold ulpExp; rw [abs_abs]
  rwa [e] at this

/-- The result is a float. -/
theorem round64_isFloat (x : K) : IsFloat64 (round64 x) := by
  have hp := two_zpow_pos (K := K) (ulpExp x)
  have h1 : |x / 2 ^ ulpExp x| ≤ ((2 ^ 53 : ℤ) : K) := by
    rw [abs_div, abs_of_pos hp, div_le_iff₀ hp]
    have := (abs_lt_ulp x).le
    rw [zpow_add₀ (by norm_num)] at this
    norm_num at this ⊢
    linarith
  rw [abs_le] at h1
  have h2 : halfEven (x / 2 ^ ulpExp x) ≤ 2 ^ 53 := halfEven_le h1.2
  have h3 : -(2 ^ 53) ≤ halfEven (x / 2 ^ ulpExp x) := le_halfEven (by push_cast; exact_mod_cast h1.1)
  have hu := ulpExp_ge x
  unfold round64
  rcases h2.eq_or_lt with h | h
  · refine ⟨2 ^ 52, ulpExp x + 1, by norm_num, by omega, ?_⟩
    rw [h, zpow_add₀ (by norm_num)]
    push_cast; ring
  · rcases h3.eq_or_lt with h' | h'
    · refine ⟨-2 ^ 52, ulpExp x + 1, by norm_num, by omega, ?_⟩
      rw [← h', zpow_add₀ (by norm_num)]
      push_cast; ring
    · exact ⟨_, ulpExp x, abs_lt.2 ⟨h', h⟩, hu, rfl⟩

/-- No float is nearer, and if another one is as near, the result has an even significand. -/
theorem round64_nearest (x : K) {y : K} (hy : IsFloat64 y) :
    |round64 x - x| ≤ |y - x| ∧
      (y ≠ round64 x → |y - x| = |round64 x - x| → ∃ m : ℤ, Even m ∧ round64 x = m * 2 ^ ulpExp x) := by
  by_cases hx : x = 0
  · subst hx
    rw [round64_zero, sub_zero, sub_zero, abs_zero]
    exact ⟨abs_nonneg _, fun hne h => absurd (abs_eq_zero.1 h) hne⟩
  have hp := two_zpow_pos (K := K) (ulpExp x)
  -- multiples of the unit in the last place
  have hmul : ∀ n : ℤ, |(n : K) * 2 ^ ulpExp x - x| = |(n : K) - x / 2 ^ ulpExp x| * 2 ^ ulpExp x := by
    intro n
    rw [← abs_of_pos hp, ← abs_mul, abs_of_pos hp, sub_mul, div_mul_cancel₀ _ hp.ne']
  have hint : ∀ n : ℤ, |round64 x - x| ≤ |(n : K) * 2 ^ ulpExp x - x| ∧
      ((n : K) * 2 ^ ulpExp x ≠ round64 x → |(n : K) * 2 ^ ulpExp x - x| = |round64 x - x| →
        ∃ m : ℤ, Even m ∧ round64 x = m * 2 ^ ulpExp x) := by
    intro n
    obtain ⟨h1, h2⟩ := halfEven_nearest (x / 2 ^ ulpExp x) n
    have e : |round64 x - x| = _ := hmul (halfEven (x / 2 ^ ulpExp x))
    rw [e, hmul n]
    refine ⟨mul_le_mul_of_nonneg_right h1 hp.le, fun hne heq => ⟨_, h2 ?_ (mul_right_cancel₀ hp.ne' heq), rfl⟩⟩
    rintro rfl
    exact hne rfl
  obtain ⟨m, e, hm, he, rfl⟩ := hy
  rcases le_or_gt (ulpExp x) e with hle | hlt
  · -- a multiple of the unit
    obtain ⟨d, hd⟩ := Int.le.dest hle
    have : (m : K) * 2 ^ e = ((m * 2 ^ d : ℤ) : K) * 2 ^ ulpExp x := by
      rw [← hd, zpow_add₀ (by norm_num), zpow_natCast]
      push_cast; ring
    rw [this]
    exact hint _
  · -- a finer float is smaller than `2 ^ 52` units, and `x` is not
    have hgt : -1074 < ulpExp x := lt_of_le_of_lt he hlt
    have hx0 : 0 < |x| := abs_pos.2 hx
    have hlow : (2 : K) ^ (ulpExp x + 52) ≤ |x| := by
      have e : ulpExp |x| = ulpExp x := by unfold ulpExp; rw [abs_abs]
      have := ulp_le hx0 (by rw [e]; exact hgt)
      rwa [e] at this
    have hsmall : |(m : K) * 2 ^ e| < 2 ^ (ulpExp x + 52) := by
      rw [abs_mul, abs_of_pos (two_zpow_pos (K := K) e)]
      have h1 : |(m : K)| < 2 ^ 53 := by exact_mod_cast hm
      have h2 : (2 : K) ^ (e + 53) ≤ 2 ^ (ulpExp x + 52) := zpow_le_zpow_right₀ (by norm_num) (by omega)
      refine lt_of_lt_of_le (mul_lt_mul_of_pos_right h1 (two_zpow_pos e)) (le_trans (le_of_eq ?_) h2)
      rw [zpow_add₀ (by norm_num)]
      norm_num; ring
    have hfar : |round64 x - x| < |(m : K) * 2 ^ e - x| := by
      have e52 : (2 : K) ^ (ulpExp x + 52) = ((2 ^ 52 : ℤ) : K) * 2 ^ ulpExp x := by
        rw [zpow_add₀ (by norm_num)]; push_cast; ring
      rcases le_or_gt 0 x with hx | hx
      · rw [abs_of_nonneg hx] at hlow
        refine lt_of_le_of_lt (hint (2 ^ 52)).1 ?_
        rw [← e52, abs_of_nonpos (by linarith), abs_of_nonpos (by linarith [(abs_lt.1 hsmall).2])]
        linarith [(abs_lt.1 hsmall).2]
      · rw [abs_of_neg hx] at hlow
        refine lt_of_le_of_lt (hint (-2 ^ 52)).1 ?_
        have e52' : ((-2 ^ 52 : ℤ) : K) * 2 ^ ulpExp x = - 2 ^ (ulpExp x + 52) := by rw [e52]; push_cast; ring
        rw [e52', abs_of_nonneg (by linarith), abs_of_nonneg (by linarith [(abs_lt.1 hsmall).1])]
        linarith [(abs_lt.1 hsmall).1]
    exact ⟨hfar.le, fun _ h => absurd h.symm hfar.ne⟩

/-- Rounding commutes with the sign. -/
theorem halfEven_neg (y : K) : halfEven (-y) = -halfEven y := by
  by_cases hi : (⌊y⌋ : K) = y
  · rw [← hi, ← Int.cast_neg, halfEven_int, halfEven_int]
  · have h0 := lt_of_le_of_ne (Int.floor_le y) hi
    have h1 := Int.lt_floor_add_one y
    have hf : ⌊-y⌋ = -⌊y⌋ - 1 := by
      rw [Int.floor_eq_iff]
      push_cast
      constructor <;> linarith
    unfold halfEven
    rw [hf]
    have e : -y - ((-⌊y⌋ - 1 : ℤ) : K) = 1 - (y - ⌊y⌋) := by push_cast; ring
    rw [e]
    split_ifs with c1 c2 c3 c4 c5 c6 c7 c8 c9 c10 c11 c12 c13 <;> first
      | omega
      | (exfalso; linarith)

theorem round64_neg (x : K) : round64 (-x) = -round64 x := by
  have e : ulpExp (-x) = ulpExp x := by unfold ulpExp; rw [abs_neg]
  unfold round64
  rw [e, neg_div, halfEven_neg]
  push_cast; ring

/-- A tie: `2 ^ 53 + 1` is half way between two floats, and is rounded to the even one; so is `2 ^ 53 + 3`. -/
theorem round64_tie : round64 ((2 : ℚ) ^ 53 + 1) = 2 ^ 53 ∧ round64 ((2 : ℚ) ^ 53 + 3) = 2 ^ 53 + 4 := by
  decide +kernel

end Pelote
