import Verif.Py.Binary64
import Mathlib.Tactic.Linarith
import Mathlib.Tactic.Positivity
import Mathlib.Tactic.NormNum
import Mathlib.Tactic.Ring

/-! Facts about rounding to double precision floats. -/
namespace Pelote
variable {K : Type} [Field K] [LinearOrder K] [IsStrictOrderedRing K] [FloorRing K]

theorem halfEven_cases (y : K) : (halfEven y = ⌊y⌋ ∧ y - ⌊y⌋ ≤ 1 / 2) ∨ (halfEven y = ⌊y⌋ + 1 ∧ 1 / 2 ≤ y - ⌊y⌋) := by
  unfold halfEven
  split_ifs with h1 h2 h3
  · exact .inl ⟨rfl, h1.le⟩
  · exact .inr ⟨rfl, h2.le⟩
  · exact .inl ⟨rfl, not_lt.1 h2⟩
  · exact .inr ⟨rfl, not_lt.1 h1⟩

/-- Rounding moves by at most a half. -/
theorem abs_halfEven_sub (y : K) : |(halfEven y : K) - y| ≤ 1 / 2 := by
  have h0 := Int.floor_le y
  have h1 := Int.lt_floor_add_one y
  rcases halfEven_cases y with ⟨h, h2⟩ | ⟨h, h2⟩ <;> rw [h, abs_le]
  · constructor <;> linarith
  · push_cast
    constructor <;> linarith

theorem halfEven_int (n : ℤ) : halfEven (n : K) = n := by
  simp [halfEven]

theorem halfEven_mono {x y : K} (h : x ≤ y) : halfEven x ≤ halfEven y := by
  rcases (Int.floor_le_floor h).lt_or_eq with hlt | heq
  · have h1 : halfEven x ≤ ⌊x⌋ + 1 := by rcases halfEven_cases x with ⟨h, _⟩ | ⟨h, _⟩ <;> omega
    have h2 : ⌊y⌋ ≤ halfEven y := by rcases halfEven_cases y with ⟨h, _⟩ | ⟨h, _⟩ <;> omega
    omega
  · unfold halfEven
    rw [heq]
    split_ifs <;> first | omega | (exfalso; linarith)

theorem le_halfEven {n : ℤ} {y : K} (h : (n : K) ≤ y) : n ≤ halfEven y := by
  have := halfEven_mono h
  rwa [halfEven_int] at this

theorem halfEven_le {n : ℤ} {y : K} (h : y ≤ (n : K)) : halfEven y ≤ n := by
  have := halfEven_mono h
  rwa [halfEven_int] at this

/-- The nearest integer, when it is the only one. -/
theorem halfEven_eq {n : ℤ} {y : K} (h : |y - n| < 1 / 2) : halfEven y = n := by
  have h1 := abs_halfEven_sub y
  rw [abs_lt] at h
  rw [abs_le] at h1
  have : ((halfEven y - n : ℤ) : K) < 1 := by push_cast; linarith
  have h3 : (-1 : K) < ((halfEven y - n : ℤ) : K) := by push_cast; linarith
  have e1 : halfEven y - n < 1 := by exact_mod_cast this
  have e2 : -1 < halfEven y - n := by exact_mod_cast h3
  omega

theorem two_zpow_pos (e : ℤ) : (0 : K) < 2 ^ e := zpow_pos two_pos e

theorem ulpExp_ge (x : K) : -1074 ≤ ulpExp x := le_max_right _ _

/-- A number is less than `2 ^ 53` units in the last place. -/
theorem lt_ulp {x : K} (hx : 0 ≤ x) : x < 2 ^ (ulpExp x + 53) := by
  rcases hx.eq_or_lt with rfl | hx
  · exact two_zpow_pos _
  · have h1 := Int.lt_zpow_succ_log_self (b := 2) (by norm_num) x
    have h2 : Int.log 2 x + 1 ≤ ulpExp x + 53 := by
      unfold ulpExp
      rw [abs_of_pos hx]
      have := le_max_left (Int.log 2 x - 52) (-1074)
      omega
    calc x < (2 : K) ^ (Int.log 2 x + 1) := by exact_mod_cast h1
      _ ≤ 2 ^ (ulpExp x + 53) := zpow_le_zpow_right₀ (by norm_num) h2

/-- It is at least `2 ^ 52` of them, unless underflow is reached. -/
theorem ulp_le {x : K} (hx : 0 < x) (h : -1074 < ulpExp x) : 2 ^ (ulpExp x + 52) ≤ x := by
  have h1 := Int.zpow_log_le_self (b := 2) (by norm_num) hx
  have h2 : ulpExp x + 52 = Int.log 2 x := by
    unfold ulpExp at h ⊢
    rw [abs_of_pos hx] at h ⊢
    rcases max_choice (Int.log 2 x - 52) (-1074) with h' | h' <;> rw [h'] at h ⊢ <;> omega
  rw [h2]
  exact_mod_cast h1

theorem round64_zero : round64 (0 : K) = 0 := by
  unfold round64
  rw [zero_div]
  have := halfEven_int (K := K) 0
  rw [Int.cast_zero] at this
  rw [this]; simp

theorem ulpExp_mono {x y : K} (hx : 0 < x) (h : x ≤ y) : ulpExp x ≤ ulpExp y := by
  unfold ulpExp
  rw [abs_of_pos hx, abs_of_pos (hx.trans_le h)]
  have := Int.log_mono_right (b := 2) hx h
  omega

theorem round64_le_top {x : K} (hx : 0 ≤ x) : round64 x ≤ 2 ^ (ulpExp x + 53) := by
  unfold round64
  have hp := two_zpow_pos (K := K) (ulpExp x)
  have h1 : x / 2 ^ ulpExp x ≤ ((2 ^ 53 : ℤ) : K) := by
    rw [div_le_iff₀ hp]
    have := (lt_ulp hx).le
    rw [zpow_add₀ (by norm_num)] at this
    norm_num at this ⊢
    linarith
  have h2 : (halfEven (x / 2 ^ ulpExp x) : K) ≤ ((2 ^ 53 : ℤ) : K) := by exact_mod_cast halfEven_le h1
  calc (halfEven (x / 2 ^ ulpExp x) : K) * 2 ^ ulpExp x ≤ ((2 ^ 53 : ℤ) : K) * 2 ^ ulpExp x :=
        mul_le_mul_of_nonneg_right h2 hp.le
    _ = 2 ^ (ulpExp x + 53) := by
      push_cast
      rw [zpow_add₀ (by norm_num), mul_comm]
      norm_num

theorem bottom_le_round64 {x : K} (hx : 0 < x) (h : -1074 < ulpExp x) : 2 ^ (ulpExp x + 52) ≤ round64 x := by
  unfold round64
  have hp := two_zpow_pos (K := K) (ulpExp x)
  have h1 : ((2 ^ 52 : ℤ) : K) ≤ x / 2 ^ ulpExp x := by
    rw [le_div_iff₀ hp]
    have := ulp_le hx h
    rw [zpow_add₀ (by norm_num)] at this
    norm_num at this ⊢
    linarith
  have h2 : ((2 ^ 52 : ℤ) : K) ≤ (halfEven (x / 2 ^ ulpExp x) : K) := by exact_mod_cast le_halfEven h1
  calc (2 : K) ^ (ulpExp x + 52) = ((2 ^ 52 : ℤ) : K) * 2 ^ ulpExp x := by
        push_cast
        rw [zpow_add₀ (by norm_num), mul_comm]
        norm_num
    _ ≤ (halfEven (x / 2 ^ ulpExp x) : K) * 2 ^ ulpExp x := mul_le_mul_of_nonneg_right h2 hp.le

theorem round64_nonneg {x : K} (hx : 0 ≤ x) : 0 ≤ round64 x := by
  unfold round64
  have : (0 : ℤ) ≤ halfEven (x / 2 ^ ulpExp x) :=
    le_halfEven (by simpa using div_nonneg hx (two_zpow_pos (K := K) (ulpExp x)).le)
  exact mul_nonneg (by exact_mod_cast this) (two_zpow_pos _).le

/-- Rounding preserves the order. -/
theorem round64_mono {x y : K} (hx : 0 ≤ x) (h : x ≤ y) : round64 x ≤ round64 y := by
  rcases hx.eq_or_lt with rfl | hx
  · rw [round64_zero]; exact round64_nonneg h
  · rcases (ulpExp_mono hx h).lt_or_eq with hlt | heq
    · have h1 := round64_le_top hx.le
      have h2 := bottom_le_round64 (hx.trans_le h) (lt_of_le_of_lt (ulpExp_ge x) hlt)
      exact h1.trans (le_trans (zpow_le_zpow_right₀ (by norm_num) (by omega)) h2)
    · unfold round64
      rw [← heq]
      have hp := two_zpow_pos (K := K) (ulpExp x)
      refine mul_le_mul_of_nonneg_right ?_ hp.le
      exact_mod_cast halfEven_mono (div_le_div_of_nonneg_right h hp.le)

/-- Floats are not moved. -/
theorem round64_float {x : K} (hx : 0 ≤ x) (h : IsFloat64 x) : round64 x = x := by
  obtain ⟨m, e, hm, he, rfl⟩ := h
  rcases hx.eq_or_lt with h0 | hpos
  · rw [← h0, round64_zero]
  · have hp := two_zpow_pos (K := K) e
    have hle : ulpExp ((m : K) * 2 ^ e) ≤ e := by
      unfold ulpExp
      refine max_le ?_ he
      rw [abs_of_pos hpos]
      have hm' : (m : K) < 2 ^ 53 := by exact_mod_cast (abs_lt.1 hm).2
      have hlt : (m : K) * 2 ^ e < 2 ^ (e + 53) := by
        rw [zpow_add₀ (by norm_num), mul_comm]
        exact mul_lt_mul_of_pos_left (by exact_mod_cast hm') hp
      have := (Int.lt_zpow_iff_log_lt (b := 2) (by norm_num) hpos).1 (by exact_mod_cast hlt)
      omega
    obtain ⟨k, hk⟩ := Int.le.dest hle
    unfold round64
    have hq : (m : K) * 2 ^ e / 2 ^ ulpExp ((m : K) * 2 ^ e) = ((m * 2 ^ k : ℤ) : K) := by
      rw [div_eq_iff (two_zpow_pos _).ne']
      push_cast
      generalize ulpExp ((m : K) * 2 ^ e) = u at *
      rw [← hk, zpow_add₀ (by norm_num), zpow_natCast]
      ring
    rw [hq, halfEven_int, ← hq, div_mul_cancel₀ _ (two_zpow_pos _).ne']

/-- Naturals of at most 53 bits are floats. -/
theorem round64_nat {n : ℕ} (hn : n < 2 ^ 53) : round64 (n : K) = n :=
  round64_float (Nat.cast_nonneg n) ⟨n, 0, by rw [abs_of_nonneg (by positivity)]; exact_mod_cast hn, by norm_num, by simp⟩

theorem round64_one : round64 (1 : K) = 1 := by
  simpa using round64_nat (K := K) (n := 1) (by norm_num)

/-- The error is at most half a unit in the last place. -/
theorem abs_round64_sub (x : K) : |round64 x - x| ≤ 2 ^ ulpExp x / 2 := by
  have hp := two_zpow_pos (K := K) (ulpExp x)
  have h := abs_halfEven_sub (x / 2 ^ ulpExp x)
  have e : round64 x - x = ((halfEven (x / 2 ^ ulpExp x) : K) - x / 2 ^ ulpExp x) * 2 ^ ulpExp x := by
    unfold round64
    rw [sub_mul, div_mul_cancel₀ _ hp.ne']
  rw [e, abs_mul, abs_of_pos hp]
  calc |(halfEven (x / 2 ^ ulpExp x) : K) - x / 2 ^ ulpExp x| * 2 ^ ulpExp x ≤ 1 / 2 * 2 ^ ulpExp x :=
        mul_le_mul_of_nonneg_right h hp.le
    _ = 2 ^ ulpExp x / 2 := by ring

/-- The relative error is at most `2 ^ (-53)`, far from underflow. -/
theorem round64_rel {x : K} (hx : (2 : K) ^ (-1022 : ℤ) ≤ x) : |round64 x - x| ≤ x / 2 ^ 53 := by
  have hpos : 0 < x := (two_zpow_pos _).trans_le hx
  have hl : -1022 ≤ Int.log 2 x := (Int.zpow_le_iff_le_log (b := 2) (by norm_num) hpos).1 (by exact_mod_cast hx)
  have hu : ulpExp x = Int.log 2 x - 52 := by
    unfold ulpExp
    rw [abs_of_pos hpos]
    omega
  refine (abs_round64_sub x).trans ?_
  have h1 := Int.zpow_log_le_self (b := 2) (by norm_num) hpos
  have h1 : (2 : K) ^ Int.log 2 x ≤ x := by exact_mod_cast h1
  rw [hu, zpow_sub₀ (by norm_num)]
  have e : (2 : K) ^ Int.log 2 x / 2 ^ (52 : ℤ) / 2 = 2 ^ Int.log 2 x / 2 ^ 53 := by
    rw [div_div]; norm_num
  rw [e]
  exact div_le_div_of_nonneg_right h1 (by positivity)

/-- How to compute a rounded number. -/
theorem round64_eq {x : K} {m : ℤ} {e : ℤ} (he : -1074 ≤ e) (h1 : (2 : K) ^ (e + 52) ≤ x) (h2 : x < (2 : K) ^ (e + 53))
    (h3 : |x - m * 2 ^ e| < 2 ^ e / 2) : round64 x = m * 2 ^ e := by
  have hpos : 0 < x := (two_zpow_pos _).trans_le h1
  have hu : ulpExp x = e := by
    have l1 : e + 52 ≤ Int.log 2 x := (Int.zpow_le_iff_le_log (b := 2) (by norm_num) hpos).1 (by exact_mod_cast h1)
    have l2 : Int.log 2 x < e + 53 := (Int.lt_zpow_iff_log_lt (b := 2) (by norm_num) hpos).1 (by exact_mod_cast h2)
    unfold ulpExp
    rw [abs_of_pos hpos]
    omega
  unfold round64
  rw [hu]
  have hp := two_zpow_pos (K := K) e
  have : halfEven (x / 2 ^ e) = m := by
    apply halfEven_eq
    have e1 : x / 2 ^ e - m = (x - m * 2 ^ e) / 2 ^ e := by
      rw [sub_div, mul_div_cancel_right₀ _ hp.ne']
    rw [e1, abs_div, abs_of_pos hp, div_lt_iff₀ hp]
    linarith
  rw [this]

end Pelote
