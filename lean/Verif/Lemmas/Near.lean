import Verif.Lemmas.Binary64
import Verif.Spec.ProjectionRounded
import Mathlib.Analysis.SpecialFunctions.Sqrt
import Mathlib.Algebra.Order.Field.Basic
import Mathlib.Tactic.Linarith
import Mathlib.Tactic.Positivity
import Mathlib.Tactic.FieldSimp
import Mathlib.Tactic.Ring
import Mathlib.Tactic.NormNum

/-! Relative errors of computations on non-negative doubles. -/
namespace Pelote

/-- One rounding, upwards or downwards, away from underflow. -/
noncomputable def rho : ℝ := 2 ^ 53 / (2 ^ 53 - 1)

/-- Two non-negative numbers, equal up to `k` roundings. -/
def Near (k : ℕ) (x y : ℝ) : Prop := 0 ≤ x ∧ 0 ≤ y ∧ x ≤ rho ^ k * y ∧ y ≤ rho ^ k * x

theorem one_le_rho : 1 ≤ rho := by unfold rho; norm_num

theorem rho_pos : 0 < rho := lt_of_lt_of_le one_pos one_le_rho

theorem one_le_rho_pow (k : ℕ) : 1 ≤ rho ^ k := one_le_pow₀ one_le_rho

theorem Near.refl {x : ℝ} (h : 0 ≤ x) : Near 0 x x := by
  refine ⟨h, h, ?_, ?_⟩ <;> simp

theorem Near.symm {k : ℕ} {x y : ℝ} (h : Near k x y) : Near k y x := ⟨h.2.1, h.1, h.2.2.2, h.2.2.1⟩

theorem Near.mono {k l : ℕ} (hkl : k ≤ l) {x y : ℝ} (h : Near k x y) : Near l x y := by
  obtain ⟨h1, h2, h3, h4⟩ := h
  have : rho ^ k ≤ rho ^ l := pow_le_pow_right₀ one_le_rho hkl
  exact ⟨h1, h2, h3.trans (mul_le_mul_of_nonneg_right this h2), h4.trans (mul_le_mul_of_nonneg_right this h1)⟩

theorem Near.trans {k l : ℕ} {x y z : ℝ} (h : Near k x y) (h' : Near l y z) : Near (k + l) x z := by
  obtain ⟨h1, h2, h3, h4⟩ := h
  obtain ⟨g1, g2, g3, g4⟩ := h'
  have hk := (pow_pos rho_pos k).le
  have hl := (pow_pos rho_pos l).le
  refine ⟨h1, g2, ?_, ?_⟩
  · calc x ≤ rho ^ k * y := h3
      _ ≤ rho ^ k * (rho ^ l * z) := mul_le_mul_of_nonneg_left g3 hk
      _ = rho ^ (k + l) * z := by rw [pow_add]; ring
  · calc z ≤ rho ^ l * y := g4
      _ ≤ rho ^ l * (rho ^ k * x) := mul_le_mul_of_nonneg_left h4 hl
      _ = rho ^ (k + l) * x := by rw [pow_add]; ring

theorem Near.add {k : ℕ} {x y x' y' : ℝ} (h : Near k x y) (h' : Near k x' y') : Near k (x + x') (y + y') := by
  obtain ⟨h1, h2, h3, h4⟩ := h
  obtain ⟨g1, g2, g3, g4⟩ := h'
  exact ⟨add_nonneg h1 g1, add_nonneg h2 g2, by rw [mul_add]; exact add_le_add h3 g3, by rw [mul_add]; exact add_le_add h4 g4⟩

theorem Near.mul {k l : ℕ} {x y x' y' : ℝ} (h : Near k x y) (h' : Near l x' y') : Near (k + l) (x * x') (y * y') := by
  obtain ⟨h1, h2, h3, h4⟩ := h
  obtain ⟨g1, g2, g3, g4⟩ := h'
  have hk := (pow_pos rho_pos k).le
  refine ⟨mul_nonneg h1 g1, mul_nonneg h2 g2, ?_, ?_⟩
  · calc x * x' ≤ (rho ^ k * y) * (rho ^ l * y') := mul_le_mul h3 g3 g1 (mul_nonneg hk h2)
      _ = rho ^ (k + l) * (y * y') := by rw [pow_add]; ring
  · calc y * y' ≤ (rho ^ k * x) * (rho ^ l * x') := mul_le_mul h4 g4 g2 (mul_nonneg hk h1)
      _ = rho ^ (k + l) * (x * x') := by rw [pow_add]; ring

theorem Near.inv {k : ℕ} {x y : ℝ} (h : Near k x y) (hx : 0 < x) (hy : 0 < y) : Near k x⁻¹ y⁻¹ := by
  obtain ⟨h1, h2, h3, h4⟩ := h
  refine ⟨(inv_pos.2 hx).le, (inv_pos.2 hy).le, ?_, ?_⟩
  · rw [← div_eq_mul_inv, le_div_iff₀ hy, inv_mul_le_iff₀ hx, mul_comm x]; exact h4
  · rw [← div_eq_mul_inv, le_div_iff₀ hx, inv_mul_le_iff₀ hy, mul_comm y]; exact h3

theorem Near.div {k l : ℕ} {x y x' y' : ℝ} (h : Near k x y) (h' : Near l x' y') (hx : 0 < x') (hy : 0 < y') :
    Near (k + l) (x / x') (y / y') := by
  rw [div_eq_mul_inv, div_eq_mul_inv]
  exact h.mul (h'.inv hx hy)

theorem Near.sqrt {k : ℕ} {x y : ℝ} (h : Near (2 * k) x y) : Near k (Real.sqrt x) (Real.sqrt y) := by
  obtain ⟨h1, h2, h3, h4⟩ := h
  have hk := (pow_pos rho_pos k).le
  have e : ∀ z : ℝ, Real.sqrt (rho ^ (2 * k) * z) = rho ^ k * Real.sqrt z := by
    intro z
    rw [Real.sqrt_mul (pow_pos rho_pos _).le, mul_comm 2 k, pow_mul, Real.sqrt_sq hk]
  refine ⟨Real.sqrt_nonneg _, Real.sqrt_nonneg _, ?_, ?_⟩
  · rw [← e]; exact Real.sqrt_le_sqrt h3
  · rw [← e]; exact Real.sqrt_le_sqrt h4

theorem near_round64 {x : ℝ} (hx : (2 : ℝ) ^ (-1022 : ℤ) ≤ x) : Near 1 (round64 x) x := by
  have hpos : 0 < x := (two_zpow_pos _).trans_le hx
  have h := abs_le.1 (round64_rel hx)
  refine ⟨round64_nonneg hpos.le, hpos.le, ?_, ?_⟩
  · rw [pow_one]
    have : x + x / 2 ^ 53 ≤ rho * x := by
      have : rho * x - (x + x / 2 ^ 53) = x * (2 ^ 53 / (2 ^ 53 - 1) - 1 - 1 / 2 ^ 53) := by unfold rho; ring
      have h2 : (0 : ℝ) ≤ 2 ^ 53 / (2 ^ 53 - 1) - 1 - 1 / 2 ^ 53 := by norm_num
      have := mul_nonneg hpos.le h2
      linarith
    linarith [h.2]
  · rw [pow_one]
    have h1 : x - x / 2 ^ 53 ≤ round64 x := by linarith [h.1]
    calc x = rho * (x - x / 2 ^ 53) := by unfold rho; field_simp
      _ ≤ rho * round64 x := mul_le_mul_of_nonneg_left h1 rho_pos.le

theorem rho_pow_le {k : ℕ} (hk : k ≤ 2 ^ 52) : rho ^ k ≤ 1 + k / 2 ^ 52 := by
  have hkr : (k : ℝ) ≤ 2 ^ 52 := by exact_mod_cast hk
  have hb := one_add_mul_le_pow (a := (-1 / 2 ^ 53 : ℝ)) (by norm_num) k
  have e : rho = (1 + (-1 / 2 ^ 53 : ℝ))⁻¹ := by unfold rho; norm_num
  rw [e, inv_pow]
  have hpos : (0 : ℝ) < 1 + k * (-1 / 2 ^ 53) := by
    have : (k : ℝ) * (-1 / 2 ^ 53) = - (k / 2 ^ 53) := by ring
    rw [this]
    have : (k : ℝ) / 2 ^ 53 ≤ 1 / 2 := by rw [div_le_iff₀ (by positivity)]; linarith
    linarith
  refine (inv_anti₀ hpos hb).trans ?_
  rw [inv_le_comm₀ hpos (by positivity), inv_le_iff_one_le_mul₀ (by positivity)]
  have hk0 : (0 : ℝ) ≤ k := Nat.cast_nonneg k
  have hx : (0 : ℝ) ≤ (k : ℝ) * (2 ^ 52 - k) := mul_nonneg hk0 (by linarith)
  have : (1 + (k : ℝ) * (-1 / 2 ^ 53)) * (1 + k / 2 ^ 52) = 1 + (k : ℝ) * (2 ^ 52 - k) / 2 ^ 105 := by
    field_simp; ring
  rw [this]
  have := div_nonneg hx (by positivity : (0 : ℝ) ≤ 2 ^ 105)
  linarith

theorem Near.abs_sub {k : ℕ} (hk : k ≤ 2 ^ 52) {x y : ℝ} (h : Near k x y) : |x - y| ≤ k / 2 ^ 52 * y := by
  obtain ⟨h1, h2, h3, h4⟩ := h
  have hr := rho_pow_le hk
  have hk0 : (0 : ℝ) ≤ (k : ℝ) / 2 ^ 52 := by positivity
  rw [abs_le]
  constructor
  · have h5 : y ≤ (1 + k / 2 ^ 52) * x := h4.trans (mul_le_mul_of_nonneg_right hr h1)
    by_cases hxy : x ≤ y
    · have := mul_le_mul_of_nonneg_left hxy hk0
      linarith
    · have := mul_nonneg hk0 h2
      linarith
  · have h5 : x ≤ (1 + k / 2 ^ 52) * y := h3.trans (mul_le_mul_of_nonneg_right hr h2)
    linarith

/-! ### Sums of products -/
section
variable {V : Type}

/-- The rounded sum of products of weights between `2 ^ (-200)` and `2 ^ 200`. -/
theorem roundedDot_near {l : List V} {a b : V → ℝ} (ha : ∀ t ∈ l, (2 : ℝ) ^ (-200 : ℤ) ≤ a t)
    (hb : ∀ t ∈ l, (2 : ℝ) ^ (-200 : ℤ) ≤ b t) :
    Near (l.length + 1) (roundedDot round64 l a b) ((l.map (fun t => a t * b t)).sum) ∧
      (l ≠ [] → (2 : ℝ) ^ (-400 : ℤ) ≤ roundedDot round64 l a b) := by
  have hlow : IsFloat64 ((2 : ℝ) ^ (-400 : ℤ)) := ⟨1, -400, by norm_num, by norm_num, by simp⟩
  have hbig : (2 : ℝ) ^ (-1022 : ℤ) ≤ 2 ^ (-400 : ℤ) := zpow_le_zpow_right₀ (by norm_num) (by norm_num)
  have hstep : ∀ x y : ℝ, (2 : ℝ) ^ (-200 : ℤ) ≤ x → (2 : ℝ) ^ (-200 : ℤ) ≤ y → (2 : ℝ) ^ (-400 : ℤ) ≤ x * y := by
    intro x y hx hy
    have : (2 : ℝ) ^ (-400 : ℤ) = 2 ^ (-200 : ℤ) * 2 ^ (-200 : ℤ) := by rw [← zpow_add₀ (by norm_num)]; norm_num
    rw [this]
    exact mul_le_mul hx hy (two_zpow_pos _).le ((two_zpow_pos _).le.trans hx)
  have main : ∀ (l : List V), (∀ t ∈ l, (2 : ℝ) ^ (-200 : ℤ) ≤ a t) → (∀ t ∈ l, (2 : ℝ) ^ (-200 : ℤ) ≤ b t) →
      ∀ (k : ℕ) (s y : ℝ), 1 ≤ k → Near k s y →
      Near (k + l.length) (l.foldl (fun s t => round64 (s + round64 (a t * b t))) s) (y + (l.map (fun t => a t * b t)).sum) ∧
      ((2 : ℝ) ^ (-400 : ℤ) ≤ s ∨ l ≠ [] →
        (2 : ℝ) ^ (-400 : ℤ) ≤ l.foldl (fun s t => round64 (s + round64 (a t * b t))) s) := by
    intro l
    induction l with
    | nil =>
      intro _ _ k s y _ h
      refine ⟨by simpa using h, ?_⟩
      rintro (h | h)
      · exact h
      · exact absurd rfl h
    | cons t l ih =>
      intro hla hlb k s y hk h
      have hp := hstep _ _ (hla t List.mem_cons_self) (hlb t List.mem_cons_self)
      have hp' : (2 : ℝ) ^ (-400 : ℤ) ≤ round64 (a t * b t) := by
        have := round64_mono (two_zpow_pos _).le hp
        rwa [round64_float (two_zpow_pos _).le hlow] at this
      have n1 : Near k (s + round64 (a t * b t)) (y + a t * b t) := h.add ((near_round64 (hbig.trans hp)).mono hk)
      have hs : (2 : ℝ) ^ (-400 : ℤ) ≤ s + round64 (a t * b t) := by linarith [h.1]
      have n2 := (near_round64 (hbig.trans hs)).trans n1
      have hs' : (2 : ℝ) ^ (-400 : ℤ) ≤ round64 (s + round64 (a t * b t)) := by
        have := round64_mono (two_zpow_pos _).le hs
        rwa [round64_float (two_zpow_pos _).le hlow] at this
      obtain ⟨i1, i2⟩ := ih (fun t ht => hla t (List.mem_cons_of_mem _ ht)) (fun t ht => hlb t (List.mem_cons_of_mem _ ht))
        (1 + k) _ _ (by omega) n2
      refine ⟨?_, fun _ => i2 (.inl hs')⟩
      have e : 1 + k + l.length = k + (t :: l).length := by rw [List.length_cons]; omega
      rw [e] at i1
      rw [List.map_cons, List.sum_cons, ← add_assoc]
      exact i1
  obtain ⟨h1, h2⟩ := main l ha hb 1 0 0 le_rfl ⟨le_rfl, le_rfl, by simp, by simp⟩
  rw [zero_add, add_comm 1] at h1
  exact ⟨h1, fun h => h2 (.inr h)⟩

/-- Natural weights whose products have a sum below `2 ^ 53`: nothing is rounded. -/
theorem roundedDot_nat {l : List V} {a b : V → ℝ} {p q : V → ℕ} (ha : ∀ t ∈ l, a t = p t) (hb : ∀ t ∈ l, b t = q t)
    (hs : (l.map (fun t => p t * q t)).sum < 2 ^ 53) :
    roundedDot round64 l a b = (l.map (fun t => a t * b t)).sum := by
  have main : ∀ (l : List V), (∀ t ∈ l, a t = p t) → (∀ t ∈ l, b t = q t) → ∀ s : ℕ,
      s + (l.map (fun t => p t * q t)).sum < 2 ^ 53 →
      l.foldl (fun s t => round64 (s + round64 (a t * b t))) (s : ℝ) = s + (l.map (fun t => a t * b t)).sum := by
    intro l
    induction l with
    | nil => intro _ _ s _; simp
    | cons t l ih =>
      intro hla hlb s hs
      rw [List.map_cons, List.sum_cons] at hs
      have e1 : a t * b t = ((p t * q t : ℕ) : ℝ) := by
        rw [hla t List.mem_cons_self, hlb t List.mem_cons_self]; push_cast; rfl
      rw [List.foldl_cons, e1, round64_nat (by omega), ← Nat.cast_add, round64_nat (by omega),
        ih (fun t ht => hla t (List.mem_cons_of_mem _ ht)) (fun t ht => hlb t (List.mem_cons_of_mem _ ht)) _ (by omega),
        List.map_cons, List.sum_cons, e1, ← add_assoc, Nat.cast_add]
  have := main l ha hb 0 (by omega)
  simpa [roundedDot] using this

end

end Pelote
