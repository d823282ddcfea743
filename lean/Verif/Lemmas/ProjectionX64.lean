import Verif.Lemmas.ProjectionX
import Verif.Lemmas.Overflow

/-! The operations of the cosine metric on floats. -/
set_option linter.unusedSectionVars false
namespace Pelote
variable {V K : Type} [LinearOrder V] [Field K] [LinearOrder K] [IsStrictOrderedRing K] [FloorRing K]
namespace XNum

/-- A float that is not below 0 (NaN is not). -/
def NonNeg : XNum K → Prop
  | .fin a => 0 ≤ a ∧ round64 a = a
  | .inf s => s = false
  | .nan => True

theorem zero_def : (0 : XNum K) = .fin 0 := rfl

theorem round64_idem {y : K} (h : 0 ≤ y) : round64 (round64 y) = round64 y :=
  round64_float (round64_nonneg h) (round64_isFloat y)

theorem store_cases {y : K} (h : 0 ≤ y) : store y = .fin (round64 y) ∨ store y = .inf false := by
  unfold store
  split
  · exact .inl rfl
  · exact .inr (by simp [not_lt.2 h])

theorem store_nonNeg {y : K} (h : 0 ≤ y) : (store y).NonNeg ∧ store y ≠ .nan := by
  rcases store_cases h with h' | h' <;> rw [h']
  · exact ⟨⟨round64_nonneg h, round64_idem h⟩, by simp⟩
  · exact ⟨rfl, by simp⟩

theorem mul_self (x : XNum K) : (mul64 x x).NonNeg ∧ (mul64 x x = .nan ↔ x = .nan) ∧ (∀ s, x = .inf s → mul64 x x = .inf false) := by
  cases x with
  | fin a =>
    have := store_nonNeg (mul_self_nonneg a)
    exact ⟨this.1, by simp [mul64, this.2], by simp⟩
  | inf s => exact ⟨by simp [mul64, NonNeg], by simp [mul64], by simp [mul64]⟩
  | nan => exact ⟨trivial, by simp [mul64], by simp⟩

theorem add_nonNeg {x y : XNum K} (hx : x.NonNeg) (hy : y.NonNeg) : (add64 x y).NonNeg ∧ (add64 x y = .nan ↔ x = .nan ∨ y = .nan) ∧
    (add64 x y = 0 ↔ x = 0 ∧ y = 0) ∧ (x = .inf false → y ≠ .nan → add64 x y = .inf false) ∧
    (y = .inf false → x ≠ .nan → add64 x y = .inf false) := by
  cases x with
  | fin a =>
    cases y with
    | fin b =>
      obtain ⟨ha, ha'⟩ := hx
      obtain ⟨hb, hb'⟩ := hy
      have h0 : 0 ≤ a + b := add_nonneg ha hb
      have := store_nonNeg h0
      refine ⟨this.1, by simp [add64, this.2], ?_, by simp, by simp⟩
      show store (a + b) = .fin 0 ↔ XNum.fin a = .fin 0 ∧ XNum.fin b = .fin 0
      rw [XNum.fin.injEq, XNum.fin.injEq]
      constructor
      · intro he
        have he' : round64 (a + b) = 0 := by
          rcases store_cases h0 with h' | h' <;> rw [h'] at he
          · exact XNum.fin.inj he
          · cases he
        have h1 := round64_mono ha (le_add_of_nonneg_right hb : a ≤ a + b)
        have h2 := round64_mono hb (le_add_of_nonneg_left ha : b ≤ a + b)
        rw [ha', he'] at h1
        rw [hb', he'] at h2
        exact ⟨le_antisymm h1 ha, le_antisymm h2 hb⟩
      · rintro ⟨rfl, rfl⟩
        rw [add_zero]
        have := store_fin (K := K) (x := 0) (by rw [round64_zero, abs_zero]; positivity)
        rw [this, round64_zero]
    | inf s => cases hy; simp [add64, add, NonNeg, zero_def]
    | nan => simp [add64, add, NonNeg, zero_def]
  | inf s =>
    cases hx
    cases y with
    | fin b => simp [add64, add, NonNeg, zero_def]
    | inf s => cases hy; simp [add64, add, NonNeg, zero_def]
    | nan => simp [add64, add, NonNeg, zero_def]
  | nan => cases y <;> simp [add64, add, NonNeg, zero_def]

theorem zero_nonNeg : (0 : XNum K).NonNeg := ⟨le_rfl, round64_zero⟩

theorem lt_zero_iff {x : XNum K} (hx : x.NonNeg) : lt 0 x = true ↔ x ≠ .nan ∧ x ≠ 0 := by
  cases x with
  | fin a =>
    rw [zero_def]
    simp only [lt, decide_eq_true_eq, ne_eq, reduceCtorEq, not_false_eq_true, true_and, XNum.fin.injEq]
    exact ⟨fun h => h.ne', fun h => lt_of_le_of_ne hx.1 (Ne.symm h)⟩
  | inf s => cases hx; simp [zero_def, lt]
  | nan => simp [zero_def, lt]

/-- Adding squares. -/
theorem squares (l : List V) (f : V → XNum K) {s : XNum K} (hs : s.NonNeg) :
    (l.foldl (fun s t => add64 s (mul64 (f t) (f t))) s).NonNeg ∧
    (l.foldl (fun s t => add64 s (mul64 (f t) (f t))) s = .nan ↔ s = .nan ∨ ∃ t ∈ l, f t = .nan) ∧
    (l.foldl (fun s t => add64 s (mul64 (f t) (f t))) s = 0 ↔ s = 0 ∧ ∀ t ∈ l, mul64 (f t) (f t) = 0) ∧
    ((s ≠ .nan ∧ ∀ t ∈ l, f t ≠ .nan) → (s = .inf false ∨ ∃ t ∈ l, ∃ b, f t = .inf b) →
      l.foldl (fun s t => add64 s (mul64 (f t) (f t))) s = .inf false) := by
  induction l generalizing s with
  | nil => exact ⟨hs, by simp, by simp, fun _ h => h.resolve_right (by simp)⟩
  | cons t l ih =>
    obtain ⟨m1, m2, m3⟩ := mul_self (f t)
    obtain ⟨a1, a2, a3, a4, a5⟩ := add_nonNeg hs m1
    obtain ⟨i1, i2, i3, i4⟩ := ih a1
    simp only [List.foldl_cons]
    refine ⟨i1, ?_, ?_, ?_⟩
    · rw [i2, a2, m2]
      simp [or_assoc]
    · rw [i3, a3]
      simp [and_assoc]
    · rintro ⟨h1, h2⟩ h3
      have ht := h2 t List.mem_cons_self
      refine i4 ⟨fun h => ?_, fun t ht => h2 t (List.mem_cons_of_mem _ ht)⟩ ?_
      · rcases a2.1 h with h | h
        · exact h1 h
        · exact ht (m2.1 h)
      · rcases h3 with h3 | ⟨t', ht', b, hb⟩
        · exact .inl (a4 h3 (fun h => ht (m2.1 h)))
        · rcases List.mem_cons.1 ht' with rfl | ht'
          · exact .inl (a5 (m3 b hb) h1)
          · exact .inr ⟨t', ht', b, hb⟩

end XNum

open XNum

/-- What is needed of the square root of floats: its range. -/
structure SqrtRange (sqrt : K → K) : Prop where
  lower : ∀ a, (2 : K) ^ (-1074 : ℤ) ≤ a → (2 : K) ^ (-537 : ℤ) ≤ sqrt a
  upper : ∀ a, 0 ≤ a → a ≤ 2 ^ 1022 → sqrt a ≤ 2 ^ 511

theorem float_ge_least {a : K} (h0 : 0 < a) (h1 : round64 a = a) : (2 : K) ^ (-1074 : ℤ) ≤ a := by
  obtain ⟨m, e, hm, he, hae⟩ : IsFloat64 a := h1 ▸ round64_isFloat a
  have hpos : (0 : K) < 2 ^ e := two_zpow_pos e
  have hm0 : 1 ≤ m := by
    rw [hae] at h0
    have : (0 : K) < m := by
      by_contra hneg
      exact absurd h0 (not_lt.2 (mul_nonpos_of_nonpos_of_nonneg (not_lt.1 hneg) hpos.le))
    have : 0 < m := by exact_mod_cast this
    omega
  have h3 : (2 : K) ^ (-1074 : ℤ) ≤ 2 ^ e := zpow_le_zpow_right₀ one_le_two he
  have h4 : (1 : K) ≤ m := by exact_mod_cast hm0
  rw [hae]
  nlinarith

theorem abs_sqrt_le {sqrt : K → K} (hq : SqrtRange sqrt) {a M : K} (h0 : 0 < a) (h1 : round64 a = a) (h : sqrt a ≤ M) : |sqrt a| ≤ M := by
  rw [abs_of_pos (lt_of_lt_of_le (two_zpow_pos _) (hq.lower a (float_ge_least h0 h1)))]
  exact h

/-- A product of two norms: an infinity or a positive number. -/
theorem norms_mul {sqrt : K → K} (hq : SqrtRange sqrt) {x y : XNum K} (hx : x.NonNeg) (hy : y.NonNeg) (hx0 : lt 0 x = true)
    (hy0 : lt 0 y = true) :
    (∃ d, 0 < d ∧ mul64 (sqrt64 sqrt x) (sqrt64 sqrt y) = .fin d) ∨ mul64 (sqrt64 sqrt x) (sqrt64 sqrt y) = .inf false := by
  have hlow : ∀ a : K, 0 ≤ a → round64 a = a → a ≠ 0 → (2 : K) ^ (-537 : ℤ) ≤ sqrt a := by
    intro a h0 h1 h2
    exact hq.lower a (float_ge_least (lt_of_le_of_ne h0 (Ne.symm h2)) h1)
  have hpos : (0 : K) < 2 ^ (-537 : ℤ) := two_zpow_pos _
  cases x with
  | nan => simp [zero_def, lt] at hx0
  | inf s =>
    cases hx
    right
    cases y with
    | nan => simp [zero_def, lt] at hy0
    | inf s => cases hy; rfl
    | fin b =>
      have hb := ((lt_zero_iff hy).1 hy0).2
      have := lt_of_lt_of_le hpos (hlow b hy.1 hy.2 (fun h => hb (by rw [h]; rfl)))
      simp [mul64, sqrt64, this.ne', not_lt.2 this.le]
  | fin a =>
    have ha := ((lt_zero_iff hx).1 hx0).2
    have ha' := hlow a hx.1 hx.2 (fun h => ha (by rw [h]; rfl))
    have ha0 := lt_of_lt_of_le hpos ha'
    cases y with
    | nan => simp [zero_def, lt] at hy0
    | inf s =>
      cases hy
      right
      simp [mul64, sqrt64, ha0.ne', not_lt.2 ha0.le]
    | fin b =>
      have hb := ((lt_zero_iff hy).1 hy0).2
      have hb' := hlow b hy.1 hy.2 (fun h => hb (by rw [h]; rfl))
      have hprod : (2 : K) ^ (-1074 : ℤ) ≤ sqrt a * sqrt b := by
        have : (2 : K) ^ (-1074 : ℤ) = 2 ^ (-537 : ℤ) * 2 ^ (-537 : ℤ) := by
          rw [← zpow_add₀ two_ne_zero]
          norm_num
        rw [this]
        exact mul_le_mul ha' hb' hpos.le ha0.le
      have hp1 : (0 : K) < 2 ^ (-1074 : ℤ) := two_zpow_pos _
      rcases store_cases (le_trans hp1.le hprod) with h' | h'
      · refine .inl ⟨round64 (sqrt a * sqrt b), lt_of_lt_of_le hp1 ?_, h'⟩
        have h1 := round64_mono hp1.le hprod
        rwa [round64_float hp1.le ⟨1, -1074, by norm_num, le_rfl, by simp⟩] at h1
      · exact .inr h'

end Pelote
