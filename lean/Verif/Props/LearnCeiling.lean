import Verif.Props.LearnFloat
import Verif.Props.Binary64

/-! C66: the exact ceiling of the thresholds tried in floating point. -/
namespace Pelote

section floats
variable {K : Type} [Field K] [LinearOrder K] [IsStrictOrderedRing K] [FloorRing K]

/-- The largest threshold reached by adding `rate`: `2 ^ 53` times `rate` if it is a power of 2, and else `2 ^ 54` times the power
of 2 below it. -/
def ceiling64 (rate : K) : K :=
  if rate = 2 ^ Int.log 2 rate then 2 ^ (Int.log 2 rate + 53) else 2 ^ (Int.log 2 rate + 54)

/-- Floats under a power of 2 are under it by a unit in the last place. -/
theorem float_gap {t : K} (ht : IsFloat64 t) {e : ℤ} (hlt : t < 2 ^ (e + 53)) : t ≤ 2 ^ (e + 53) - 2 ^ e := by
  obtain ⟨m, f, hm, hf, rfl⟩ := ht
  have he := two_zpow_pos (K := K) e
  have e53 : (2 : K) ^ (e + 53) = 2 ^ 53 * 2 ^ e := by rw [zpow_add₀ (by norm_num)]; norm_num; ring
  by_cases hfe : e ≤ f
  · obtain ⟨n, rfl⟩ : ∃ n : ℕ, f = e + n := ⟨(f - e).toNat, by omega⟩
    have hmul : (m : K) * 2 ^ (e + (n : ℤ)) = ((m * 2 ^ n : ℤ) : K) * 2 ^ e := by
      rw [zpow_add₀ (by norm_num), zpow_natCast]; push_cast; ring
    rw [hmul, e53] at hlt
    rw [hmul, e53]
    have h1 : ((m * 2 ^ n : ℤ) : K) < ((2 ^ 53 : ℤ) : K) := by
      have := lt_of_mul_lt_mul_right hlt he.le
      norm_num at this ⊢; exact this
    have h2 : m * 2 ^ n ≤ 2 ^ 53 - 1 := by have := Int.cast_lt.1 h1; omega
    have h3 : ((m * 2 ^ n : ℤ) : K) ≤ ((2 ^ 53 - 1 : ℤ) : K) := Int.cast_le.2 h2
    calc ((m * 2 ^ n : ℤ) : K) * 2 ^ e ≤ ((2 ^ 53 - 1 : ℤ) : K) * 2 ^ e := mul_le_mul_of_nonneg_right h3 he.le
      _ = 2 ^ 53 * 2 ^ e - 2 ^ e := by push_cast; ring
  · have hfp := two_zpow_pos (K := K) f
    have h1 : (m : K) ≤ 2 ^ 53 := by
      have : m ≤ 2 ^ 53 := (le_abs_self m).trans hm.le
      exact_mod_cast this
    have h2 : (2 : K) ^ f ≤ 2 ^ (e - 1) := zpow_le_zpow_right₀ (by norm_num) (by omega)
    have h3 : (2 : K) ^ (e - 1) = 2 ^ e / 2 := by rw [zpow_sub₀ (by norm_num)]; norm_num
    have h4 : (m : K) * 2 ^ f ≤ 2 ^ 53 * (2 ^ e / 2) := by
      rw [← h3]
      exact (mul_le_mul_of_nonneg_right h1 hfp.le).trans (mul_le_mul_of_nonneg_left h2 (by positivity))
    rw [e53]
    nlinarith

theorem ceiling_cases {rate : K} (hrate : (2 : K) ^ (-1074 : ℤ) ≤ rate) :
    ∃ l : ℤ, -1074 ≤ l ∧ ((rate = 2 ^ l ∧ ceiling64 rate = 2 ^ (l + 53)) ∨
      (2 ^ l < rate ∧ rate < 2 ^ (l + 1) ∧ ceiling64 rate = 2 ^ (l + 54))) := by
  have hpos : 0 < rate := (two_zpow_pos _).trans_le hrate
  refine ⟨Int.log 2 rate, (Int.zpow_le_iff_le_log (b := 2) (by norm_num) hpos).1 (by exact_mod_cast hrate), ?_⟩
  have hle : (2 : K) ^ Int.log 2 rate ≤ rate := by exact_mod_cast Int.zpow_log_le_self (b := 2) (by norm_num) hpos
  have hlt : rate < (2 : K) ^ (Int.log 2 rate + 1) := by
    exact_mod_cast Int.lt_zpow_succ_log_self (b := 2) (by norm_num) rate
  unfold ceiling64
  by_cases h : rate = 2 ^ Int.log 2 rate
  · exact .inl ⟨h, if_pos h⟩
  · exact .inr ⟨lt_of_le_of_ne hle (Ne.symm h), hlt, if_neg h⟩

theorem ulpExp_le {x : K} {e : ℤ} (hx : 0 < x) (he : -1074 ≤ e) (h : x < 2 ^ (e + 53)) : ulpExp x ≤ e := by
  have : Int.log 2 x < e + 53 := (Int.lt_zpow_iff_log_lt (b := 2) (by norm_num) hx).1 (by exact_mod_cast h)
  unfold ulpExp
  rw [abs_of_pos hx]
  omega

/-- Adding the rate to the ceiling gives the ceiling. -/
theorem ceiling64_fixed {rate : K} (hrate : (2 : K) ^ (-1074 : ℤ) ≤ rate) :
    round64 (ceiling64 rate + rate) = ceiling64 rate := by
  obtain ⟨l, hl, ⟨hr, hc⟩ | ⟨h1, h2, hc⟩⟩ := ceiling_cases hrate
  · rw [hc, hr]
    have hp := two_zpow_pos (K := K) l
    have e1 : (2 : K) ^ (l + 1) = 2 ^ l * 2 := by rw [zpow_add₀ (by norm_num)]; norm_num
    have e53 : (2 : K) ^ (l + 53) = 2 ^ l * 2 ^ 53 := by rw [zpow_add₀ (by norm_num)]; norm_num
    have e54 : (2 : K) ^ (l + 1 + 53) = 2 ^ l * 2 ^ 54 := by
      rw [show l + 1 + 53 = l + 54 by ring, zpow_add₀ (by norm_num)]; norm_num
    have hx : (0 : K) < 2 ^ (l + 53) + 2 ^ l := by positivity
    have hu : ulpExp ((2 : K) ^ (l + 53) + 2 ^ l) = l + 1 := by
      apply le_antisymm
      · exact ulpExp_le hx (by omega) (by rw [e53, e54]; norm_num; nlinarith)
      · have : l + 53 ≤ Int.log 2 ((2 : K) ^ (l + 53) + 2 ^ l) :=
          (Int.zpow_le_iff_le_log (b := 2) (by norm_num) hx).1 (by push_cast; linarith)
        unfold ulpExp
        rw [abs_of_pos hx]
        omega
    unfold round64
    rw [hu]
    have hq : ((2 : K) ^ (l + 53) + 2 ^ l) / 2 ^ (l + 1) = ((2 ^ 52 : ℤ) : K) + 1 / 2 := by
      rw [e1, e53, div_eq_iff (by positivity)]
      push_cast; ring
    have hfl : ⌊((2 ^ 52 : ℤ) : K) + 1 / 2⌋ = 2 ^ 52 := by
      rw [Int.floor_eq_iff]
      constructor <;> norm_num
    have hh : halfEven (((2 ^ 52 : ℤ) : K) + 1 / 2) = 2 ^ 52 := by
      unfold halfEven
      rw [hfl, if_neg (by norm_num), if_neg (by norm_num), if_pos (by norm_num)]
    rw [hq, hh, e1, e53]
    push_cast; ring
  · rw [hc]
    have hp := two_zpow_pos (K := K) l
    have e1 : (2 : K) ^ (l + 1) = 2 ^ l * 2 := by rw [zpow_add₀ (by norm_num)]; norm_num
    have e2 : (2 : K) ^ (l + 2) = 2 ^ l * 4 := by rw [zpow_add₀ (by norm_num)]; norm_num
    have e54 : (2 : K) ^ (l + 54) = 2 ^ l * 2 ^ 54 := by rw [zpow_add₀ (by norm_num)]; norm_num
    have e55 : (2 : K) ^ (l + 2 + 53) = 2 ^ l * 2 ^ 55 := by
      rw [show l + 2 + 53 = l + 55 by ring, zpow_add₀ (by norm_num)]; norm_num
    have hpos : 0 < rate := hp.trans h1
    have := round64_eq (x := (2 : K) ^ (l + 54) + rate) (m := 2 ^ 52) (e := l + 2) (by omega)
      (by rw [show l + 2 + 52 = l + 54 by ring]; linarith)
      (by rw [e54, e55]; norm_num; nlinarith)
      (by
        have : (((2 : ℤ) ^ 52 : ℤ) : K) * 2 ^ (l + 2) = 2 ^ (l + 54) := by rw [e2, e54]; push_cast; ring
        rw [this, add_sub_cancel_left, abs_of_pos hpos, e2]
        linarith)
    rw [this, e2, e54]; push_cast; ring

/-- Below the ceiling, adding the rate gives a larger float. -/
theorem lt_round64_add {rate t : K} (hrate : (2 : K) ^ (-1074 : ℤ) ≤ rate) (ht : IsFloat64 t) (h0 : 0 ≤ t)
    (hlt : t < ceiling64 rate) : t < round64 (t + rate) := by
  have hpos : 0 < rate := (two_zpow_pos _).trans_le hrate
  have hx : 0 < t + rate := by linarith
  obtain ⟨l, hl, ⟨hr, hc⟩ | ⟨h1, h2, hc⟩⟩ := ceiling_cases hrate
  · rw [hc] at hlt
    have hg := float_gap ht hlt
    have hp := two_zpow_pos (K := K) l
    rw [hr]
    rcases hg.eq_or_lt with he | hl'
    · have : t + 2 ^ l = 2 ^ (l + 53) := by rw [he]; ring
      rw [this, round64_float (two_zpow_pos _).le ⟨1, l + 53, by norm_num, by omega, by push_cast; ring⟩]
      linarith
    · have hlt' : t + 2 ^ l < 2 ^ (l + 53) := by linarith
      have hu := ulpExp_le (by rw [hr] at hx; exact hx) hl hlt'
      have h3 : (2 : K) ^ ulpExp (t + 2 ^ l) ≤ 2 ^ l := zpow_le_zpow_right₀ (by norm_num) hu
      have h4 := (abs_le.1 (abs_round64_sub (t + 2 ^ l))).1
      linarith
  · rw [hc, show l + 54 = l + 1 + 53 by ring] at hlt
    have hg := float_gap ht hlt
    have hlt' : t + rate < 2 ^ (l + 1 + 53) := by linarith
    have hu := ulpExp_le hx (by omega) hlt'
    have h3 : (2 : K) ^ ulpExp (t + rate) ≤ 2 ^ (l + 1) := zpow_le_zpow_right₀ (by norm_num) hu
    have e1 : (2 : K) ^ (l + 1) = 2 ^ l * 2 := by rw [zpow_add₀ (by norm_num)]; norm_num
    have h4 := (abs_le.1 (abs_round64_sub (t + rate))).1
    rw [e1] at h3
    linarith

theorem ceiling64_isFloat {rate : K} (hrate : (2 : K) ^ (-1074 : ℤ) ≤ rate) : IsFloat64 (ceiling64 rate) := by
  rw [← ceiling64_fixed hrate]
  exact round64_isFloat _

omit [IsStrictOrderedRing K] in
/-- Every float is a multiple of the smallest one. -/
theorem float_multiple {t : K} (ht : IsFloat64 t) : ∃ n : ℤ, t = n * 2 ^ (-1074 : ℤ) := by
  obtain ⟨m, f, -, hf, rfl⟩ := ht
  obtain ⟨n, rfl⟩ : ∃ n : ℕ, f = -1074 + n := ⟨(f + 1074).toNat, by omega⟩
  refine ⟨m * 2 ^ n, ?_⟩
  rw [zpow_add₀ (by norm_num), zpow_natCast]; push_cast; ring

theorem float_succ {s t : K} (hs : IsFloat64 s) (ht : IsFloat64 t) (h : s < t) : s + 2 ^ (-1074 : ℤ) ≤ t := by
  obtain ⟨m, rfl⟩ := float_multiple hs
  obtain ⟨n, rfl⟩ := float_multiple ht
  have hp := two_zpow_pos (K := K) (-1074)
  have h1 : m < n := by
    have := lt_of_mul_lt_mul_right h hp.le
    exact_mod_cast this
  have h2 : ((m + 1 : ℤ) : K) ≤ (n : K) := Int.cast_le.2 (by omega)
  calc (m : K) * 2 ^ (-1074 : ℤ) + 2 ^ (-1074 : ℤ) = ((m + 1 : ℤ) : K) * 2 ^ (-1074 : ℤ) := by push_cast; ring
    _ ≤ n * 2 ^ (-1074 : ℤ) := mul_le_mul_of_nonneg_right h2 hp.le

/-- C66.  The thresholds tried increase until they reach the ceiling, where they stay. -/
theorem steps64_ceiling {start rate : K} (hrate : (2 : K) ^ (-1074 : ℤ) ≤ rate) (hs : IsFloat64 start) (h0 : 0 ≤ start)
    (h1 : start ≤ ceiling64 rate) :
    (∀ k, IsFloat64 (steps round64 start rate k) ∧ steps round64 start rate k ≤ ceiling64 rate ∧
      (steps round64 start rate k < ceiling64 rate → steps round64 start rate k < steps round64 start rate (k + 1))) ∧
    ∃ n, ∀ k, n ≤ k → steps round64 start rate k = ceiling64 rate := by
  have hpos : 0 < rate := (two_zpow_pos _).trans_le hrate
  have main : ∀ k, IsFloat64 (steps round64 start rate k) ∧ 0 ≤ steps round64 start rate k ∧
      steps round64 start rate k ≤ ceiling64 rate := by
    intro k
    induction k with
    | zero => exact ⟨hs, h0, h1⟩
    | succ k ih =>
      refine ⟨round64_isFloat _, round64_nonneg (by linarith [ih.2.1]), ?_⟩
      have := round64_mono (x := steps round64 start rate k + rate) (y := ceiling64 rate + rate) (by linarith [ih.2.1])
        (by linarith [ih.2.2])
      rwa [ceiling64_fixed hrate] at this
  have up : ∀ k, steps round64 start rate k < ceiling64 rate →
      steps round64 start rate k < steps round64 start rate (k + 1) := fun k hk =>
    lt_round64_add hrate (main k).1 (main k).2.1 hk
  refine ⟨fun k => ⟨(main k).1, (main k).2.2, up k⟩, ?_⟩
  have stay : ∀ n, steps round64 start rate n = ceiling64 rate → ∀ k, n ≤ k → steps round64 start rate k = ceiling64 rate := by
    intro n hn k hk
    induction k, hk using Nat.le_induction with
    | base => exact hn
    | succ k _ ih => show round64 (_ + rate) = _; rw [ih, ceiling64_fixed hrate]
  by_contra hno
  push Not at hno
  have hlt : ∀ k, steps round64 start rate k < ceiling64 rate := by
    intro k
    refine lt_of_le_of_ne (main k).2.2 (fun h => ?_)
    obtain ⟨j, hj, hne⟩ := hno k
    exact hne (stay k h j hj)
  have hgrow : ∀ k : ℕ, (k : K) * 2 ^ (-1074 : ℤ) ≤ steps round64 start rate k := by
    intro k
    induction k with
    | zero => simpa [steps] using h0
    | succ k ih =>
      have := float_succ (main k).1 (main (k + 1)).1 (up k (hlt k))
      push_cast
      linarith
  have hp := two_zpow_pos (K := K) (-1074)
  obtain ⟨k, hk⟩ := Archimedean.arch (ceiling64 rate) hp
  rw [nsmul_eq_mul] at hk
  exact absurd (hlt k) (not_lt.2 (hk.trans (hgrow k)))

variable {V : Type} [DecidableEq V]

/-- With a limit of at most 1, something drifts as soon as two nodes are apart. -/
theorem drifts_iff_apart {g : Graph V (Val K)} {attr : String} {m t : K} (hm : m ≤ 1) :
    Drifts g attr m t ↔ ∃ a ∈ g.nodes, ∃ b ∈ g.nodes, ¬ Linked (heavyEdges g attr t) a b := by
  have hone : ∀ a ∈ g.nodes, m ≤ ((componentOf g.nodes (heavyEdges g attr t) a).ncard : K) := by
    intro a ha
    refine hm.trans ?_
    have hfin : (componentOf g.nodes (heavyEdges g attr t) a).Finite :=
      (List.finite_toSet g.nodes).subset (fun x hx => hx.1)
    have : 1 ≤ (componentOf g.nodes (heavyEdges g attr t) a).ncard :=
      (Set.ncard_pos hfin).2 ⟨a, ha, .refl _ _⟩
    exact_mod_cast this
  constructor
  · rintro ⟨a, ha, b, hb, hl, _⟩; exact ⟨a, ha, b, hb, hl⟩
  · rintro ⟨a, ha, b, hb, hl⟩; exact ⟨a, ha, b, hb, hl, hone a ha, hone b hb⟩

/-- C66.  With a limit of at most 1, floats and a positive learning rate, it never returns exactly when the edges whose weights
reach the ceiling link all the nodes. -/
theorem floatsam64_diverges_iff {g : Graph V (Val K)} (h : g.WF) (hd : g.directed = false) (he : g.edgesData ≠ [])
    {attr : String} (hw : Weighted g attr) {given : Option K} {m : K} (hm : DrifterLimit g given m) (hm1 : m ≤ 1)
    {o : OnEpoch K} (ho : o ≠ .notCallable) (hq : o.Quiet) {start rate : K} (hrate : (2 : K) ^ (-1074 : ℤ) ≤ rate)
    (hs : IsFloat64 start) (h0 : 0 ≤ start) (h1 : start ≤ ceiling64 rate) :
    (∀ fuel, (floatsamR round64 g start rate given attr o fuel).2 = .error .diverges) ↔
      ∀ a ∈ g.nodes, ∀ b ∈ g.nodes, Linked (heavyEdges g attr (ceiling64 rate)) a b := by
  obtain ⟨hk, n, hn⟩ := steps64_ceiling hrate hs h0 h1
  rw [floatsamR_diverges_iff round64 h hd he hw hm ho hq start rate]
  constructor
  · intro hno a ha b hb
    have := hno n
    rw [hn (n + 1) (by omega), drifts_iff_apart hm1] at this
    push Not at this
    exact this a ha b hb
  · intro hall j
    exact not_drifts_of_le (hk (j + 1)).2.1 hall

/-- C66.  With any limit, it returns exactly when one of the thresholds below the ceiling, or the ceiling, makes two components of
the limit order drift; there are finitely many of these thresholds. -/
theorem floatsam64_returns_iff {g : Graph V (Val K)} (h : g.WF) (hd : g.directed = false) (he : g.edgesData ≠ [])
    {attr : String} (hw : Weighted g attr) {given : Option K} {m : K} (hm : DrifterLimit g given m)
    {o : OnEpoch K} (ho : o ≠ .notCallable) (hq : o.Quiet) {start rate : K} (hrate : (2 : K) ^ (-1074 : ℤ) ≤ rate)
    (hs : IsFloat64 start) (h0 : 0 ≤ start) (h1 : start ≤ ceiling64 rate) :
    ∃ n, steps round64 start rate n = ceiling64 rate ∧
      ((¬ ∀ fuel, (floatsamR round64 g start rate given attr o fuel).2 = .error .diverges) ↔
        ∃ k ≤ n, Drifts g attr m (steps round64 start rate (k + 1))) := by
  obtain ⟨hk, n, hn⟩ := steps64_ceiling hrate hs h0 h1
  refine ⟨n, hn n le_rfl, ?_⟩
  rw [floatsamR_diverges_iff round64 h hd he hw hm ho hq start rate]
  push Not
  constructor
  · rintro ⟨j, hj⟩
    by_cases hjn : j ≤ n
    · exact ⟨j, hjn, hj⟩
    · rw [hn (j + 1) (by omega), ← hn (n + 1) (by omega)] at hj
      exact ⟨n, le_rfl, hj⟩
  · rintro ⟨k, _, hk⟩; exact ⟨k, hk⟩

end floats

/-- C66, a case: with a learning rate of 1 the ceiling is `2 ^ 53`, and with 3 it is `2 ^ 55`; the default rate 0.01 is between
`2 ^ (-7)` and `2 ^ (-6)` and its ceiling is `2 ^ 47`.  Two nodes linked by an edge of weight `2 ^ 53 - 1` are told apart, whereas
with a weight of `2 ^ 53` the learner never returns. -/
theorem ceiling64_sample :
    ceiling64 (1 : ℚ) = 2 ^ 53 ∧ ceiling64 (3 : ℚ) = 2 ^ 55 ∧ ceiling64 (round64 (1 / 100 : ℚ)) = 2 ^ 47 ∧
    (∀ fuel, (floatsamR round64 (tie (2 ^ 53)) 0 1 (some 1) "weight" .none fuel).2 = .error .diverges) ∧
    ¬ ∀ fuel, (floatsamR round64 (tie (2 ^ 53 - 1)) 0 1 (some 1) "weight" .none fuel).2 = .error .diverges := by
  have c1 : ceiling64 (1 : ℚ) = 2 ^ 53 := by decide +kernel
  have hw : ∀ x, Weighted (tie x) "weight" := by
    intro x e he
    have : e = (0, 1, [(.str "weight", .num x)]) := List.mem_singleton.1 he
    subst this
    exact ⟨x, rfl⟩
  have hrate : (2 : ℚ) ^ (-1074 : ℤ) ≤ 1 := zpow_le_one_of_nonpos₀ (by norm_num) (by norm_num)
  have hz : IsFloat64 (0 : ℚ) := ⟨0, 0, by norm_num, by norm_num, by norm_num⟩
  refine ⟨c1, by decide +kernel, by decide +kernel, ?_, ?_⟩
  · rw [floatsam64_diverges_iff (tie_wf _) rfl (by decide +kernel) (hw _) (.inl rfl) le_rfl (by simp) (by intro f hf; cases hf)
      hrate hz le_rfl (by rw [c1]; norm_num), c1]
    have h1 : heavyEdges (tie (2 ^ 53)) "weight" (2 ^ 53) = [(0, 1)] := by decide +kernel
    rw [h1]
    have h01 : Linked [((0 : Int), (1 : Int))] 0 1 := .of_mem (by simp)
    intro a ha b hb
    have hn : (tie (2 ^ 53)).nodes = [0, 1] := rfl
    rw [hn] at ha hb
    simp only [List.mem_cons, List.not_mem_nil, or_false] at ha hb
    rcases ha with rfl | rfl <;> rcases hb with rfl | rfl
    · exact .refl _ _
    · exact h01
    · exact h01.symm
    · exact .refl _ _
  · rw [floatsam64_diverges_iff (tie_wf _) rfl (by decide +kernel) (hw _) (.inl rfl) le_rfl (by simp) (by intro f hf; cases hf)
      hrate hz le_rfl (by rw [c1]; norm_num), c1]
    have h1 : heavyEdges (tie (2 ^ 53 - 1)) "weight" (2 ^ 53) = [] := by decide +kernel
    rw [h1]
    intro hall
    have := linked_nil.1 (hall 0 (by decide) 1 (by decide))
    exact absurd this (by decide)

end Pelote
