import Verif.Props.LearnCeiling
import Verif.Props.LearnUse
import Verif.Lemmas.CompensatedSum

/-! C66: where the thresholds tried in floating point stop, from any starting threshold. -/
set_option linter.unusedSectionVars false
namespace Pelote

section floats
variable {K : Type} [Field K] [LinearOrder K] [IsStrictOrderedRing K] [FloorRing K]

theorem OnGrid.gap {e : ℤ} {x y : K} (hx : OnGrid e x) (hy : OnGrid e y) (h : x < y) : x + 2 ^ e ≤ y := by
  by_contra hc
  push Not at hc
  refine h.ne (hx.eq hy ?_)
  rw [abs_sub_comm, abs_of_pos (by linarith)]
  linarith

theorem le_ulpExp {x : K} {e : ℤ} (h : (2 : K) ^ (e + 52) ≤ |x|) : e ≤ ulpExp x := by
  have hpos : 0 < |x| := (two_zpow_pos _).trans_le h
  have : e + 52 ≤ Int.log 2 |x| := (Int.zpow_le_iff_le_log (b := 2) (by norm_num) hpos).1 (by exact_mod_cast h)
  unfold ulpExp
  omega

theorem IsFloat64.big {t : K} (ht : IsFloat64 t) {e : ℤ} (h : (2 : K) ^ (e + 52) ≤ |t|) : OnGrid e t :=
  ht.onGrid.mono (le_ulpExp h)

theorem zpow_isFloat {e : ℤ} (he : -1074 ≤ e) : IsFloat64 ((2 : K) ^ e) := ⟨1, e, by norm_num, he, by push_cast; ring⟩

theorem IsFloat64.neg {t : K} : IsFloat64 t → IsFloat64 (-t)
  | ⟨m, e, h1, h2, h3⟩ => ⟨-m, e, by rwa [abs_neg], h2, by rw [h3]; push_cast; ring⟩

theorem ulpExp_small {x : K} {e : ℤ} (h0 : x ≠ 0) (he : -1074 ≤ e) (h : |x| < 2 ^ (e + 53)) : ulpExp x ≤ e := by
  have : Int.log 2 |x| < e + 53 := (Int.lt_zpow_iff_log_lt (b := 2) (by norm_num) (abs_pos.2 h0)).1 (by exact_mod_cast h)
  unfold ulpExp
  omega

/-- Adding a positive number never gives a smaller float. -/
theorem le_round64_add {rate t : K} (hrate : 0 ≤ rate) (ht : IsFloat64 t) : t ≤ round64 (t + rate) := by
  have := round64_monotone (x := t) (y := t + rate) (by linarith)
  rwa [round64_fix ht] at this

/-- C66.  Adding the learning rate to a float changes nothing exactly when it is at least the ceiling, or less than minus the ceiling,
and, if the rate is a power of 2, a multiple of 4 times the rate. -/
theorem fixed64_iff {rate t : K} (hrate : (2 : K) ^ (-1074 : ℤ) ≤ rate) (ht : IsFloat64 t) :
    round64 (t + rate) = t ↔
      (ceiling64 rate ≤ t ∨ t < -ceiling64 rate) ∧ ((∃ l : ℤ, rate = 2 ^ l) → ∃ m : ℤ, t = m * (4 * rate)) := by
  have hpos : 0 < rate := (two_zpow_pos _).trans_le hrate
  obtain ⟨l, hl, hcase⟩ := ceiling_cases hrate
  have hp := two_zpow_pos (K := K) l
  have e1 : (2 : K) ^ (l + 1) = 2 ^ l * 2 := by rw [zpow_add₀ (by norm_num)]; norm_num
  have e2 : (2 : K) ^ (l + 2) = 2 ^ l * 4 := by rw [zpow_add₀ (by norm_num)]; norm_num
  have e53 : (2 : K) ^ (l + 53) = 2 ^ l * 2 ^ 53 := by rw [zpow_add₀ (by norm_num)]; norm_num
  have e54 : (2 : K) ^ (l + 54) = 2 ^ l * 2 ^ 54 := by rw [zpow_add₀ (by norm_num)]; norm_num
  have hnear : ∀ y, IsFloat64 y → |round64 (t + rate) - (t + rate)| ≤ |y - (t + rate)| := fun y hy => (round64_nearest _ hy).1
  constructor
  · intro hfix
    have herr := abs_round64_sub (t + rate)
    rw [hfix, show t - (t + rate) = -rate by ring, abs_neg, abs_of_pos hpos] at herr
    have hC : ceiling64 rate ≤ t ∨ t < -ceiling64 rate := by
      by_contra hn
      push Not at hn
      obtain ⟨n1, n2⟩ := hn
      rcases le_or_gt 0 t with h0 | h0
      · exact absurd hfix (lt_round64_add hrate ht h0 n1).ne'
      · have hx0 : t + rate ≠ 0 := by
          intro h
          rw [h, round64_zero] at hfix
          exact h0.ne hfix.symm
        rcases hcase with ⟨hr, hc⟩ | ⟨h1, h2, hc⟩
        · have hx : |t + rate| < 2 ^ (l + 53) := by
            rw [abs_lt]
            rw [hc] at n2
            constructor
            · linarith
            · rw [hr, e53]; nlinarith
          have := zpow_le_zpow_right₀ (a := (2 : K)) (by norm_num) (ulpExp_small hx0 hl hx)
          rw [hr] at herr this
          linarith
        · have hx : |t + rate| < 2 ^ (l + 1 + 53) := by
            rw [show l + 1 + 53 = l + 54 by ring, abs_lt]
            rw [hc] at n2
            constructor
            · linarith
            · rw [e54]; rw [e1] at h2; nlinarith
          have := zpow_le_zpow_right₀ (a := (2 : K)) (by norm_num) (ulpExp_small hx0 (by omega) hx)
          rw [e1] at this
          linarith
    refine ⟨hC, ?_⟩
    rintro ⟨l', hl'⟩
    rcases hcase with ⟨hr, hc⟩ | ⟨h1, h2, hc⟩
    swap
    · rw [hl'] at h1 h2
      have := (zpow_lt_zpow_iff_right₀ (by norm_num : (1 : K) < 2)).1 h1
      have := (zpow_lt_zpow_iff_right₀ (by norm_num : (1 : K) < 2)).1 h2
      omega
    rw [hc] at hC
    suffices OnGrid (l + 2) t by
      obtain ⟨m, hm⟩ := this
      exact ⟨m, by rw [hr, hm, e2]; ring⟩
    have hge : (2 : K) ^ (l + 53) ≤ |t| := by
      rcases hC with h | h
      · exact h.trans (le_abs_self t)
      · rw [abs_of_neg (by linarith [two_zpow_pos (K := K) (l + 53)])]; linarith
    rcases le_or_gt ((2 : K) ^ (l + 54)) |t| with hbig | hsmall
    · exact ht.big (by rwa [show l + 2 + 52 = l + 54 by ring])
    have hg : OnGrid (l + 1) t := ht.big (by rwa [show l + 1 + 52 = l + 53 by ring])
    have hy : IsFloat64 (t + 2 ^ (l + 1)) := by
      have hgy : OnGrid (l + 1) (t + 2 ^ (l + 1)) := hg.add ⟨1, by push_cast; ring⟩
      have htop : OnGrid (l + 1) ((2 : K) ^ (l + 54)) := OnGrid.mono (e := l + 54) (by omega) ⟨1, by push_cast; ring⟩
      have hle : t + 2 ^ (l + 1) ≤ 2 ^ (l + 54) := hg.gap htop (abs_lt.1 hsmall).2
      rcases hle.eq_or_lt with he | hlt
      · rw [he]; exact zpow_isFloat (by omega)
      · refine hgy.isFloat (by omega) ?_
        rw [show l + 1 + 53 = l + 54 by ring, abs_lt]
        exact ⟨by linarith [(abs_lt.1 hsmall).1, two_zpow_pos (K := K) (l + 1)], hlt⟩
    have htie := (round64_nearest (t + rate) hy).2 (by rw [hfix, e1]; intro h; linarith) (by
      rw [hfix, hr, e1, show t + 2 ^ l * 2 - (t + 2 ^ l) = 2 ^ l by ring, show t - (t + 2 ^ l) = -(2 ^ l : K) by ring, abs_neg])
    obtain ⟨m, ⟨n, hn⟩, hm⟩ := htie
    rw [hfix] at hm
    have hu : l + 1 ≤ ulpExp (t + rate) := by
      refine le_ulpExp ?_
      rw [show l + 1 + 52 = l + 53 by ring]
      rcases hC with h | h
      · exact (h.trans (by linarith)).trans (le_abs_self _)
      · have hb : OnGrid (l + 1) (-(2 : K) ^ (l + 53)) := OnGrid.mono (e := l + 53) (by omega) ⟨-1, by push_cast; ring⟩
        have := hg.gap hb h
        refine le_trans ?_ (neg_le_abs _)
        rw [e1] at this
        rw [hr]
        linarith
    generalize ulpExp (t + rate) = u at hm hu
    refine OnGrid.mono (e := u + 1) (by omega) ⟨n, ?_⟩
    rw [hm, hn, zpow_add₀ (by norm_num)]
    push_cast
    ring
  · rintro ⟨hC, hmul⟩
    by_contra hne
    have hlt : t < round64 (t + rate) := lt_of_le_of_ne (le_round64_add hpos.le ht) (Ne.symm hne)
    have hyf := round64_isFloat (t + rate)
    have hle : round64 (t + rate) ≤ t + 2 * rate := by
      have := hnear t ht
      rw [show t - (t + rate) = -rate by ring, abs_neg, abs_of_pos hpos] at this
      linarith [(abs_le.1 this).2]
    have hev := (round64_nearest (t + rate) ht).2 (Ne.symm hne)
    generalize hyd : round64 (t + rate) = y at *
    rcases hcase with ⟨hr, hc⟩ | ⟨h1, h2, hc⟩
    · rw [hc] at hC
      obtain ⟨m, hm⟩ := hmul ⟨l, hr⟩
      have hg : OnGrid (l + 2) t := ⟨m, by rw [hm, hr, e2]; ring⟩
      have hfar : (2 : K) ^ (l + 53) ≤ |t + rate| ∧ (2 : K) ^ (l + 53) ≤ |y| := by
        rcases hC with h | h
        · exact ⟨(h.trans (by linarith)).trans (le_abs_self _), (h.trans hlt.le).trans (le_abs_self _)⟩
        · have hb : OnGrid (l + 2) (-(2 : K) ^ (l + 53)) := OnGrid.mono (e := l + 53) (by omega) ⟨-1, by push_cast; ring⟩
          have := hg.gap hb h
          rw [e2] at this
          rw [hr] at hle ⊢
          exact ⟨le_trans (by linarith) (neg_le_abs _), le_trans (by linarith) (neg_le_abs _)⟩
      have hyg : OnGrid (l + 1) y := hyf.big (by rw [show l + 1 + 52 = l + 53 by ring]; exact hfar.2)
      have hgap := (hg.mono (by omega : l + 1 ≤ l + 2)).gap hyg hlt
      have hy : y = t + 2 ^ (l + 1) := le_antisymm (by rw [e1]; rw [hr] at hle; linarith) hgap
      obtain ⟨n, ⟨k, hk⟩, hn⟩ := hev (by
        rw [hy, hr, e1, show t + 2 ^ l * 2 - (t + 2 ^ l) = 2 ^ l by ring, show t - (t + 2 ^ l) = -(2 ^ l : K) by ring, abs_neg])
      have hu : l + 1 ≤ ulpExp (t + rate) := le_ulpExp (by rw [show l + 1 + 52 = l + 53 by ring]; exact hfar.1)
      have hy2 : OnGrid (l + 2) y := by
        refine OnGrid.mono (e := ulpExp (t + rate) + 1) (by omega) ⟨k, ?_⟩
        rw [hn, hk, zpow_add₀ (by norm_num)]
        push_cast
        ring
      have := hg.gap hy2 hlt
      rw [hy, e1, e2] at this
      linarith
    · rw [hc] at hC
      rw [e1] at h2
      have hg : OnGrid (l + 2) t := by
        refine ht.big ?_
        rw [show l + 2 + 52 = l + 54 by ring]
        rcases hC with h | h
        · exact h.trans (le_abs_self _)
        · exact le_trans (by linarith) (neg_le_abs _)
      have hyg : OnGrid (l + 2) y := by
        refine hyf.big ?_
        rw [show l + 2 + 52 = l + 54 by ring]
        rcases hC with h | h
        · exact (h.trans hlt.le).trans (le_abs_self _)
        · have hb : OnGrid (l + 2) (-(2 : K) ^ (l + 54)) := OnGrid.mono (e := l + 54) (by omega) ⟨-1, by push_cast; ring⟩
          have := hg.gap hb h
          rw [e2] at this
          exact le_trans (by linarith) (neg_le_abs _)
      have := hg.gap hyg hlt
      rw [e2] at this
      linarith

/-- The thresholds at which the learner no longer moves. -/
def Fixed64 (start rate t : K) : Prop := IsFloat64 t ∧ start ≤ t ∧ round64 (t + rate) = t

/-- C66.  From any starting threshold, the thresholds tried increase up to the first float that adding the learning rate leaves
unchanged, and stay there. -/
theorem steps64_limit [Archimedean K] {start rate : K} (hrate : (2 : K) ^ (-1074 : ℤ) ≤ rate) (hs : IsFloat64 start) :
    ∃ T, IsLeast {t | Fixed64 start rate t} T ∧
      (∀ k, steps round64 start rate k ≤ T ∧ (steps round64 start rate k < T →
        steps round64 start rate k < steps round64 start rate (k + 1))) ∧
      ∃ n, ∀ k, n ≤ k → steps round64 start rate k = T := by
  have hpos : 0 < rate := (two_zpow_pos _).trans_le hrate
  have hfl : ∀ k, IsFloat64 (steps round64 start rate k) := by
    intro k
    cases k with
    | zero => exact hs
    | succ k => exact round64_isFloat _
  have hup : ∀ k, steps round64 start rate k ≤ steps round64 start rate (k + 1) := fun k => le_round64_add hpos.le (hfl k)
  have hge : ∀ k, start ≤ steps round64 start rate k := by
    intro k
    induction k with
    | zero => exact le_rfl
    | succ k ih => exact ih.trans (hup k)
  have hbound : ∀ t, Fixed64 start rate t → ∀ k, steps round64 start rate k ≤ t := by
    rintro t ⟨-, h2, h3⟩ k
    induction k with
    | zero => exact h2
    | succ k ih =>
      have := round64_monotone (x := steps round64 start rate k + rate) (y := t + rate) (by linarith)
      rwa [h3] at this
  -- some float above is fixed
  obtain ⟨M, hM⟩ : ∃ M, Fixed64 start rate M := by
    obtain ⟨l, hl, hcase⟩ := ceiling_cases hrate
    obtain ⟨n, hn⟩ := pow_unbounded_of_one_lt (start / 2 ^ (l + 54)) (by norm_num : (1 : K) < 2)
    have hp := two_zpow_pos (K := K) l
    have e2 : (2 : K) ^ (l + 2) = 2 ^ l * 4 := by rw [zpow_add₀ (by norm_num)]; norm_num
    refine ⟨2 ^ (l + 54 + n), zpow_isFloat (by omega), ?_, (fixed64_iff hrate (zpow_isFloat (by omega))).2 ⟨.inl ?_, ?_⟩⟩
    · rw [div_lt_iff₀ (two_zpow_pos _)] at hn
      rw [zpow_add₀ (by norm_num), zpow_natCast, mul_comm]
      exact hn.le
    · rcases hcase with ⟨-, hc⟩ | ⟨-, -, hc⟩ <;> rw [hc]
      · exact zpow_le_zpow_right₀ (by norm_num) (by omega)
      · exact zpow_le_zpow_right₀ (by norm_num) (by omega)
    · rintro ⟨l', hl'⟩
      rcases hcase with ⟨hr, -⟩ | ⟨h1, h2, -⟩
      · refine ⟨2 ^ (52 + n), ?_⟩
        rw [hr, show (4 : K) * 2 ^ l = 2 ^ (l + 2) by rw [e2]; ring, show l + 54 + (n : ℤ) = (52 + n : ℕ) + (l + 2) by push_cast; ring,
          zpow_add₀ (by norm_num), zpow_natCast]
        push_cast
        ring
      · rw [hl'] at h1 h2
        have := (zpow_lt_zpow_iff_right₀ (by norm_num : (1 : K) < 2)).1 h1
        have := (zpow_lt_zpow_iff_right₀ (by norm_num : (1 : K) < 2)).1 h2
        omega
  -- the thresholds cannot increase for ever
  obtain ⟨n, hn⟩ : ∃ n, steps round64 start rate (n + 1) = steps round64 start rate n := by
    by_contra hno
    push Not at hno
    have hgrow : ∀ k : ℕ, start + (k : K) * 2 ^ (-1074 : ℤ) ≤ steps round64 start rate k := by
      intro k
      induction k with
      | zero => simp [steps]
      | succ k ih =>
        have := float_succ (hfl k) (hfl (k + 1)) (lt_of_le_of_ne (hup k) (Ne.symm (hno k)))
        push_cast
        linarith
    obtain ⟨k, hk⟩ := Archimedean.arch (M - start + 1) (two_zpow_pos (K := K) (-1074))
    rw [nsmul_eq_mul] at hk
    linarith [hgrow k, hbound M hM k]
  have hstay : ∀ k, n ≤ k → steps round64 start rate k = steps round64 start rate n := by
    intro k hk
    induction k, hk using Nat.le_induction with
    | base => rfl
    | succ k _ ih => show round64 (_ + rate) = _; rw [ih]; exact hn
  have hfix : Fixed64 start rate (steps round64 start rate n) := ⟨hfl n, hge n, hn⟩
  refine ⟨steps round64 start rate n, ⟨hfix, fun t ht => hbound t ht n⟩, fun k => ⟨hbound _ hfix k, fun hlt => ?_⟩, n, hstay⟩
  refine lt_of_le_of_ne (hup k) fun he => ?_
  exact absurd (hbound _ ⟨hfl k, hge k, he.symm⟩ n) (not_le.2 hlt)

/-- C66.  From a starting threshold between minus the ceiling and the ceiling, the first fixed threshold is the ceiling. -/
theorem fixed64_ceiling {start rate : K} (hrate : (2 : K) ^ (-1074 : ℤ) ≤ rate) (h0 : -ceiling64 rate ≤ start)
    (h1 : start ≤ ceiling64 rate) : IsLeast {t | Fixed64 start rate t} (ceiling64 rate) := by
  refine ⟨⟨ceiling64_isFloat hrate, h1, ceiling64_fixed hrate⟩, ?_⟩
  rintro t ⟨ht, h2, h3⟩
  rcases ((fixed64_iff hrate ht).1 h3).1 with h | h
  · exact h
  · linarith

/-- C66.  Beyond, if the learning rate is not a power of 2 or the starting threshold is a multiple of 4 times the rate, the first fixed
threshold is the starting one: the learner tries no other. -/
theorem fixed64_start {start rate : K} (hrate : (2 : K) ^ (-1074 : ℤ) ≤ rate) (hs : IsFloat64 start)
    (h : ceiling64 rate ≤ start ∨ start < -ceiling64 rate)
    (h4 : (∃ l : ℤ, rate = 2 ^ l) → ∃ m : ℤ, start = m * (4 * rate)) : IsLeast {t | Fixed64 start rate t} start :=
  ⟨⟨hs, le_rfl, (fixed64_iff hrate hs).2 ⟨h, h4⟩⟩, fun _ ht => ht.2.1⟩

variable {V : Type} [DecidableEq V]

/-- C66.  With a limit of at most 1, floats, a positive learning rate and any starting threshold, it never returns exactly when the edges
whose weights are at least the first fixed threshold connect the graph. -/
theorem floatsam64_diverges_all {g : Graph V (Val K)} [Archimedean K] (h : g.WF) (hd : g.directed = false) (he : g.edgesData ≠ [])
    {attr : String} (hw : Weighted g attr) {given : Option K} {m : K} (hm : DrifterLimit g given m) (hm1 : m ≤ 1)
    {o : OnEpoch K} (ho : o ≠ .notCallable) (hq : o.Quiet) {start rate T : K} (hrate : (2 : K) ^ (-1074 : ℤ) ≤ rate)
    (hs : IsFloat64 start) (hT : IsLeast {t | Fixed64 start rate t} T) :
    (∀ fuel, (floatsamR round64 g start rate given attr o fuel).2 = .error .diverges) ↔
      ∀ a ∈ g.nodes, ∀ b ∈ g.nodes, Linked (heavyEdges g attr T) a b := by
  obtain ⟨T', hT', hk, n, hn⟩ := steps64_limit hrate hs
  obtain rfl := hT.unique hT'
  rw [floatsamR_diverges_iff round64 h hd he hw hm ho hq start rate]
  constructor
  · intro hno a ha b hb
    have := hno n
    rw [hn (n + 1) (by omega), drifts_iff_apart hm1] at this
    push Not at this
    exact this a ha b hb
  · intro hall j
    exact not_drifts_of_le (hk (j + 1)).1 hall

/-- C66.  With any limit, it returns exactly when one of the finitely many thresholds up to the first fixed one makes two components of
the limit order drift. -/
theorem floatsam64_returns_all {g : Graph V (Val K)} [Archimedean K] (h : g.WF) (hd : g.directed = false) (he : g.edgesData ≠ [])
    {attr : String} (hw : Weighted g attr) {given : Option K} {m : K} (hm : DrifterLimit g given m)
    {o : OnEpoch K} (ho : o ≠ .notCallable) (hq : o.Quiet) {start rate T : K} (hrate : (2 : K) ^ (-1074 : ℤ) ≤ rate)
    (hs : IsFloat64 start) (hT : IsLeast {t | Fixed64 start rate t} T) :
    ∃ n, steps round64 start rate n = T ∧
      ((¬ ∀ fuel, (floatsamR round64 g start rate given attr o fuel).2 = .error .diverges) ↔
        ∃ k ≤ n, Drifts g attr m (steps round64 start rate (k + 1))) := by
  obtain ⟨T', hT', -, n, hn⟩ := steps64_limit hrate hs
  obtain rfl := hT.unique hT'
  refine ⟨n, hn n le_rfl, ?_⟩
  rw [floatsamR_diverges_iff round64 h hd he hw hm ho hq start rate]
  push Not
  constructor
  · rintro ⟨j, hj⟩
    by_cases hjn : j ≤ n
    · exact ⟨j, hjn, hj⟩
    · rw [hn (j + 1) (by omega), ← hn (n + 1) (by omega)] at hj
      exact ⟨n, le_rfl, hj⟩
  · rintro ⟨k, _, hk⟩; exact ⟨k, hk⟩

/-- With a rounding that keeps the order and is done once and for all, thresholds tried after the first are not above it when the learning
rate is not positive. -/
theorem steps_down {rnd : K → K} (hmono : ∀ x y, x ≤ y → rnd x ≤ rnd y) (hidem : ∀ x, rnd (rnd x) = rnd x) {rate : K}
    (hrate : rate ≤ 0) (start : K) (j : Nat) : steps rnd start rate (j + 1) ≤ steps rnd start rate 1 := by
  induction j with
  | zero => exact le_rfl
  | succ j ih =>
    refine le_trans ?_ ih
    have h1 : steps rnd start rate (j + 1) = rnd (steps rnd start rate (j + 1)) := (hidem _).symm
    calc steps rnd start rate (j + 2) = rnd (steps rnd start rate (j + 1) + rate) := rfl
      _ ≤ rnd (steps rnd start rate (j + 1)) := hmono _ _ (by linarith)
      _ = steps rnd start rate (j + 1) := h1.symm

/-- C61.  With a learning rate which is not positive and a limit of at most 1, whatever the rounding, either the first step separates two
nodes and the starting threshold is returned, or it never returns: no threshold is ever learned. -/
theorem floatsamR_negative {rnd : K → K} (hmono : ∀ x y, x ≤ y → rnd x ≤ rnd y) (hidem : ∀ x, rnd (rnd x) = rnd x)
    {g : Graph V (Val K)} (h : g.WF) (hd : g.directed = false) (he : g.edgesData ≠ [])
    {attr : String} (hw : Weighted g attr) {given : Option K} {m : K} (hm : DrifterLimit g given m) (hm1 : m ≤ 1)
    {o : OnEpoch K} (ho : o ≠ .notCallable) (hq : o.Quiet) (start : K) {rate : K} (hrate : rate ≤ 0) :
    ((∀ fuel, (floatsamR rnd g start rate given attr o fuel).2 = .error .diverges) ↔
      ∀ a ∈ g.nodes, ∀ b ∈ g.nodes, Linked (heavyEdges g attr (rnd (start + rate))) a b) ∧
    ∀ fuel tr t, floatsamR rnd g start rate given attr o fuel = (tr, .ok t) → t = start := by
  have hfirst : ∀ j, Drifts g attr m (steps rnd start rate (j + 1)) → Drifts g attr m (steps rnd start rate 1) := by
    intro j hj
    by_contra hno
    rw [drifts_iff_apart hm1] at hno
    push Not at hno
    exact not_drifts_of_le (steps_down hmono hidem hrate start j) hno hj
  constructor
  · rw [floatsamR_diverges_iff rnd h hd he hw hm ho hq start rate]
    constructor
    · intro hno a ha b hb
      have := hno 0
      rw [drifts_iff_apart hm1] at this
      push Not at this
      exact this a ha b hb
    · intro hall j hj
      exact not_drifts_of_le le_rfl hall (hfirst j hj)
  · intro fuel tr t hr
    obtain ⟨k, rfl, hk, hj, -⟩ := floatsamR_returns rnd h hd he hw hm ho hq start rate hr
    cases k with
    | zero => rfl
    | succ k => exact absurd (hfirst _ hk) (hj 0 (by omega))

end floats

/-- C61, a case with floats: from 5 with a rate of -1, an edge of weight 3 makes it return 5 at once, and one of weight 4 makes it loop
forever. -/
theorem floatsam64_negative_rate :
    (∀ fuel tr t, floatsamR round64 (tie 3) 5 (-1) (some 1) "weight" .none fuel = (tr, .ok t) → t = 5) ∧
    (¬ ∀ fuel, (floatsamR round64 (tie 3) 5 (-1) (some 1) "weight" .none fuel).2 = .error .diverges) ∧
    ∀ fuel, (floatsamR round64 (tie 4) 5 (-1) (some 1) "weight" .none fuel).2 = .error .diverges := by
  have hw : ∀ x, Weighted (tie x) "weight" := by
    intro x e he
    have : e = (0, 1, [(.str "weight", .num x)]) := List.mem_singleton.1 he
    subst this
    exact ⟨x, rfl⟩
  have key := fun x => floatsamR_negative (rnd := round64 (K := ℚ)) (fun _ _ => round64_monotone)
    (fun _ => round64_fix (round64_isFloat _)) (tie_wf x) rfl (List.cons_ne_nil _ _) (hw x) (given := some 1) (.inl rfl)
    le_rfl (o := .none) (by simp) (by intro f hf; cases hf) 5 (rate := -1) (by norm_num)
  have r4 : round64 ((5 : ℚ) + -1) = 4 := by decide +kernel
  refine ⟨(key 3).2, ?_, ?_⟩
  · rw [(key 3).1, r4]
    have h1 : heavyEdges (tie 3) "weight" 4 = [] := by decide +kernel
    rw [h1]
    intro hall
    exact absurd (linked_nil.1 (hall 0 (by decide) 1 (by decide))) (by decide)
  · rw [(key 4).1, r4]
    have h1 : heavyEdges (tie 4) "weight" 4 = [(0, 1)] := by decide +kernel
    rw [h1]
    have h01 : Linked [((0 : Int), (1 : Int))] 0 1 := .of_mem (by simp)
    intro a ha b hb
    have hn : (tie 4).nodes = [0, 1] := rfl
    rw [hn] at ha hb
    simp only [List.mem_cons, List.not_mem_nil, or_false] at ha hb
    rcases ha with rfl | rfl <;> rcases hb with rfl | rfl
    · exact .refl _ _
    · exact h01
    · exact h01.symm
    · exact .refl _ _

/-- C66, a case: with a learning rate of 1 and an edge of weight 3, the learner returns from `- 2 ^ 53` and never from `- 2 ^ 54`, which
it does not leave. -/
theorem floatsam64_negative_start :
    (∀ fuel, (floatsamR round64 (tie 3) (-2 ^ 54) 1 (some 1) "weight" .none fuel).2 = .error .diverges) ∧
    ¬ ∀ fuel, (floatsamR round64 (tie 3) (-2 ^ 53) 1 (some 1) "weight" .none fuel).2 = .error .diverges := by
  have c1 : ceiling64 (1 : ℚ) = 2 ^ 53 := by decide +kernel
  have hw : Weighted (tie 3) "weight" := by
    intro e he
    have : e = (0, 1, [(.str "weight", .num 3)]) := List.mem_singleton.1 he
    subst this
    exact ⟨3, rfl⟩
  have hrate : (2 : ℚ) ^ (-1074 : ℤ) ≤ 1 := zpow_le_one_of_nonpos₀ (by norm_num) (by norm_num)
  have f54 : IsFloat64 (-2 ^ 54 : ℚ) := ⟨-1, 54, by norm_num, by norm_num, by norm_num⟩
  have f53 : IsFloat64 (-2 ^ 53 : ℚ) := ⟨-1, 53, by norm_num, by norm_num, by norm_num⟩
  constructor
  · rw [floatsam64_diverges_all (tie_wf _) rfl (by decide +kernel) hw (.inl rfl) le_rfl (by simp) (by intro f hf; cases hf) hrate f54
      (fixed64_start hrate f54 (.inr (by rw [c1]; norm_num)) fun _ => ⟨-2 ^ 52, by norm_num⟩)]
    have h1 : heavyEdges (tie 3) "weight" (-2 ^ 54) = [(0, 1)] := by decide +kernel
    rw [h1]
    have h01 : Linked [((0 : Int), (1 : Int))] 0 1 := .of_mem (by simp)
    intro a ha b hb
    have hn : (tie 3).nodes = [0, 1] := rfl
    rw [hn] at ha hb
    simp only [List.mem_cons, List.not_mem_nil, or_false] at ha hb
    rcases ha with rfl | rfl <;> rcases hb with rfl | rfl
    · exact .refl _ _
    · exact h01
    · exact h01.symm
    · exact .refl _ _
  · rw [floatsam64_diverges_all (tie_wf _) rfl (by decide +kernel) hw (.inl rfl) le_rfl (by simp) (by intro f hf; cases hf) hrate f53
      (fixed64_ceiling hrate (by rw [c1]) (by rw [c1]; norm_num)), c1]
    have h1 : heavyEdges (tie 3) "weight" (2 ^ 53) = [] := by decide +kernel
    rw [h1]
    intro hall
    have := linked_nil.1 (hall 0 (by decide) 1 (by decide))
    exact absurd this (by decide)

end Pelote
