import Verif.Props.Learn
import Verif.Lemmas.Binary64

/-! Property C66: the floatsam algorithm in floating point. -/
namespace Pelote
variable {V K : Type} [DecidableEq V] [Field K] [LinearOrder K] [IsStrictOrderedRing K]

omit [IsStrictOrderedRing K] in
theorem steps_shift (rnd : K → K) (start rate : K) (k : Nat) :
    steps rnd (rnd (start + rate)) rate k = steps rnd start rate (k + 1) := by
  induction k with
  | zero => rfl
  | succ k ih => show rnd (_ + rate) = rnd (_ + rate); rw [ih]

theorem floatsamLoopR_stops (rnd : K → K) {g : Graph V (Val K)} (h : g.WF) (hd : g.directed = false)
    {attr : String} (hw : Weighted g attr) {o : OnEpoch K} (ho : o.Quiet) (rate m : K) {k fuel : Nat} (hk : k < fuel)
    (n : Nat) (t : K) (h1 : Drifts g attr m (steps rnd t rate (k + 1)))
    (h2 : ∀ j < k, ¬ Drifts g attr m (steps rnd t rate (j + 1))) :
    ∃ tr, floatsamLoopR rnd g rate m attr o fuel n t = (tr, .ok (steps rnd t rate k)) ∧
      ((∃ f, o = .function f) → tr.map FloatsamEpoch.threshold = (List.range (k + 1)).map (fun j => steps rnd t rate (j + 1))) := by
  induction k generalizing fuel n t with
  | zero =>
    obtain ⟨fuel, rfl⟩ : ∃ f, fuel = f + 1 := ⟨fuel - 1, by omega⟩
    obtain ⟨c, hc, hs, _⟩ := floatsamLoopR_step rnd h hd hw ho rate m fuel n t
    rw [hs h1]
    refine ⟨_, rfl, ?_⟩
    rintro ⟨f, rfl⟩; rfl
  | succ k ih =>
    obtain ⟨fuel, rfl⟩ : ∃ f, fuel = f + 1 := ⟨fuel - 1, by omega⟩
    obtain ⟨c, hc, _, hs⟩ := floatsamLoopR_step rnd h hd hw ho rate m fuel n t
    obtain ⟨tr, htr, hE⟩ := ih (fuel := fuel) (by omega) (n + 1) (rnd (t + rate)) (by rw [steps_shift]; exact h1) (by
      intro j hj
      rw [steps_shift]
      exact h2 (j + 1) (by omega))
    rw [hs (h2 0 (by omega)), htr, steps_shift]
    refine ⟨_, rfl, ?_⟩
    rintro ⟨f, rfl⟩
    rw [List.range_succ_eq_map, List.map_cons, List.map_map]
    simp only [OnEpoch.call, List.cons_append, List.nil_append, List.map_cons, hE ⟨f, rfl⟩]
    congr 1
    refine List.map_congr_left fun j _ => ?_
    rw [steps_shift]; rfl

theorem floatsamLoopR_diverges (rnd : K → K) {g : Graph V (Val K)} (h : g.WF) (hd : g.directed = false)
    {attr : String} (hw : Weighted g attr) {o : OnEpoch K} (ho : o.Quiet) (rate m : K) (fuel n : Nat) (t : K)
    (h2 : ∀ j < fuel, ¬ Drifts g attr m (steps rnd t rate (j + 1))) :
    (floatsamLoopR rnd g rate m attr o fuel n t).2 = .error .diverges := by
  induction fuel generalizing n t with
  | zero => rfl
  | succ fuel ih =>
    obtain ⟨c, hc, _, hs⟩ := floatsamLoopR_step rnd h hd hw ho rate m fuel n t
    rw [hs (h2 0 (by omega))]
    simp only
    apply ih
    intro j hj
    rw [steps_shift]
    exact h2 (j + 1) (by omega)

/-- C66.  Whatever the rounding, the result is the last threshold before the first one making two components of the
limit order drift, and the callback is given each threshold in turn. -/
theorem floatsamR_returns (rnd : K → K) {g : Graph V (Val K)} (h : g.WF) (hd : g.directed = false)
    (he : g.edgesData ≠ []) {attr : String} (hw : Weighted g attr) {given : Option K} {m : K}
    (hm : DrifterLimit g given m) {o : OnEpoch K} (ho : o ≠ .notCallable) (hq : o.Quiet) (start rate : K) {fuel : Nat}
    {tr : List (FloatsamEpoch K)} {t : K} (hr : floatsamR rnd g start rate given attr o fuel = (tr, .ok t)) :
    ∃ k : Nat, t = steps rnd start rate k ∧ Drifts g attr m (steps rnd start rate (k + 1)) ∧
      (∀ j < k, ¬ Drifts g attr m (steps rnd start rate (j + 1))) ∧
      (∀ f, o = .function f →
        tr.map FloatsamEpoch.threshold = (List.range (k + 1)).map (fun j => steps rnd start rate (j + 1))) := by
  classical
  rw [floatsamR_eq_loop rnd h hd he hm ho] at hr
  by_cases hx : ∃ k < fuel, Drifts g attr m (steps rnd start rate (k + 1))
  · have hex : ∃ k, k < fuel ∧ Drifts g attr m (steps rnd start rate (k + 1)) := hx
    obtain ⟨hk1, hk2⟩ := Nat.find_spec hex
    have hmin : ∀ j < Nat.find hex, ¬ Drifts g attr m (steps rnd start rate (j + 1)) :=
      fun j hj hc => Nat.find_min hex hj ⟨by omega, hc⟩
    obtain ⟨tr', h1, h2⟩ := floatsamLoopR_stops rnd h hd hw hq rate m hk1 0 start hk2 hmin
    rw [hr] at h1
    obtain ⟨e1, e2⟩ := Prod.mk.inj h1
    cases e2
    subst e1
    exact ⟨Nat.find hex, rfl, hk2, hmin, fun f hf => h2 ⟨f, hf⟩⟩
  · push Not at hx
    have := floatsamLoopR_diverges rnd h hd hw hq rate m fuel 0 start hx
    rw [hr] at this
    cases this

/-- Whatever the rounding, it never returns exactly when no threshold makes two components of the limit order drift. -/
theorem floatsamR_diverges_iff (rnd : K → K) {g : Graph V (Val K)} (h : g.WF) (hd : g.directed = false)
    (he : g.edgesData ≠ []) {attr : String} (hw : Weighted g attr) {given : Option K} {m : K}
    (hm : DrifterLimit g given m) {o : OnEpoch K} (ho : o ≠ .notCallable) (hq : o.Quiet) (start rate : K) :
    (∀ fuel, (floatsamR rnd g start rate given attr o fuel).2 = .error .diverges) ↔
      ∀ j : Nat, ¬ Drifts g attr m (steps rnd start rate (j + 1)) := by
  classical
  constructor
  · intro hdiv j hj
    have hex : ∃ j : Nat, Drifts g attr m (steps rnd start rate (j + 1)) := ⟨j, hj⟩
    obtain ⟨tr, htr, _⟩ := floatsamLoopR_stops rnd h hd hw hq rate m (Nat.lt_succ_self _) 0 start (Nat.find_spec hex)
      (fun j hj => Nat.find_min hex hj)
    have := hdiv (Nat.find hex).succ
    rw [floatsamR_eq_loop rnd h hd he hm ho, htr] at this
    cases this
  · intro hn fuel
    rw [floatsamR_eq_loop rnd h hd he hm ho]
    exact floatsamLoopR_diverges rnd h hd hw hq rate m fuel 0 start (fun j _ => hn j)

/-- Without two nodes left apart by the edges reaching a threshold, nothing drifts at it nor below. -/
theorem not_drifts_of_le {g : Graph V (Val K)} {attr : String} {m t T : K} (ht : t ≤ T)
    (hc : ∀ a ∈ g.nodes, ∀ b ∈ g.nodes, Linked (heavyEdges g attr T) a b) : ¬ Drifts g attr m t := by
  rintro ⟨a, ha, b, hb, hl, _⟩
  apply hl
  refine (hc a ha b hb).mono ?_
  intro p hp
  obtain ⟨e, hem, rfl⟩ := List.mem_map.1 hp
  rw [List.mem_filter] at hem
  refine List.mem_map.2 ⟨e, List.mem_filter.2 ⟨hem.1, ?_⟩, rfl⟩
  cases hw : numWeight attr e.2.2 with
  | none => rw [hw] at hem; cases hem.2
  | some w =>
    have h2 := hem.2
    rw [hw] at h2
    simp only [Option.any_some, decide_eq_true_iff] at h2 ⊢
    exact ht.trans h2

section floats
variable [FloorRing K]

/-- Half a unit in the last place, for numbers up to `B`. -/
theorem abs_round64_le {x B : K} (hx : |x| ≤ B) (hB : (2 : K) ^ (-1022 : ℤ) ≤ B) : |round64 x - x| ≤ B / 2 ^ 53 := by
  have hBpos : 0 < B := (two_zpow_pos _).trans_le hB
  rcases (abs_nonneg x).eq_or_lt with h | h
  · have : x = 0 := abs_eq_zero.1 h.symm
    subst this
    rw [round64_zero, sub_zero, abs_zero]
    positivity
  refine (abs_round64_sub x).trans ?_
  have hl : ulpExp x ≤ Int.log 2 B - 52 := by
    have h0 : -1022 ≤ Int.log 2 B := (Int.zpow_le_iff_le_log (b := 2) (by norm_num) hBpos).1 (by exact_mod_cast hB)
    unfold ulpExp
    have := Int.log_mono_right (b := 2) h hx
    omega
  have h1 : (2 : K) ^ ulpExp x ≤ 2 ^ (Int.log 2 B - 52) := zpow_le_zpow_right₀ (by norm_num) hl
  have h2 : (2 : K) ^ Int.log 2 B ≤ B := by exact_mod_cast Int.zpow_log_le_self (b := 2) (by norm_num) hBpos
  have h3 : (2 : K) ^ (Int.log 2 B - 52) = 2 ^ Int.log 2 B / 2 ^ 52 := by
    rw [zpow_sub₀ (by norm_num)]; norm_num
  have h4 : (B : K) / 2 ^ 53 = B / 2 ^ 52 / 2 := by rw [div_div]; norm_num
  rw [h4]
  refine div_le_div_of_nonneg_right (h1.trans ?_) (by norm_num)
  rw [h3]
  exact div_le_div_of_nonneg_right h2 (by positivity)

/-- The thresholds tried stay within `2 ^ 54` times the learning rate. -/
theorem steps64_bounded {start rate : K} (hrate : (2 : K) ^ (-1022 : ℤ) ≤ rate) (h0 : 0 ≤ start)
    (h1 : start ≤ 2 ^ 53 * rate) (k : Nat) :
    0 ≤ steps round64 start rate k ∧ steps round64 start rate k ≤ 2 ^ 54 * rate := by
  have hpos : 0 < rate := (two_zpow_pos _).trans_le hrate
  set l := Int.log 2 rate with hl
  have hl0 : -1022 ≤ l := (Int.zpow_le_iff_le_log (b := 2) (by norm_num) hpos).1 (by exact_mod_cast hrate)
  have hle : (2 : K) ^ l ≤ rate := by exact_mod_cast Int.zpow_log_le_self (b := 2) (by norm_num) hpos
  have hlt : rate < (2 : K) ^ (l + 1) := by exact_mod_cast Int.lt_zpow_succ_log_self (b := 2) (by norm_num) rate
  have e1 : (2 : K) ^ (l + 1) = 2 ^ l * 2 := by rw [zpow_add₀ (by norm_num)]; norm_num
  have e2 : (2 : K) ^ (l + 2) = 2 ^ l * 4 := by rw [zpow_add₀ (by norm_num)]; norm_num
  have e54 : (2 : K) ^ (l + 54) = 2 ^ l * 2 ^ 54 := by rw [zpow_add₀ (by norm_num)]; norm_num
  have e55 : (2 : K) ^ (l + 2 + 53) = 2 ^ l * 2 ^ 55 := by
    rw [show l + 2 + 53 = l + 55 by ring, zpow_add₀ (by norm_num)]; norm_num
  have hlp := two_zpow_pos (K := K) l
  have key : round64 ((2 : K) ^ (l + 54) + rate) = 2 ^ (l + 54) := by
    have := round64_eq (x := (2 : K) ^ (l + 54) + rate) (m := 2 ^ 52) (e := l + 2) (by omega)
      (by rw [show l + 2 + 52 = l + 54 by ring]; linarith)
      (by rw [e54, e55]; norm_num; nlinarith)
      (by
        have : (((2 : ℤ) ^ 52 : ℤ) : K) * 2 ^ (l + 2) = 2 ^ (l + 54) := by rw [e2, e54]; push_cast; ring
        rw [this, add_sub_cancel_left, abs_of_pos hpos, e2]
        linarith)
    rw [this, e2, e54]; push_cast; ring
  have main : 0 ≤ steps round64 start rate k ∧ steps round64 start rate k ≤ 2 ^ (l + 54) := by
    induction k with
    | zero =>
      refine ⟨h0, h1.trans ?_⟩
      rw [e54]; nlinarith
    | succ k ih =>
      constructor
      · exact round64_nonneg (by linarith [ih.1])
      · rw [← key]
        exact round64_mono (by linarith [ih.1]) (by linarith [ih.2])
  refine ⟨main.1, main.2.trans ?_⟩
  rw [e54]; nlinarith

/-- C66 is false: with floats and a positive learning rate, it never returns on a connected graph whose weights exceed
`2 ^ 54` times the learning rate. -/
theorem floatsam64_diverges {g : Graph V (Val K)} (h : g.WF) (hd : g.directed = false) (he : g.edgesData ≠ [])
    {attr : String} (hw : Weighted g attr) {given : Option K} {m : K} (hm : DrifterLimit g given m) {o : OnEpoch K}
    (ho : o ≠ .notCallable) (hq : o.Quiet) {start rate : K} (hrate : (2 : K) ^ (-1022 : ℤ) ≤ rate) (h0 : 0 ≤ start)
    (h1 : start ≤ 2 ^ 53 * rate)
    (hc : ∀ a ∈ g.nodes, ∀ b ∈ g.nodes, Linked (heavyEdges g attr (2 ^ 54 * rate)) a b) (fuel : Nat) :
    (floatsamR round64 g start rate given attr o fuel).2 = .error .diverges :=
  (floatsamR_diverges_iff round64 h hd he hw hm ho hq start rate).2
    (fun j => not_drifts_of_le (steps64_bounded hrate h0 h1 (j + 1)).2 hc) fuel

/-- The same from a starting threshold so large that adding the learning rate to it changes nothing. -/
theorem floatsam64_stagnates {g : Graph V (Val K)} (h : g.WF) (hd : g.directed = false) (he : g.edgesData ≠ [])
    {attr : String} (hw : Weighted g attr) {given : Option K} {m : K} (hm : DrifterLimit g given m) {o : OnEpoch K}
    (ho : o ≠ .notCallable) (hq : o.Quiet) {start rate : K} (hs : round64 (start + rate) = start)
    (hc : ¬ Drifts g attr m start) (fuel : Nat) :
    (floatsamR round64 g start rate given attr o fuel).2 = .error .diverges := by
  refine (floatsamR_diverges_iff round64 h hd he hw hm ho hq start rate).2 (fun j => ?_) fuel
  have : ∀ k, steps round64 start rate k = start := by
    intro k
    induction k with
    | zero => rfl
    | succ k ih => show round64 (_ + rate) = start; rw [ih, hs]
  rw [this]
  exact hc

/-- The thresholds are those of exact arithmetic, up to one rounding error per step. -/
theorem steps64_error {start rate B : K} (hB : (2 : K) ^ (-1022 : ℤ) ≤ B) {k : Nat}
    (hb : ∀ j < k, |steps round64 start rate j + rate| ≤ B) :
    |steps round64 start rate k - (start + k * rate)| ≤ k * (B / 2 ^ 53) := by
  induction k with
  | zero => simp [steps]
  | succ k ih =>
    have h1 := ih (fun j hj => hb j (by omega))
    have h2 := abs_round64_le (hb k (by omega)) hB
    have e : steps round64 start rate (k + 1) - (start + (k + 1 : Nat) * rate) =
        (round64 (steps round64 start rate k + rate) - (steps round64 start rate k + rate)) +
          (steps round64 start rate k - (start + k * rate)) := by
      show round64 _ - _ = _
      push_cast; ring
    rw [e]
    refine (abs_add_le _ _).trans ?_
    push_cast
    linarith

/-- The true part: with a positive learning rate and a limit of at most 1, it returns on every graph of two nodes or more
whose weights are less than `2 ^ 51` times the learning rate. -/
theorem floatsam64_terminates_partial [Archimedean K] {g : Graph V (Val K)} (h : g.WF) (hd : g.directed = false)
    {attr : String} (hw : Weighted g attr) {given : Option K} {m : K} (hm : DrifterLimit g given m) (hm1 : m ≤ 1)
    (h2 : 2 ≤ g.nodes.length) {o : OnEpoch K} (ho : o ≠ .notCallable) (hq : o.Quiet) {start rate : K}
    (hrate : (2 : K) ^ (-1022 : ℤ) ≤ rate) (hs : |start| ≤ 2 ^ 51 * rate)
    (hW : ∀ e ∈ g.edgesData, ∀ w, numWeight attr e.2.2 = some w → w < 2 ^ 51 * rate) :
    ∃ fuel tr t, floatsamR round64 g start rate given attr o fuel = (tr, .ok t) := by
  classical
  have hpos : 0 < rate := (two_zpow_pos _).trans_le hrate
  by_cases he : g.edgesData = []
  · exact ⟨0, [], start, floatsam_no_edges _ h he start rate given attr ho 0⟩
  · have hex : ∃ j : Nat, Drifts g attr m (steps round64 start rate (j + 1)) := by
      by_contra hno
      push Not at hno
      have hlow : ∀ j, steps round64 start rate (j + 1) < 2 ^ 51 * rate := by
        intro j
        by_contra hj
        refine hno j ((drifts_above h fun e hem w hew => (hW e hem w hew).trans_le (not_lt.1 hj)).2 ⟨h2, hm1⟩)
      have hgrow : ∀ j : Nat, start + j * (rate / 2) ≤ steps round64 start rate j := by
        intro j
        induction j with
        | zero => simp [steps]
        | succ j ih =>
          have hup : steps round64 start rate j ≤ 2 ^ 51 * rate := by
            cases j with
            | zero => exact (le_abs_self _).trans hs
            | succ j => exact (hlow j).le
          have hdown : -(2 ^ 51 * rate) ≤ steps round64 start rate j := by
            have := (abs_le.1 hs).1
            have : (0 : K) ≤ j * (rate / 2) := by positivity
            linarith
          have := abs_round64_le (x := steps round64 start rate j + rate) (B := 2 ^ 52 * rate)
            (by rw [abs_le]; constructor <;> norm_num at * <;> linarith) (hrate.trans (by linarith))
          have h3 : (2 : K) ^ 52 * rate / 2 ^ 53 = rate / 2 := by ring
          rw [h3] at this
          have := (abs_le.1 this).1
          show _ ≤ round64 (_ + rate)
          push_cast
          linarith
      obtain ⟨k, hk⟩ := Archimedean.arch (2 ^ 51 * rate - start) (half_pos hpos)
      rw [nsmul_eq_mul] at hk
      have h3 := hgrow (k + 1)
      have h4 := hlow k
      push_cast at h3
      linarith
    obtain ⟨tr, htr, _⟩ := floatsamLoopR_stops round64 h hd hw hq rate m (Nat.lt_succ_self _) 0 start
      (Nat.find_spec hex) (fun j hj => Nat.find_min hex hj)
    exact ⟨_, tr, _, (floatsamR_eq_loop round64 h hd he hm ho start rate attr _).trans htr⟩

end floats

/-- A case meeting the hypotheses: one edge of weight `2 ^ 60` and a learning rate of 1.  It returns in exact arithmetic,
and never does with floats. -/
theorem floatsam64_diverges_sample :
    (∃ fuel tr t, floatsam (tie (2 ^ 60)) 0 1 (some 1) "weight" .none fuel = (tr, .ok t)) ∧
      ∀ fuel, (floatsamR round64 (tie (2 ^ 60)) 0 1 (some 1) "weight" .none fuel).2 = .error .diverges := by
  have hw : Weighted (tie (2 ^ 60)) "weight" := by
    have : ∀ e ∈ (tie (2 ^ 60)).edgesData, (numWeight "weight" e.2.2).isSome = true := by decide +kernel
    intro e he
    exact Option.isSome_iff_exists.1 (this e he)
  constructor
  · exact floatsam_terminates (tie_wf _) rfl hw (.inl rfl) le_rfl (by decide) (by simp) (by intro f hf; cases hf) 0
      one_pos
  · intro fuel
    refine floatsam64_diverges (tie_wf _) rfl (by decide +kernel) hw (.inl rfl) (by simp) (by intro f hf; cases hf)
      (zpow_le_one_of_nonpos₀ (by norm_num) (by norm_num)) le_rfl (by norm_num) ?_ fuel
    have h1 : heavyEdges (tie (2 ^ 60)) "weight" (2 ^ 54 * 1) = [(0, 1)] := by decide +kernel
    rw [h1]
    have h01 : Linked [((0 : Int), (1 : Int))] 0 1 := .of_mem (by simp)
    intro a ha b hb
    have hn : (tie (2 ^ 60)).nodes = [0, 1] := rfl
    rw [hn] at ha hb
    simp only [List.mem_cons, List.not_mem_nil, or_false] at ha hb
    rcases ha with rfl | rfl <;> rcases hb with rfl | rfl
    · exact .refl _ _
    · exact h01
    · exact h01.symm
    · exact .refl _ _

/-- A case meeting the hypotheses of `floatsam64_stagnates`: the float following `2 ^ 53` is `2 ^ 53 + 2`. -/
theorem floatsam64_stagnates_sample :
    round64 ((2 : ℚ) ^ 53 + 1 / 2) = 2 ^ 53 ∧
      ∀ fuel, (floatsamR round64 (tie (2 ^ 53 + 2)) (2 ^ 53) (1 / 2) (some 1) "weight" .none fuel).2 =
        .error .diverges := by
  have hr : round64 ((2 : ℚ) ^ 53 + 1 / 2) = 2 ^ 53 := by
    have := round64_eq (x := (2 : ℚ) ^ 53 + 1 / 2) (m := 2 ^ 52) (e := 1) (by norm_num) (by norm_num) (by norm_num)
      (by norm_num [abs_of_pos])
    rw [this]; norm_num
  refine ⟨hr, fun fuel => ?_⟩
  have hw : Weighted (tie (2 ^ 53 + 2)) "weight" := by
    have : ∀ e ∈ (tie (2 ^ 53 + 2)).edgesData, (numWeight "weight" e.2.2).isSome = true := by decide +kernel
    intro e he
    exact Option.isSome_iff_exists.1 (this e he)
  refine floatsam64_stagnates (tie_wf _) rfl (by decide +kernel) hw (.inl rfl) (by simp) (by intro f hf; cases hf) hr
    (not_drifts_of_le le_rfl ?_) fuel
  have h1 : heavyEdges (tie (2 ^ 53 + 2)) "weight" (2 ^ 53) = [(0, 1)] := by decide +kernel
  rw [h1]
  have h01 : Linked [((0 : Int), (1 : Int))] 0 1 := .of_mem (by simp)
  intro a ha b hb
  have hn : (tie (2 ^ 53 + 2)).nodes = [0, 1] := rfl
  rw [hn] at ha hb
  simp only [List.mem_cons, List.not_mem_nil, or_false] at ha hb
  rcases ha with rfl | rfl <;> rcases hb with rfl | rfl
  · exact .refl _ _
  · exact h01
  · exact h01.symm
  · exact .refl _ _

/-- A case meeting the hypotheses of `floatsam64_terminates_partial`. -/
theorem floatsam64_terminates_sample :
    ∃ fuel tr t, floatsamR round64 (tie 3) 0 1 (some 1) "weight" .none fuel = (tr, .ok t) := by
  refine floatsam64_terminates_partial (tie_wf 3) rfl ?_ (.inl rfl) le_rfl (by decide) (by simp)
    (by intro f hf; cases hf) (zpow_le_one_of_nonpos₀ (by norm_num) (by norm_num)) (by norm_num) ?_
  · have : ∀ e ∈ (tie 3).edgesData, (numWeight "weight" e.2.2).isSome = true := by decide +kernel
    intro e he
    exact Option.isSome_iff_exists.1 (this e he)
  · have : ∀ e ∈ (tie 3).edgesData, numWeight "weight" e.2.2 = some 3 := by decide +kernel
    intro e he w hw
    rw [this e he] at hw
    cases hw
    norm_num

end Pelote
