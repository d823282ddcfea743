import Verif.Props.Learn
import Verif.Props.LearnFloat
import Verif.Props.Sparsification
import Verif.Props.Binary64

/-! C81: what the threshold found by the learner does to the graph, and how it depends on the limit. -/
namespace Pelote
variable {V K : Type} [DecidableEq V] [Field K] [LinearOrder K] [IsStrictOrderedRing K]

omit [DecidableEq V] in
theorem Drifts.anti [DecidableEq V] {g : Graph V (Val K)} {attr : String} {m m' t : K} (hm : m ≤ m')
    (h : Drifts g attr m' t) : Drifts g attr m t := by
  obtain ⟨a, ha, b, hb, h1, h2, h3⟩ := h
  exact ⟨a, ha, b, hb, h1, hm.trans h2, hm.trans h3⟩

/-- C81: with a smaller limit the learner stops no later: if it ends with the larger one it ends with the smaller one, at the
same step or before. -/
theorem floatsamR_limit (rnd : K → K) {g : Graph V (Val K)} (h : g.WF) (hd : g.directed = false) (he : g.edgesData ≠ [])
    {attr : String} (hw : Weighted g attr) {m m' : K} (hm : m ≤ m') {o o' : OnEpoch K} (ho : o ≠ .notCallable)
    (hq : o.Quiet) (ho' : o' ≠ .notCallable) (hq' : o'.Quiet) (start rate : K) {fuel : Nat}
    {tr' : List (FloatsamEpoch K)} {t' : K} (hr : floatsamR rnd g start rate (some m') attr o' fuel = (tr', .ok t')) :
    ∃ tr k k', k ≤ k' ∧ floatsamR rnd g start rate (some m) attr o fuel = (tr, .ok (steps rnd start rate k)) ∧
      t' = steps rnd start rate k' := by
  classical
  obtain ⟨k', h1, h2, h3, -⟩ := floatsamR_returns rnd h hd he hw (.inl rfl) ho' hq' start rate hr
  have hex : ∃ j : Nat, Drifts g attr m (steps rnd start rate (j + 1)) := ⟨k', h2.anti hm⟩
  have hk : Nat.find hex ≤ k' := Nat.find_min' hex (h2.anti hm)
  have hf : Nat.find hex < fuel := by
    by_contra hc
    have hdiv := floatsamLoopR_diverges rnd h hd hw hq' rate m' fuel 0 start (fun j hj hD =>
      Nat.find_min hex (hj.trans_le (not_lt.1 hc)) (hD.anti hm))
    rw [← floatsamR_eq_loop rnd h hd he (.inl rfl) ho', hr] at hdiv
    cases hdiv
  obtain ⟨tr, htr, _⟩ := floatsamLoopR_stops rnd h hd hw hq rate m hf 0 start (Nat.find_spec hex)
    (fun j hj => Nat.find_min hex hj)
  exact ⟨tr, _, k', hk, by rw [floatsamR_eq_loop rnd h hd he (.inl rfl) ho]; exact htr, h1⟩

/-- C81: a larger limit never gives a lower threshold, the learning rate being positive. -/
theorem floatsam_limit_mono {g : Graph V (Val K)} (h : g.WF) (hd : g.directed = false) (he : g.edgesData ≠ [])
    {attr : String} (hw : Weighted g attr) {m m' : K} (hm : m ≤ m') {o o' : OnEpoch K} (ho : o ≠ .notCallable)
    (hq : o.Quiet) (ho' : o' ≠ .notCallable) (hq' : o'.Quiet) (start : K) {rate : K} (hrate : 0 ≤ rate) {fuel : Nat}
    {tr' : List (FloatsamEpoch K)} {t' : K} (hr : floatsam g start rate (some m') attr o' fuel = (tr', .ok t')) :
    ∃ tr t, floatsam g start rate (some m) attr o fuel = (tr, .ok t) ∧ t ≤ t' := by
  obtain ⟨tr, k, k', hk, h1, rfl⟩ := floatsamR_limit (fun x => x) h hd he hw hm ho hq ho' hq' start rate hr
  refine ⟨tr, _, h1, ?_⟩
  exact monotone_nat_of_le_succ (f := steps (fun x => x) start rate) (fun n => le_add_of_nonneg_right hrate) hk

theorem round64_monotone [FloorRing K] {x y : K} (h : x ≤ y) : round64 x ≤ round64 y := by
  rcases le_total 0 x with hx | hx
  · exact round64_mono hx h
  · rcases le_total 0 y with hy | hy
    · have := round64_nonneg (neg_nonneg.2 hx)
      rw [round64_neg] at this
      exact (neg_nonneg.1 this).trans (round64_nonneg hy)
    · have := round64_mono (neg_nonneg.2 hy) (neg_le_neg h)
      rw [round64_neg, round64_neg] at this
      exact neg_le_neg_iff.1 this

theorem round64_fixed [FloorRing K] {x : K} (h : IsFloat64 x) : round64 x = x := by
  rcases le_total 0 x with hx | hx
  · exact round64_float hx h
  · have hn : IsFloat64 (-x) := by
      obtain ⟨m, e, hm, he, rfl⟩ := h
      exact ⟨-m, e, by rwa [abs_neg], he, by push_cast; ring⟩
    have := round64_float (neg_nonneg.2 hx) hn
    rw [round64_neg] at this
    exact neg_inj.1 this

/-- C81: the same in floating point. -/
theorem floatsam64_limit_mono [FloorRing K] {g : Graph V (Val K)} (h : g.WF) (hd : g.directed = false)
    (he : g.edgesData ≠ []) {attr : String} (hw : Weighted g attr) {m m' : K} (hm : m ≤ m') {o o' : OnEpoch K}
    (ho : o ≠ .notCallable) (hq : o.Quiet) (ho' : o' ≠ .notCallable) (hq' : o'.Quiet) {start : K} (hs : IsFloat64 start)
    {rate : K} (hrate : 0 ≤ rate) {fuel : Nat} {tr' : List (FloatsamEpoch K)} {t' : K}
    (hr : floatsamR round64 g start rate (some m') attr o' fuel = (tr', .ok t')) :
    ∃ tr t, floatsamR round64 g start rate (some m) attr o fuel = (tr, .ok t) ∧ t ≤ t' := by
  obtain ⟨tr, k, k', hk, h1, rfl⟩ := floatsamR_limit round64 h hd he hw hm ho hq ho' hq' start rate hr
  refine ⟨tr, _, h1, ?_⟩
  have hfl : ∀ n, IsFloat64 (steps round64 start rate n) := by
    intro n
    cases n with
    | zero => exact hs
    | succ n => exact round64_isFloat _
  exact monotone_nat_of_le_succ (f := steps round64 start rate) (fun n => by
    show _ ≤ round64 (_ + rate)
    conv_lhs => rw [← round64_fixed (hfl n)]
    exact round64_monotone (le_add_of_nonneg_right hrate)) hk

/-! ### The graph at the threshold -/

omit [IsStrictOrderedRing K] in
theorem reaches_iff_numWeight {t : K} {attr : String} {a : Attrs (Val K)} :
    Reaches t attr false a ↔ (numWeight attr a).any (fun w => decide (t ≤ w)) = true := by
  unfold Reaches HasNumber numWeight
  rcases a.get? (.str attr) with _ | v
  · simp
  · rcases v with _ | b | w | _ | _ <;> try simp
    cases b <;> simp

theorem hasNumber_of_weighted {g : Graph V (Val K)} {attr : String} (hw : Weighted g attr) :
    ∀ e ∈ g.edgesData, ∃ w, HasNumber attr e.2.2 w := by
  intro e he
  obtain ⟨w, hw⟩ := hw e he
  refine ⟨w, ?_⟩
  unfold numWeight at hw
  unfold HasNumber
  split at hw <;> simp_all

/-- The components of the graph sparsified at `t` are those left by the edges of weight at least `t`. -/
theorem globalThreshold_second [PyOrd V] [AttrVal (Val K)] (ulongMax : Nat) {g : Graph V (Val K)} (h : g.WF)
    (hd : g.directed = false) {attr : String} (hw : Weighted g attr) (hkw : ∀ e ∈ g.edgesData, Graph.EdgeKwSafe g.multi e.2.2)
    (t : K) : ∃ g' c, globalThresholdSparsification ulongMax g t attr false false = .ok g' ∧
      secondLargestComponentOrder g' none = .ok c ∧ DrifterOrder g attr t c := by
  obtain ⟨g', h1, wf, h2, -, -, h3, h4⟩ := globalThreshold_exact ulongMax h t (attr := attr) false false
    (hasNumber_of_weighted hw) (by simp) hkw
  obtain ⟨c, h5, h6, h7⟩ := secondLargestComponentOrder_exact wf (h2.trans hd)
  refine ⟨g', c, h1, h5, ?_⟩
  have e1 : g'.nodes = g.nodes := by unfold Graph.nodes; rw [h3]
  have e2 : g'.edges = heavyEdges g attr t := by
    rw [edges_eq_data, h4]
    unfold heavyEdges
    congr 1
    apply List.filter_congr
    intro e _
    rw [Bool.eq_iff_iff]
    simp only [decide_eq_true_eq, Bool.false_eq_true, false_and, or_false]
    exact reaches_iff_numWeight
  unfold DrifterOrder heavyOrders
  rw [← e1, ← e2]
  exact ⟨h6, h7⟩

/-- C81: sparsifying at the threshold found (unless it is the starting one, which is not examined) leaves no second component
of the limit order or more; sparsifying one learning rate higher leaves one.  For any rounding of the thresholds. -/
theorem floatsam_sparsified [PyOrd V] [AttrVal (Val K)] (ulongMax : Nat) (rnd : K → K) {g : Graph V (Val K)} (h : g.WF)
    (hd : g.directed = false) (he : g.edgesData ≠ []) {attr : String} (hw : Weighted g attr)
    (hkw : ∀ e ∈ g.edgesData, Graph.EdgeKwSafe g.multi e.2.2) {given : Option K} {m : K} (hm : DrifterLimit g given m)
    {o : OnEpoch K} (ho : o ≠ .notCallable) (hq : o.Quiet) (start rate : K) {fuel : Nat} {tr : List (FloatsamEpoch K)}
    {t : K} (hr : floatsamR rnd g start rate given attr o fuel = (tr, .ok t)) :
    (t = start ∨ ∃ g' c, globalThresholdSparsification ulongMax g t attr false false = .ok g' ∧
      secondLargestComponentOrder g' none = .ok c ∧ ∀ r : Nat, c = some r → (r : K) < m) ∧
    ∃ g' r, globalThresholdSparsification ulongMax g (rnd (t + rate)) attr false false = .ok g' ∧
      secondLargestComponentOrder g' none = .ok (some r) ∧ m ≤ (r : K) := by
  obtain ⟨k, rfl, h2, h3, -⟩ := floatsamR_returns rnd h hd he hw hm ho hq start rate hr
  constructor
  · cases k with
    | zero => exact .inl rfl
    | succ k =>
      right
      obtain ⟨g', c, e1, e2, e3⟩ := globalThreshold_second ulongMax h hd hw hkw (steps rnd start rate (k + 1))
      refine ⟨g', c, e1, e2, ?_⟩
      rintro r rfl
      have := mt (drifts_iff h e3 m).1 (h3 k (Nat.lt_succ_self k))
      simpa using this
  · obtain ⟨g', c, e1, e2, e3⟩ := globalThreshold_second ulongMax h hd hw hkw (steps rnd start rate (k + 1))
    have := (drifts_iff h e3 m).2 h2
    cases c with
    | none => simp at this
    | some r => exact ⟨g', r, e1, e2, by simpa using this⟩

/-- The sample of C55 (two triangles joined by a lighter edge, the threshold 1 being found with the limit 3) meets the
hypotheses: what it says there. -/
theorem learnUse_sample :
    (∀ e ∈ dumbbell.edgesData, Graph.EdgeKwSafe dumbbell.multi e.2.2) ∧
    (∃ t ≤ (1 : ℚ), ∃ tr, floatsam dumbbell 0 1 (some 2) "weight" .none 2 = (tr, .ok t)) ∧
    (∃ g' c, globalThresholdSparsification 65535 dumbbell 1 "weight" false false = .ok g' ∧
      secondLargestComponentOrder g' none = .ok c ∧ ∀ r : Nat, c = some r → (r : ℚ) < 3) ∧
    ∃ g' r, globalThresholdSparsification 65535 dumbbell (1 + 1) "weight" false false = .ok g' ∧
      secondLargestComponentOrder g' none = .ok (some r) ∧ (3 : ℚ) ≤ r := by
  obtain ⟨h1, h2, h3, h4, h5, h6⟩ := floatsam_sample
  have hkw : ∀ e ∈ dumbbell.edgesData, Graph.EdgeKwSafe dumbbell.multi e.2.2 := by
    have : ∀ e ∈ dumbbell.edgesData, e.2.2.keys = [.str "weight"] := by decide +kernel
    intro e he k hk
    rw [this e he] at hk
    exact ⟨"weight", by simpa using hk, by decide⟩
  obtain ⟨tr, t, h7, h8⟩ := floatsam_limit_mono (o := .none) h1 h2 h3 h4 (by norm_num : (2 : ℚ) ≤ 3) (by simp)
    (by intro f hf; cases hf) (by simp) (by intro f hf; cases hf) 0 (by norm_num) h6
  obtain ⟨h9, h10⟩ := floatsam_sparsified 65535 (fun x => x) h1 h2 h3 h4 hkw h5 (by simp) (by intro f hf; cases hf) 0 1 h6
  refine ⟨hkw, ⟨t, h8, tr, h7⟩, ?_, h10⟩
  rcases h9 with h9 | h9
  · exact absurd h9 (by norm_num)
  · exact h9

end Pelote
