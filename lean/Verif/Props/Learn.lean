import Verif.Lemmas.Learn
import Verif.Lemmas.Checked
import Mathlib.Algebra.Order.Archimedean.Basic
import Mathlib.Analysis.Complex.ExponentialBounds

/-! Properties C55, C56, C61: the floatsam algorithm. -/
namespace Pelote
variable {V K : Type} [DecidableEq V] [Field K] [LinearOrder K] [IsStrictOrderedRing K]

theorem intLog_spec {n : Nat} (hn : n ≠ 0) : Real.exp (intLog n) ≤ n ∧ (n : ℝ) < Real.exp (intLog n + 1) := by
  have hpos : (0 : ℝ) < n := by exact_mod_cast Nat.pos_of_ne_zero hn
  have hlog : 0 ≤ Real.log n := Real.log_natCast_nonneg n
  constructor
  · rw [← Real.le_log_iff_exp_le hpos]
    exact Nat.floor_le hlog
  · rw [← Real.log_lt_iff_lt_exp hpos]
    exact Nat.lt_floor_add_one _

theorem componentOrders_pos {nodes : List V} (hn : nodes.Nodup) {pairs : List (V × V)} {s : Nat}
    (h : s ∈ componentOrders nodes pairs) : 0 < s := by
  obtain ⟨r, hr, rfl⟩ := List.mem_map.1 h
  have hr := List.mem_of_mem_filter hr
  rw [Set.ncard_pos ((List.finite_toSet nodes).subset (fun x hx => hx.1))]
  exact ⟨r, hr, .refl _ _⟩

theorem nodes_ne_nil_of_edges {g : Graph V (Val K)} (h : g.WF) (he : g.edgesData ≠ []) : g.nodes ≠ [] := by
  obtain ⟨⟨u, v, a⟩, L, hL⟩ := List.exists_cons_of_ne_nil he
  have hmem : (u, v, a) ∈ g.edgesData := by rw [hL]; simp
  obtain ⟨l, hl, _⟩ := (Graph.mem_edgesData h).1 hmem
  exact List.ne_nil_of_mem (h.ends l hl).1

theorem edges_eq_data (g : Graph V (Val K)) : g.edges = g.edgesData.map (fun e => (e.1, e.2.1)) := by
  unfold Graph.edges Graph.edgesData
  rw [List.map_map]
  rfl

/-! ### C55 -/

/-- The limit used when the graph has edges. -/
theorem floatsam_limit {g : Graph V (Val K)} (h : g.WF) (hd : g.directed = false) (hne : g.nodes ≠ [])
    (given : Option K) : ∃ m, DrifterLimit g given m ∧ maxDrifterOrder g given = .ok m := by
  cases given with
  | some m => exact ⟨m, .inl rfl, rfl⟩
  | none =>
    obtain ⟨r, h1, h2, h3⟩ := largestComponentOrder_exact h hd
    cases r with
    | none => exact absurd (h2.1 rfl) hne
    | some n =>
      obtain ⟨hm, hmax⟩ := h3 n rfl
      have hn : n ≠ 0 := (componentOrders_pos h.nodup hm).ne'
      refine ⟨((intLog n : Nat) : K), .inr ⟨rfl, n, intLog n, hm, hmax, rfl, intLog_spec hn⟩, ?_⟩
      unfold maxDrifterOrder
      rw [h1]
      simp only
      rw [if_neg hn]

theorem DrifterLimit.unique {g : Graph V (Val K)} {given : Option K} {m m' : K} (h : DrifterLimit g given m)
    (h' : DrifterLimit g given m') : m = m' := by
  rcases h with rfl | ⟨rfl, n, k, h1, h2, rfl, h4, h5⟩
  · rcases h' with h' | ⟨h', _⟩
    · cases h'; rfl
    · cases h'
  · rcases h' with h' | ⟨_, n', k', h1', h2', rfl, h4', h5'⟩
    · cases h'
    · have e : n = n' := le_antisymm (h2' n h1) (h2 n' h1')
      subst e
      have a1 : (k : ℝ) < k' + 1 := Real.exp_lt_exp.1 (h4.trans_lt h5')
      have a2 : (k' : ℝ) < k + 1 := Real.exp_lt_exp.1 (h4'.trans_lt h5)
      have b1 : k < k' + 1 := by exact_mod_cast a1
      have b2 : k' < k + 1 := by exact_mod_cast a2
      have : k = k' := by omega
      rw [this]

theorem floatsamR_eq_loop (rnd : K → K) {g : Graph V (Val K)} (h : g.WF) (hd : g.directed = false) (he : g.edgesData ≠ [])
    {given : Option K} {m : K} (hm : DrifterLimit g given m) {o : OnEpoch K} (ho : o ≠ .notCallable)
    (start rate : K) (attr : String) (fuel : Nat) :
    floatsamR rnd g start rate given attr o fuel = floatsamLoopR rnd g rate m attr o fuel 0 start := by
  have hs : g.size ≠ 0 := by
    rw [Graph.size_eq h]
    intro hc
    apply he
    have : g.edges.length = g.edgesData.length := by rw [edges_eq_data, List.length_map]
    rw [this] at hc
    exact List.length_eq_zero_iff.1 hc
  obtain ⟨m', hm', hmo⟩ := floatsam_limit h hd (nodes_ne_nil_of_edges h he) given
  have := hm.unique hm'
  subst this
  unfold floatsamR
  cases o with
  | notCallable => exact absurd rfl ho
  | none => simp only; rw [if_neg hs, hmo]
  | function f => simp only; rw [if_neg hs, hmo]

theorem floatsam_eq_loop {g : Graph V (Val K)} (h : g.WF) (hd : g.directed = false) (he : g.edgesData ≠ [])
    {given : Option K} {m : K} (hm : DrifterLimit g given m) {o : OnEpoch K} (ho : o ≠ .notCallable)
    (start rate : K) (attr : String) (fuel : Nat) :
    floatsam g start rate given attr o fuel = floatsamLoop g rate m attr o fuel 0 start :=
  floatsamR_eq_loop (fun x => x) h hd he hm ho start rate attr fuel

/-- The threshold returned is the one before the first threshold leaving two components of the limit order or more;
the callback has been called with each step. -/
theorem floatsam_returns {g : Graph V (Val K)} (h : g.WF) (hd : g.directed = false) (he : g.edgesData ≠ [])
    {attr : String} (hw : Weighted g attr) {given : Option K} {m : K} (hm : DrifterLimit g given m) {o : OnEpoch K}
    (ho : o ≠ .notCallable) (hq : o.Quiet) (start rate : K) {fuel : Nat} {tr : List (FloatsamEpoch K)} {t : K}
    (hr : floatsam g start rate given attr o fuel = (tr, .ok t)) :
    ∃ k : Nat, t = start + k * rate ∧ Drifts g attr m (start + (k + 1 : Nat) * rate) ∧
      (∀ j < k, ¬ Drifts g attr m (start + (j + 1 : Nat) * rate)) ∧
      (∀ j e, tr[j]? = some e → e.nth = j + 1 ∧ e.maxDrifterOrder = m ∧ e.threshold = start + (j + 1 : Nat) * rate ∧
        DrifterOrder g attr e.threshold e.drifterOrder) ∧
      (∀ f, o = .function f → tr.length = k + 1) ∧ (o = .none → tr = []) := by
  classical
  rw [floatsam_eq_loop h hd he hm ho] at hr
  by_cases hx : ∃ k < fuel, Drifts g attr m (start + (k + 1 : Nat) * rate)
  · have hex : ∃ k, k < fuel ∧ Drifts g attr m (start + (k + 1 : Nat) * rate) := hx
    obtain ⟨hk1, hk2⟩ := Nat.find_spec hex
    have hmin : ∀ j < Nat.find hex, ¬ Drifts g attr m (start + (j + 1 : Nat) * rate) :=
      fun j hj hc => Nat.find_min hex hj ⟨by omega, hc⟩
    obtain ⟨tr', h1, h2, h3, h4⟩ := floatsamLoop_stops h hd hw hq rate m hk1 0 start hk2 hmin
    rw [hr] at h1
    obtain ⟨e1, e2⟩ := Prod.mk.inj h1
    cases e2
    subst e1
    refine ⟨Nat.find hex, rfl, hk2, hmin, ?_, fun f hf => h3 ⟨f, hf⟩, ?_⟩
    · intro j e hj
      have := h2 j e hj
      rwa [Nat.zero_add] at this
    · rintro rfl
      exact h4 (fun f hf => by cases hf)
  · push Not at hx
    have := floatsamLoop_diverges h hd hw hq rate m fuel 0 start hx
    rw [hr] at this
    cases this

/-- It does return it. -/
theorem floatsam_total {g : Graph V (Val K)} (h : g.WF) (hd : g.directed = false) (he : g.edgesData ≠ [])
    {attr : String} (hw : Weighted g attr) {given : Option K} {m : K} (hm : DrifterLimit g given m) {o : OnEpoch K}
    (ho : o ≠ .notCallable) (hq : o.Quiet) (start rate : K) {k : Nat}
    (h1 : Drifts g attr m (start + (k + 1 : Nat) * rate)) (h2 : ∀ j < k, ¬ Drifts g attr m (start + (j + 1 : Nat) * rate))
    {fuel : Nat} (hf : k < fuel) :
    ∃ tr, floatsam g start rate given attr o fuel = (tr, .ok (start + k * rate)) := by
  rw [floatsam_eq_loop h hd he hm ho]
  obtain ⟨tr, htr, _⟩ := floatsamLoop_stops h hd hw hq rate m hf 0 start h1 h2
  exact ⟨tr, htr⟩

/-- A graph without edges returns the starting threshold. -/
theorem floatsam_no_edges (rnd : K → K) {g : Graph V (Val K)} (h : g.WF) (he : g.edgesData = []) (start rate : K) (given : Option K)
    (attr : String) {o : OnEpoch K} (ho : o ≠ .notCallable) (fuel : Nat) :
    floatsamR rnd g start rate given attr o fuel = ([], .ok start) := by
  have hs : g.size = 0 := by
    rw [Graph.size_eq h]
    rw [edges_eq_data, he]; rfl
  unfold floatsamR
  cases o with
  | notCallable => exact absurd rfl ho
  | none => simp only; rw [if_pos hs]
  | function f => simp only; rw [if_pos hs]

/-- A callback which is not callable is rejected. -/
theorem floatsam_not_callable (rnd : K → K) (g : Graph V (Val K)) (start rate : K) (given : Option K) (attr : String) (fuel : Nat) :
    ∃ e, floatsamR rnd g start rate given attr .notCallable fuel = ([], .error (.typeError e)) := ⟨_, rfl⟩

omit [IsStrictOrderedRing K] in
theorem floatsamLoop_callback_raises {rnd : K → K} {g : Graph V (Val K)} {rate m : K} {attr : String} {f : FloatsamEpoch K → Py Unit}
    (fuel n : Nat) (t : K) {pre post : List (FloatsamEpoch K)} {e : FloatsamEpoch K} {x : PyErr}
    (h : (floatsamLoopR rnd g rate m attr (.function f) fuel n t).1 = pre ++ e :: post) (hx : f e = .error x) :
    post = [] ∧ (floatsamLoopR rnd g rate m attr (.function f) fuel n t).2 = .error x := by
  induction fuel generalizing n t pre with
  | zero => simp [floatsamLoopR] at h
  | succ fuel ih =>
    rw [floatsamLoopR.eq_2] at h ⊢
    simp only at h ⊢
    cases hs : secondLargestComponentOrder g (some (floatsamFilter attr (rnd (t + rate)))) with
    | error y => rw [hs] at h; simp at h
    | ok c =>
      rw [hs] at h
      simp only [OnEpoch.call] at h ⊢
      cases hf : f ⟨n + 1, m, c, rnd (t + rate)⟩ with
      | error y =>
        rw [hf] at h
        simp only at h ⊢
        cases pre with
        | nil =>
          simp only [List.nil_append, List.cons.injEq] at h
          obtain ⟨rfl, hp⟩ := h
          rw [hf] at hx
          cases hx
          exact ⟨hp.symm, rfl⟩
        | cons p pre => simp at h
      | ok u =>
        rw [hf] at h
        simp only at h ⊢
        split at h
        · rename_i hc
          cases pre with
          | nil =>
            simp only [List.nil_append, List.cons.injEq] at h
            obtain ⟨rfl, hp⟩ := h
            rw [hf] at hx
            cases hx
          | cons p pre => simp at h
        · rename_i hc
          rw [if_neg hc]
          simp only [List.cons_append, List.nil_append] at h ⊢
          cases pre with
          | nil =>
            simp only [List.nil_append, List.cons.injEq] at h
            obtain ⟨rfl, hp⟩ := h
            rw [hf] at hx
            cases hx
          | cons p pre =>
            simp only [List.cons_append, List.cons.injEq] at h
            exact ih _ _ h.2

omit [IsStrictOrderedRing K] in
/-- An exception raised by the callback ends the run. -/
theorem floatsam_callback_raises {rnd : K → K} {g : Graph V (Val K)} {start rate : K} {given : Option K} {attr : String}
    {f : FloatsamEpoch K → Py Unit} {fuel : Nat} {pre post : List (FloatsamEpoch K)} {e : FloatsamEpoch K} {x : PyErr}
    (h : (floatsamR rnd g start rate given attr (.function f) fuel).1 = pre ++ e :: post) (hx : f e = .error x) :
    post = [] ∧ (floatsamR rnd g start rate given attr (.function f) fuel).2 = .error x := by
  unfold floatsamR at h ⊢
  simp only at h ⊢
  split at h
  · simp at h
  · rename_i hs
    rw [if_neg hs]
    split at h
    · simp at h
    · exact floatsamLoop_callback_raises _ _ _ h hx

theorem mem_edgesOf_of_data {g : Graph V (Val K)} (h : g.WF) {e : V × V × Attrs (Val K)} (he : e ∈ g.edgesData) :
    ∃ k, (e.1, e.2.1, k, e.2.2) ∈ g.edgesOf e.1 := by
  obtain ⟨u, v, a⟩ := e
  obtain ⟨l, hl, rfl, rfl, k, hk⟩ := (Graph.mem_edgesData h).1 he
  exact ⟨k, (mem_edgesOf h).2 ⟨rfl, l, hl, g.orient_samePair l, hk⟩⟩

/-- The weight of an edge cannot be compared to a threshold: `x` is what looking at it raises. -/
def NoWeight (attr : String) (a : Attrs (Val K)) (x : PyErr) : Prop :=
  (a.get? (.str attr) = none ∧ x = .keyError) ∨
    ((∃ v, a.get? (.str attr) = some v) ∧ numWeight attr a = none ∧ ∃ m, x = .typeError m)

omit [IsStrictOrderedRing K] [DecidableEq V] in
theorem floatsamFilter_error {attr : String} {t : K} {a : Attrs (Val K)} {x : PyErr} {u v : V}
    (h : floatsamFilter attr t u v a = .error x) : NoWeight attr a x := by
  unfold floatsamFilter Dict.getItem at h
  unfold NoWeight numWeight
  cases hg : a.get? (.str attr) with
  | none =>
    rw [hg] at h
    simp only at h
    cases h
    exact .inl ⟨rfl, rfl⟩
  | some y =>
    rw [hg] at h
    simp only at h
    refine .inr ⟨⟨y, rfl⟩, ?_⟩
    cases y with
    | num w => cases h
    | bool b => cases b <;> cases h
    | none => cases h; exact ⟨rfl, _, rfl⟩
    | str s => cases h; exact ⟨rfl, _, rfl⟩
    | obj s r => cases h; exact ⟨rfl, _, rfl⟩

/-- An edge without a numeric weight raises, `KeyError` if it has no weight and `TypeError` otherwise. -/
theorem floatsam_unweighted (rnd : K → K) {g : Graph V (Val K)} (h : g.WF) (hd : g.directed = false) {attr : String}
    (hw : ¬ Weighted g attr) (given : Option K) {o : OnEpoch K} (ho : o ≠ .notCallable) (start rate : K)
    (fuel : Nat) :
    ∃ x, floatsamR rnd g start rate given attr o (fuel + 1) = ([], .error x) ∧
      ∃ e ∈ g.edgesData, NoWeight attr e.2.2 x := by
  have hw' : ∃ e ∈ g.edgesData, numWeight attr e.2.2 = none := by
    unfold Weighted at hw
    push Not at hw
    obtain ⟨e, he, hn⟩ := hw
    refine ⟨e, he, ?_⟩
    cases hx : numWeight attr e.2.2 with
    | none => rfl
    | some w => exact absurd hx (hn w)
  obtain ⟨e, he, hn⟩ := hw'
  have hne := List.ne_nil_of_mem he
  obtain ⟨m, hm, _⟩ := floatsam_limit h hd (nodes_ne_nil_of_edges h hne) given
  rw [floatsamR_eq_loop rnd h hd hne hm ho, floatsamLoopR.eq_2]
  simp only
  rcases connectedComponentOrders_cases h (floatsamFilter attr (rnd (start + rate))) with ⟨_, hall⟩ | ⟨x, hx, n, hnm, f, hf, hr⟩
  · exfalso
    obtain ⟨k, hk⟩ := mem_edgesOf_of_data h he
    obtain ⟨b, hb⟩ := hall e.1 (edgesOf_nodes h hk).1 _ hk
    simp only at hb
    unfold numWeight at hn
    unfold floatsamFilter Dict.getItem at hb
    cases hg : e.2.2.get? (.str attr) with
    | none => rw [hg] at hb; cases hb
    | some y =>
      rw [hg] at hb hn
      cases y with
      | num w => cases hn
      | bool b => cases b <;> cases hn
      | none => cases hb
      | str s => cases hb
      | obj s r => cases hb
  · have hsec : secondLargestComponentOrder g (some (floatsamFilter attr (rnd (start + rate)))) = .error x := by
      unfold secondLargestComponentOrder Gen.toList
      rw [hx]
    rw [hsec]
    refine ⟨x, rfl, ?_⟩
    obtain ⟨u, v, k, a⟩ := f
    have hu : u = n := ((mem_edgesOf h).1 hf).1
    subst hu
    have hno := floatsamFilter_error hr
    rcases (edgesOf_listed h hd).1 ⟨k, hf⟩ with hl | hl
    · exact ⟨_, hl, hno⟩
    · exact ⟨_, hl, hno⟩

/-! ### C56 -/

/-- It never returns exactly when no threshold makes two components of the limit order drift. -/
theorem floatsam_diverges_iff {g : Graph V (Val K)} (h : g.WF) (hd : g.directed = false) (he : g.edgesData ≠ [])
    {attr : String} (hw : Weighted g attr) {given : Option K} {m : K} (hm : DrifterLimit g given m) {o : OnEpoch K}
    (ho : o ≠ .notCallable) (hq : o.Quiet) (start rate : K) :
    (∀ fuel, (floatsam g start rate given attr o fuel).2 = .error .diverges) ↔
      ∀ j : Nat, ¬ Drifts g attr m (start + (j + 1 : Nat) * rate) := by
  classical
  constructor
  · intro hdiv j hj
    have hex : ∃ j : Nat, Drifts g attr m (start + (j + 1 : Nat) * rate) := ⟨j, hj⟩
    obtain ⟨tr, htr⟩ := floatsam_total h hd he hw hm ho hq start rate (Nat.find_spec hex)
      (fun j hj => Nat.find_min hex hj) (Nat.lt_succ_self _)
    have := hdiv (Nat.find hex).succ
    rw [htr] at this
    cases this
  · intro hn fuel
    rw [floatsam_eq_loop h hd he hm ho]
    exact floatsamLoop_diverges h hd hw hq rate m fuel 0 start (fun j _ => hn j)

omit [IsStrictOrderedRing K] in
theorem heavyEdges_above {g : Graph V (Val K)} {attr : String} {t : K}
    (ht : ∀ e ∈ g.edgesData, ∀ w, numWeight attr e.2.2 = some w → w < t) : heavyEdges g attr t = [] := by
  unfold heavyEdges
  rw [List.map_eq_nil_iff, List.filter_eq_nil_iff]
  intro e he hc
  cases hw : numWeight attr e.2.2 with
  | none => rw [hw] at hc; cases hc
  | some w =>
    rw [hw] at hc
    simp only [Option.any_some, decide_eq_true_iff] at hc
    exact absurd (ht e he w hw) (not_lt.2 hc)

omit [Field K] [LinearOrder K] [IsStrictOrderedRing K] in
theorem componentOf_nil {nodes : List V} {a : V} (ha : a ∈ nodes) : (componentOf nodes [] a).ncard = 1 := by
  have : componentOf nodes [] a = {a} := by
    ext x
    constructor
    · rintro ⟨_, hx⟩; exact (linked_nil.1 hx).symm
    · rintro rfl; exact ⟨ha, .refl _ _⟩
  rw [this, Set.ncard_singleton]

/-- Beyond every weight, two components drift exactly when there are two nodes and the limit is at most 1. -/
theorem drifts_above {g : Graph V (Val K)} (h : g.WF) {attr : String} {m t : K}
    (ht : ∀ e ∈ g.edgesData, ∀ w, numWeight attr e.2.2 = some w → w < t) :
    Drifts g attr m t ↔ 2 ≤ g.nodes.length ∧ m ≤ 1 := by
  unfold Drifts
  rw [heavyEdges_above ht]
  constructor
  · rintro ⟨a, ha, b, hb, hl, h1, _⟩
    rw [componentOf_nil ha, Nat.cast_one] at h1
    refine ⟨two_le_length_of_ne ha hb ?_, h1⟩
    rintro rfl
    exact hl (.refl _ _)
  · rintro ⟨h2, hm⟩
    obtain ⟨a, ha, b, hb, hne⟩ := exists_ne_of_two_le h.nodup h2
    refine ⟨a, ha, b, hb, fun hl => hne (linked_nil.1 hl), ?_, ?_⟩
    · rw [componentOf_nil ha, Nat.cast_one]; exact hm
    · rw [componentOf_nil hb, Nat.cast_one]; exact hm

omit [DecidableEq V] in
theorem weight_bound (L : List (V × V × Attrs (Val K))) (attr : String) :
    ∃ B, ∀ e ∈ L, ∀ w, numWeight attr e.2.2 = some w → w < B := by
  induction L with
  | nil => exact ⟨0, by simp⟩
  | cons e L ih =>
    obtain ⟨B, hB⟩ := ih
    cases hw : numWeight attr e.2.2 with
    | none =>
      refine ⟨B, fun f hf w hfw => ?_⟩
      rcases List.mem_cons.1 hf with rfl | hf
      · rw [hw] at hfw; cases hfw
      · exact hB f hf w hfw
    | some w0 =>
      refine ⟨max B (w0 + 1), fun f hf w hfw => ?_⟩
      rcases List.mem_cons.1 hf with rfl | hf
      · rw [hw] at hfw; cases hfw
        exact lt_max_of_lt_right (lt_add_one _)
      · exact lt_max_of_lt_left (hB f hf w hfw)

/-- With a positive learning rate and a limit of at most 1, it returns on every graph of two nodes or more. -/
theorem floatsam_terminates [Archimedean K] {g : Graph V (Val K)} (h : g.WF) (hd : g.directed = false)
    {attr : String} (hw : Weighted g attr) {given : Option K} {m : K} (hm : DrifterLimit g given m) (hm1 : m ≤ 1)
    (h2 : 2 ≤ g.nodes.length) {o : OnEpoch K} (ho : o ≠ .notCallable) (hq : o.Quiet) (start : K) {rate : K}
    (hrate : 0 < rate) : ∃ fuel tr t, floatsam g start rate given attr o fuel = (tr, .ok t) := by
  classical
  by_cases he : g.edgesData = []
  · exact ⟨0, [], start, floatsam_no_edges _ h he start rate given attr ho 0⟩
  · obtain ⟨B, hB⟩ := weight_bound g.edgesData attr
    obtain ⟨k, hk⟩ := Archimedean.arch (B - start) hrate
    have hex : ∃ j : Nat, Drifts g attr m (start + (j + 1 : Nat) * rate) := by
      refine ⟨k, (drifts_above h ?_).2 ⟨h2, hm1⟩⟩
      intro e hem w hew
      refine (hB e hem w hew).trans ?_
      rw [nsmul_eq_mul] at hk
      push_cast
      linarith
    obtain ⟨tr, htr⟩ := floatsam_total h hd he hw hm ho hq start rate (Nat.find_spec hex)
      (fun j hj => Nat.find_min hex hj) (Nat.lt_succ_self _)
    exact ⟨_, _, _, htr⟩

/-- With a positive learning rate, only finitely many thresholds matter: it never returns exactly when none of those up
to the largest weight makes two components of the limit order drift, and the limit is above 1 or there is a single
node. -/
theorem floatsam_diverges_finite [Archimedean K] {g : Graph V (Val K)} (h : g.WF) (hd : g.directed = false)
    (he : g.edgesData ≠ []) {attr : String} (hw : Weighted g attr) {given : Option K} {m : K}
    (hm : DrifterLimit g given m) {o : OnEpoch K} (ho : o ≠ .notCallable) (hq : o.Quiet) (start : K) {rate : K}
    (hrate : 0 < rate) :
    (∀ fuel, (floatsam g start rate given attr o fuel).2 = .error .diverges) ↔
      (g.nodes.length < 2 ∨ 1 < m) ∧ ∀ j : Nat,
        (∃ e ∈ g.edgesData, ∃ w, numWeight attr e.2.2 = some w ∧ start + (j + 1 : Nat) * rate ≤ w) →
          ¬ Drifts g attr m (start + (j + 1 : Nat) * rate) := by
  rw [floatsam_diverges_iff h hd he hw hm ho hq]
  constructor
  · intro hn
    refine ⟨?_, fun j _ => hn j⟩
    obtain ⟨B, hB⟩ := weight_bound g.edgesData attr
    obtain ⟨k, hk⟩ := Archimedean.arch (B - start) hrate
    have := hn k
    rw [drifts_above h] at this
    · rcases Nat.lt_or_ge g.nodes.length 2 with hl | hl
      · exact .inl hl
      · exact .inr (not_le.1 (fun hc => this ⟨hl, hc⟩))
    · intro e hem w hew
      refine (hB e hem w hew).trans ?_
      rw [nsmul_eq_mul] at hk
      push_cast
      linarith
  · rintro ⟨hl, hn⟩ j
    by_cases hx : ∃ e ∈ g.edgesData, ∃ w, numWeight attr e.2.2 = some w ∧ start + (j + 1 : Nat) * rate ≤ w
    · exact hn j hx
    · push Not at hx
      rw [drifts_above h hx]
      rintro ⟨h2, h1⟩
      rcases hl with hl | hl
      · omega
      · exact absurd h1 (not_le.2 hl)

/-- On a star, where all edges share a node, it never returns once the limit is above 1. -/
theorem floatsam_star {g : Graph V (Val K)} (h : g.WF) (hd : g.directed = false) (he : g.edgesData ≠ [])
    {attr : String} (hw : Weighted g attr) {given : Option K} {m : K} (hm : DrifterLimit g given m) (hm1 : 1 < m)
    {center : V} (hs : ∀ e ∈ g.edgesData, e.1 = center ∨ e.2.1 = center) {o : OnEpoch K} (ho : o ≠ .notCallable)
    (hq : o.Quiet) (start rate : K) (fuel : Nat) :
    (floatsam g start rate given attr o fuel).2 = .error .diverges := by
  refine (floatsam_diverges_iff h hd he hw hm ho hq start rate).2 ?_ fuel
  intro j
  generalize start + (j + 1 : Nat) * rate = t
  -- a component of several nodes holds the center
  have key : ∀ a ∈ g.nodes, m ≤ ((componentOf g.nodes (heavyEdges g attr t) a).ncard : K) →
      Linked (heavyEdges g attr t) a center := by
    intro a ha hma
    have h1 : 1 < (componentOf g.nodes (heavyEdges g attr t) a).ncard := by
      have := hm1.trans_le hma
      exact_mod_cast this
    obtain ⟨x, hx, y, hy, hxy⟩ := (Set.one_lt_ncard
      ((List.finite_toSet g.nodes).subset (fun x hx => hx.1))).1 h1
    have hne : ∃ z, Linked (heavyEdges g attr t) a z ∧ a ≠ z := by
      by_cases hax : a = x
      · exact ⟨y, hy.2, by rw [hax]; exact hxy⟩
      · exact ⟨x, hx.2, hax⟩
    obtain ⟨z, hz, hne⟩ := hne
    rcases hz.eq_or_mem with hz | ⟨⟨p, hp, hpa⟩, _⟩
    · exact absurd hz hne
    · have hp' := hp
      obtain ⟨e, hem, hpe⟩ := List.mem_map.1 hp
      have hem := List.mem_of_mem_filter hem
      have hcen : p.1 = center ∨ p.2 = center := by rw [← hpe]; exact hs e hem
      have hl : Linked (heavyEdges g attr t) p.1 p.2 := .of_mem hp'
      rcases hpa with rfl | rfl <;> rcases hcen with hc | hc
      · rw [hc]; exact .refl _ _
      · rw [← hc]; exact hl
      · rw [← hc]; exact hl.symm
      · rw [hc]; exact .refl _ _
  rintro ⟨a, ha, b, hb, hl, h1, h2⟩
  exact hl ((key a ha h1).trans (key b hb h2).symm)

/-- On a connected graph all of whose weights are equal, it never returns once the limit is above 1. -/
theorem floatsam_uniform {g : Graph V (Val K)} (h : g.WF) (hd : g.directed = false) (he : g.edgesData ≠ [])
    {attr : String} {w : K} (hw : ∀ e ∈ g.edgesData, numWeight attr e.2.2 = some w)
    (hc : ∀ a ∈ g.nodes, ∀ b ∈ g.nodes, Linked g.edges a b) {given : Option K} {m : K} (hm : DrifterLimit g given m)
    (hm1 : 1 < m) {o : OnEpoch K} (ho : o ≠ .notCallable) (hq : o.Quiet) (start rate : K) (fuel : Nat) :
    (floatsam g start rate given attr o fuel).2 = .error .diverges := by
  refine (floatsam_diverges_iff h hd he (fun e hem => ⟨w, hw e hem⟩) hm ho hq start rate).2 ?_ fuel
  intro j
  generalize start + (j + 1 : Nat) * rate = t
  rcases le_or_gt t w with ht | ht
  · have hall : heavyEdges g attr t = g.edges := by
      rw [edges_eq_data]
      unfold heavyEdges
      congr 1
      rw [List.filter_eq_self]
      intro e hem
      rw [hw e hem]
      simpa using ht
    rintro ⟨a, ha, b, hb, hl, _⟩
    rw [hall] at hl
    exact hl (hc a ha b hb)
  · rw [drifts_above h (fun e hem w' hw' => by rw [hw e hem] at hw'; cases hw'; exact ht)]
    exact fun hx => absurd hx.2 (not_le.2 hm1)

theorem exp_two : (7 : ℝ) < Real.exp 2 ∧ Real.exp 2 < 8 := by
  have e : Real.exp 2 = Real.exp 1 * Real.exp 1 := by rw [← Real.exp_add]; norm_num
  have h1 := Real.exp_one_gt_d9
  have h2 := Real.exp_one_lt_d9
  rw [e]
  constructor <;> nlinarith

/-- The default limit is at most 1 exactly when the largest component has at most 7 nodes. -/
theorem default_limit_small {g : Graph V (Val K)} {m : K} (hm : DrifterLimit g none m) :
    m ≤ 1 ↔ ∀ s ∈ componentOrders g.nodes g.edges, s ≤ 7 := by
  rcases hm with hm | ⟨_, order, k, h1, h2, rfl, h3, h4⟩
  · cases hm
  · constructor
    · intro hk s hs
      have hk : k ≤ 1 := by exact_mod_cast hk
      have : (order : ℝ) < 8 := by
        refine h4.trans_le ((Real.exp_le_exp.2 ?_).trans exp_two.2.le)
        have : (k : ℝ) ≤ 1 := by exact_mod_cast hk
        linarith
      have : order < 8 := by exact_mod_cast this
      have := h2 s hs
      omega
    · intro hs
      have ho : (order : ℝ) ≤ 7 := by exact_mod_cast hs order h1
      have : (k : ℝ) < 2 := Real.exp_lt_exp.1 (h3.trans_lt (ho.trans_lt exp_two.1))
      have : k < 2 := by exact_mod_cast this
      have : k ≤ 1 := by omega
      exact_mod_cast this

/-- So, by default, it returns on every graph of two nodes or more whose components have at most 7 nodes. -/
theorem floatsam_default_terminates [Archimedean K] {g : Graph V (Val K)} (h : g.WF) (hd : g.directed = false)
    {attr : String} (hw : Weighted g attr) (h2 : 2 ≤ g.nodes.length)
    (h7 : ∀ s ∈ componentOrders g.nodes g.edges, s ≤ 7) {o : OnEpoch K} (ho : o ≠ .notCallable) (hq : o.Quiet)
    (start : K) {rate : K} (hrate : 0 < rate) : ∃ fuel tr t, floatsam g start rate none attr o fuel = (tr, .ok t) := by
  obtain ⟨m, hm, _⟩ := floatsam_limit h hd (fun hc => by rw [hc] at h2; simp at h2) none
  exact floatsam_terminates h hd hw hm ((default_limit_small hm).2 h7) h2 ho hq start hrate

/-- But it never does, whatever the starting threshold and learning rate, on any star with a larger component. -/
theorem floatsam_default_star {g : Graph V (Val K)} (h : g.WF) (hd : g.directed = false) (he : g.edgesData ≠ [])
    {attr : String} (hw : Weighted g attr) {center : V} (hs : ∀ e ∈ g.edgesData, e.1 = center ∨ e.2.1 = center)
    (h8 : ∃ s ∈ componentOrders g.nodes g.edges, 8 ≤ s) {o : OnEpoch K} (ho : o ≠ .notCallable) (hq : o.Quiet)
    (start rate : K) (fuel : Nat) : (floatsam g start rate none attr o fuel).2 = .error .diverges := by
  obtain ⟨m, hm, _⟩ := floatsam_limit h hd (nodes_ne_nil_of_edges h he) none
  refine floatsam_star h hd he hw hm ?_ hs ho hq start rate fuel
  by_contra hc
  obtain ⟨s, hs1, hs2⟩ := h8
  have := (default_limit_small hm).1 (not_lt.1 hc) s hs1
  omega

/-- A star of eight nodes. -/
def starGraph : Graph Int (Val ℚ) :=
  ⟨false, false, [], [(0, []), (1, []), (2, []), (3, []), (4, []), (5, []), (6, []), (7, [])],
    [⟨0, 1, [(.int 0, [(.str "weight", .num 1)])]⟩, ⟨0, 2, [(.int 0, [(.str "weight", .num 2)])]⟩,
     ⟨0, 3, [(.int 0, [(.str "weight", .num 3)])]⟩, ⟨0, 4, [(.int 0, [(.str "weight", .num 4)])]⟩,
     ⟨0, 5, [(.int 0, [(.str "weight", .num 5)])]⟩, ⟨0, 6, [(.int 0, [(.str "weight", .num 6)])]⟩,
     ⟨0, 7, [(.int 0, [(.str "weight", .num 7)])]⟩]⟩

theorem starGraph_wf : starGraph.WF := by constructor <;> decide

/-- C56 is false: by default, on this star, the algorithm never returns. -/
theorem floatsam_star_diverges (fuel : Nat) :
    (floatsam starGraph 0 (1 / 100) none "weight" .none fuel).2 = .error .diverges := by
  have h2 : (connectedComponentOrders starGraph none).yields = [8] := by decide +kernel
  rw [connectedComponentOrders_exact starGraph_wf rfl] at h2
  have hed : starGraph.edgesData = (List.range 7).map (fun i =>
      ((0 : Int), ((i + 1 : Nat) : Int), [(PyKey.str "weight", Val.num ((i + 1 : Nat) : ℚ))])) := by decide +kernel
  refine floatsam_default_star (center := 0) starGraph_wf rfl ?_ ?_ ?_ ?_ ?_ ?_ 0 (1 / 100) fuel
  · rw [hed]; simp
  · intro e he
    rw [hed] at he
    obtain ⟨i, _, rfl⟩ := List.mem_map.1 he
    exact ⟨_, rfl⟩
  · intro e he
    rw [hed] at he
    obtain ⟨i, _, rfl⟩ := List.mem_map.1 he
    exact .inl rfl
  · have h2 : componentOrders starGraph.nodes starGraph.edges = [8] := h2
    rw [h2]; exact ⟨8, by simp, le_rfl⟩
  · intro hc; cases hc
  · intro f hf; cases hf

theorem gen_eq {α : Type} {g : Gen α} {l : List α} (h1 : g.yields = l) (h2 : g.err.isNone = true) : g = ⟨l, none⟩ := by
  cases g with
  | mk y e => cases e with
    | none => exact congrArg (fun l => Gen.mk l none) h1
    | some e => cases h2

/-- Two triangles of weight 3 tied by an edge of weight 1. -/
def dumbbell : Graph Int (Val ℚ) :=
  ⟨false, false, [], [(0, []), (1, []), (2, []), (3, []), (4, []), (5, [])],
    [⟨0, 1, [(.int 0, [(.str "weight", .num 3)])]⟩, ⟨1, 2, [(.int 0, [(.str "weight", .num 3)])]⟩,
     ⟨0, 2, [(.int 0, [(.str "weight", .num 3)])]⟩, ⟨3, 4, [(.int 0, [(.str "weight", .num 3)])]⟩,
     ⟨4, 5, [(.int 0, [(.str "weight", .num 3)])]⟩, ⟨3, 5, [(.int 0, [(.str "weight", .num 3)])]⟩,
     ⟨2, 3, [(.int 0, [(.str "weight", .num 1)])]⟩]⟩

theorem dumbbell_wf : dumbbell.WF := by constructor <;> decide

/-- The hypotheses of `floatsam_returns`, and its result, on this graph: the threshold 1 keeps the tie. -/
theorem floatsam_sample :
    dumbbell.WF ∧ dumbbell.directed = false ∧ dumbbell.edgesData ≠ [] ∧ Weighted dumbbell "weight" ∧
      DrifterLimit dumbbell (some 3) 3 ∧ floatsam dumbbell 0 1 (some 3) "weight" .none 2 = ([], .ok 1) := by
  refine ⟨dumbbell_wf, rfl, by decide +kernel, ?_, .inl rfl, ?_⟩
  · have : ∀ e ∈ dumbbell.edgesData, (numWeight "weight" e.2.2).isSome = true := by decide +kernel
    intro e he
    exact Option.isSome_iff_exists.1 (this e he)
  · have h1 : connectedComponentOrders dumbbell (some (floatsamFilter "weight" (0 + 1))) = ⟨[6], none⟩ := 
      gen_eq (by decide +kernel) (by decide +kernel)
    have h2 : connectedComponentOrders dumbbell (some (floatsamFilter "weight" (0 + 1 + 1))) = ⟨[3, 3], none⟩ := 
      gen_eq (by decide +kernel) (by decide +kernel)
    have hs : dumbbell.size ≠ 0 := by decide +kernel
    unfold floatsam floatsamR
    simp only [maxDrifterOrder]
    rw [if_neg hs]
    rw [floatsamLoopR.eq_2]
    simp only [secondLargestComponentOrder, h1]
    rw [floatsamLoopR.eq_2]
    simp only [secondLargestComponentOrder, h2]
    simp [Gen.toList, nlargest, List.mergeSort, List.MergeSort.Internal.splitInTwo, OnEpoch.call]

/-! ### C61 -/

/-- With a learning rate which is not positive, it never returns unless the first step already separates two nodes: it
does not look for a threshold from above. -/
theorem floatsam_negative {g : Graph V (Val K)} (h : g.WF) (hd : g.directed = false) (he : g.edgesData ≠ [])
    {attr : String} (hw : Weighted g attr) {given : Option K} {m : K} (hm : DrifterLimit g given m) {o : OnEpoch K}
    (ho : o ≠ .notCallable) (hq : o.Quiet) (start : K) {rate : K} (hrate : rate ≤ 0)
    (hc : ∀ a ∈ g.nodes, ∀ b ∈ g.nodes, Linked (heavyEdges g attr (start + rate)) a b) (fuel : Nat) :
    (floatsam g start rate given attr o fuel).2 = .error .diverges := by
  refine (floatsam_diverges_iff h hd he hw hm ho hq start rate).2 ?_ fuel
  rintro j ⟨a, ha, b, hb, hl, _⟩
  apply hl
  refine (hc a ha b hb).mono ?_
  intro p hp
  obtain ⟨e, hem, rfl⟩ := List.mem_map.1 hp
  rw [List.mem_filter] at hem
  refine List.mem_map.2 ⟨e, List.mem_filter.2 ⟨hem.1, ?_⟩, rfl⟩
  obtain ⟨w, hew⟩ := hw e hem.1
  have h2 := hem.2
  rw [hew] at h2 ⊢
  simp only [Option.any_some, decide_eq_true_iff] at h2 ⊢
  refine le_trans ?_ h2
  have : ((j + 1 : Nat) : K) * rate ≤ 1 * rate := mul_le_mul_of_nonpos_right (by simp) hrate
  linarith

/-- Two nodes tied by an edge. -/
def tie (w : ℚ) : Graph Int (Val ℚ) :=
  ⟨false, false, [], [(0, []), (1, [])], [⟨0, 1, [(.int 0, [(.str "weight", .num w)])]⟩]⟩

theorem tie_wf (w : ℚ) : (tie w).WF := by
  have h := (show (tie 0).WF by constructor <;> decide)
  exact ⟨h.attrs, h.nodup, h.nodeAttrs, fun l hl => by
      have hl : l = ⟨0, 1, [(.int 0, [(.str "weight", .num w)])]⟩ := List.mem_singleton.1 hl
      subst hl; simp [tie, Graph.nodes, Dict.keys],
    by simp [tie], by simp [tie], by simp [tie, Dict.keys], by simp [tie, Dict.keys], by simp [tie, Dict.keys]⟩

/-- C61 is false: on a graph of one edge of weight 1, starting from 2 with a learning rate of -1, it never returns, while
with opposite weights, starting threshold and learning rate it returns -1. -/
theorem floatsam_not_reversed :
    (∀ fuel, (floatsam (tie 1) 2 (-1) (some 1) "weight" .none fuel).2 = .error .diverges) ∧
      floatsam (tie (-1)) (-2) 1 (some 1) "weight" .none 2 = ([], .ok (-1)) := by
  constructor
  · intro fuel
    refine floatsam_negative (tie_wf 1) rfl (by decide +kernel) ?_ (.inl rfl) (by simp) (by intro f hf; cases hf) 2
      (by norm_num) ?_ fuel
    · have : ∀ e ∈ (tie 1).edgesData, (numWeight "weight" e.2.2).isSome = true := by decide +kernel
      intro e he
      exact Option.isSome_iff_exists.1 (this e he)
    · have h1 : heavyEdges (tie 1) "weight" (2 + -1) = [(0, 1)] := by decide +kernel
      rw [h1]
      have h01 : Linked [((0 : Int), (1 : Int))] 0 1 := .of_mem (by simp)
      intro a ha b hb
      have hn : (tie 1).nodes = [0, 1] := rfl
      rw [hn] at ha hb
      simp only [List.mem_cons, List.not_mem_nil, or_false] at ha hb
      rcases ha with rfl | rfl <;> rcases hb with rfl | rfl
      · exact .refl _ _
      · exact h01
      · exact h01.symm
      · exact .refl _ _
  · have h1 : connectedComponentOrders (tie (-1)) (some (floatsamFilter "weight" (-2 + 1))) = ⟨[2], none⟩ := 
      gen_eq (by decide +kernel) (by decide +kernel)
    have h2 : connectedComponentOrders (tie (-1)) (some (floatsamFilter "weight" (-2 + 1 + 1))) = ⟨[1, 1], none⟩ := 
      gen_eq (by decide +kernel) (by decide +kernel)
    have hs : (tie (-1)).size ≠ 0 := by decide +kernel
    unfold floatsam floatsamR
    simp only [maxDrifterOrder]
    rw [if_neg hs]
    rw [floatsamLoopR.eq_2]
    simp only [secondLargestComponentOrder, h1]
    rw [floatsamLoopR.eq_2]
    simp only [secondLargestComponentOrder, h2]
    simp [Gen.toList, nlargest, List.mergeSort, List.MergeSort.Internal.splitInTwo, OnEpoch.call]
    norm_num

end Pelote
