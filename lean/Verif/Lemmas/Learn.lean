import Verif.Model.Learn
import Verif.Spec.Learn
import Verif.Props.Components

/-! Lemmas about the floatsam algorithm. -/
namespace Pelote
variable {V K : Type} [DecidableEq V] [Field K] [LinearOrder K]

omit [DecidableEq V] in
theorem floatsamFilter_ok {attr : String} {t w : K} {a : Attrs (Val K)} (h : numWeight attr a = some w) (u v : V) :
    floatsamFilter attr t u v a = .ok (decide (t ≤ w)) := by
  unfold numWeight at h
  unfold floatsamFilter Dict.getItem
  split at h
  · rename_i hg; rw [hg]; cases h; rfl
  · rename_i hg; rw [hg]; cases h; rfl
  · rename_i hg; rw [hg]; cases h; rfl
  · cases h

theorem countP_second {sizes : List Nat} {r : Nat} (h : IsSecondLargest sizes r) (m : K) [IsStrictOrderedRing K] :
    2 ≤ sizes.countP (fun c : Nat => decide (m ≤ (c : K))) ↔ m ≤ (r : K) := by
  obtain ⟨a, rest, hp, ha, hrest⟩ := h
  rw [hp.countP_eq]
  constructor
  · intro h2
    by_contra hc
    have h0 : rest.countP (fun c : Nat => decide (m ≤ (c : K))) = 0 := by
      rw [List.countP_eq_zero]
      intro x hx hm
      have hm := of_decide_eq_true hm
      exact hc (hm.trans (by exact_mod_cast hrest x hx))
    rw [List.countP_cons, List.countP_cons, h0, if_neg (by simpa using hc)] at h2
    split at h2 <;> omega
  · intro hm
    have hma : m ≤ (a : K) := hm.trans (by exact_mod_cast ha)
    rw [List.countP_cons, List.countP_cons, if_pos (by simpa using hm), if_pos (by simpa using hma)]
    omega

theorem second_heavy {g : Graph V (Val K)} (h : g.WF) (hd : g.directed = false) {attr : String}
    (hw : Weighted g attr) (t : K) :
    ∃ c, secondLargestComponentOrder g (some (floatsamFilter attr t)) = .ok c ∧ DrifterOrder g attr t c := by
  obtain ⟨r, h1, h2⟩ := secondLargestComponentOrder_filter h hd (f := floatsamFilter attr t)
    (p := fun _ _ a => (numWeight attr a).any (fun w => decide (t ≤ w))) (by
      intro e he
      obtain ⟨w, hw⟩ := hw e he
      rw [floatsamFilter_ok hw, floatsamFilter_ok hw, hw]
      exact ⟨rfl, rfl⟩)
  exact ⟨r, h1, h2⟩

theorem componentOf_congr {nodes : List V} {pairs : List (V × V)} {a b : V} (h : Linked pairs a b) :
    componentOf nodes pairs a = componentOf nodes pairs b := by
  ext x
  exact ⟨fun hx => ⟨hx.1, h.symm.trans hx.2⟩, fun hx => ⟨hx.1, h.trans hx.2⟩⟩

theorem two_le_length_of_ne {α : Type} {l : List α} {a b : α} (ha : a ∈ l) (hb : b ∈ l) (h : a ≠ b) :
    2 ≤ l.length := by
  match l, ha, hb with
  | [x], ha, hb => rw [List.mem_singleton] at ha hb; exact absurd (ha.trans hb.symm) h
  | _ :: _ :: _, _, _ => simp

theorem exists_ne_of_two_le {α : Type} {l : List α} (hn : l.Nodup) (h : 2 ≤ l.length) :
    ∃ a ∈ l, ∃ b ∈ l, a ≠ b := by
  match l, hn, h with
  | a :: b :: l, hn, _ =>
    refine ⟨a, by simp, b, by simp, ?_⟩
    rintro rfl
    simp at hn

/-- Two components satisfying a predicate, by their sizes or by their nodes. -/
theorem two_components {nodes : List V} (hn : nodes.Nodup) (pairs : List (V × V)) (p : Nat → Bool) :
    2 ≤ (componentOrders nodes pairs).countP p ↔
      ∃ a ∈ nodes, ∃ b ∈ nodes, ¬ Linked pairs a b ∧ p (componentOf nodes pairs a).ncard = true ∧
        p (componentOf nodes pairs b).ncard = true := by
  have hfirst : (firstNodes nodes pairs).Nodup := hn.filter _
  have hsub : ∀ r ∈ firstNodes nodes pairs, r ∈ nodes := fun r hr => List.mem_of_mem_filter hr
  unfold componentOrders
  rw [List.countP_map, List.countP_eq_length_filter]
  constructor
  · intro h2
    obtain ⟨a, ha, b, hb, hne⟩ := exists_ne_of_two_le (hfirst.filter _) h2
    rw [List.mem_filter] at ha hb
    refine ⟨a, hsub a ha.1, b, hsub b hb.1, ?_, ha.2, hb.2⟩
    intro hl
    obtain ⟨r, _, hu⟩ := firstNodes_partition pairs b (hsub b hb.1)
    exact hne ((hu a ⟨ha.1, hl⟩).trans (hu b ⟨hb.1, .refl _ _⟩).symm)
  · rintro ⟨a, ha, b, hb, hl, hpa, hpb⟩
    obtain ⟨ra, ⟨hra, hla⟩, _⟩ := firstNodes_partition pairs a ha
    obtain ⟨rb, ⟨hrb, hlb⟩, _⟩ := firstNodes_partition pairs b hb
    refine two_le_length_of_ne (a := ra) (b := rb) ?_ ?_ ?_
    · rw [List.mem_filter]
      refine ⟨hra, ?_⟩
      rw [Function.comp_apply, componentOf_congr hla]; exact hpa
    · rw [List.mem_filter]
      refine ⟨hrb, ?_⟩
      rw [Function.comp_apply, componentOf_congr hlb]; exact hpb
    · rintro rfl
      exact hl (hla.symm.trans hlb)

theorem drifts_iff [IsStrictOrderedRing K] {g : Graph V (Val K)} (h : g.WF) {attr : String} {t : K} {c : Option Nat}
    (hc : DrifterOrder g attr t c) (m : K) :
    c.any (fun c : Nat => decide ((c : K) ≥ m)) = true ↔ Drifts g attr m t := by
  have ht := two_components h.nodup (heavyEdges g attr t) (fun c : Nat => decide (m ≤ (c : K)))
  simp only [decide_eq_true_iff] at ht
  unfold Drifts
  rw [← ht]
  cases c with
  | none =>
    simp only [Option.any_none, Bool.false_eq_true, false_iff, not_le]
    have := hc.1.1 rfl
    exact lt_of_le_of_lt List.countP_le_length this
  | some r =>
    have := countP_second (hc.2 r rfl) m
    unfold heavyOrders at this
    rw [this]
    simp

/-- The calls made by a callback which does not raise. -/
def OnEpoch.Quiet (o : OnEpoch K) : Prop := ∀ f, o = .function f → ∀ e, f e = .ok ()

/-- The epochs given to the callback, from the `n`-th one and the threshold `t`. -/
def EpochsFrom (g : Graph V (Val K)) (rate m : K) (attr : String) (n : Nat) (t : K) (tr : List (FloatsamEpoch K)) :
    Prop :=
  ∀ j e, tr[j]? = some e → e.nth = n + j + 1 ∧ e.maxDrifterOrder = m ∧ e.threshold = t + (j + 1 : Nat) * rate ∧
    DrifterOrder g attr e.threshold e.drifterOrder

theorem OnEpoch.call_quiet {o : OnEpoch K} (h : o.Quiet) (e : FloatsamEpoch K) :
    o.call e = ((o.call e).1, .ok ()) := by
  cases o with
  | none => rfl
  | notCallable => rfl
  | function f => show ([e], f e) = ([e], Except.ok ()); rw [h f rfl e]

/-- One iteration. -/
theorem floatsamLoopR_step [IsStrictOrderedRing K] (rnd : K → K) {g : Graph V (Val K)} (h : g.WF)
    (hd : g.directed = false) {attr : String} (hw : Weighted g attr) {o : OnEpoch K} (ho : o.Quiet) (rate m : K)
    (fuel n : Nat) (t : K) :
    ∃ c, DrifterOrder g attr (rnd (t + rate)) c ∧
      (Drifts g attr m (rnd (t + rate)) → floatsamLoopR rnd g rate m attr o (fuel + 1) n t =
        ((o.call ⟨n + 1, m, c, rnd (t + rate)⟩).1, .ok t)) ∧
      (¬ Drifts g attr m (rnd (t + rate)) → floatsamLoopR rnd g rate m attr o (fuel + 1) n t =
        ((o.call ⟨n + 1, m, c, rnd (t + rate)⟩).1 ++
            (floatsamLoopR rnd g rate m attr o fuel (n + 1) (rnd (t + rate))).1,
          (floatsamLoopR rnd g rate m attr o fuel (n + 1) (rnd (t + rate))).2)) := by
  obtain ⟨c, hc, hD⟩ := second_heavy h hd hw (rnd (t + rate))
  refine ⟨c, hD, ?_, ?_⟩
  · intro hdr
    rw [floatsamLoopR.eq_2]
    simp only [hc]
    rw [OnEpoch.call_quiet ho]
    simp only
    rw [if_pos ((drifts_iff h hD m).2 hdr)]
  · intro hdr
    rw [floatsamLoopR.eq_2]
    simp only [hc]
    rw [OnEpoch.call_quiet ho]
    simp only
    rw [if_neg (fun hx => hdr ((drifts_iff h hD m).1 hx))]

/-- One iteration, in exact arithmetic. -/
theorem floatsamLoop_step [IsStrictOrderedRing K] {g : Graph V (Val K)} (h : g.WF) (hd : g.directed = false)
    {attr : String} (hw : Weighted g attr) {o : OnEpoch K} (ho : o.Quiet) (rate m : K) (fuel n : Nat) (t : K) :
    ∃ c, DrifterOrder g attr (t + rate) c ∧
      (Drifts g attr m (t + rate) → floatsamLoop g rate m attr o (fuel + 1) n t =
        ((o.call ⟨n + 1, m, c, t + rate⟩).1, .ok t)) ∧
      (¬ Drifts g attr m (t + rate) → floatsamLoop g rate m attr o (fuel + 1) n t =
        ((o.call ⟨n + 1, m, c, t + rate⟩).1 ++ (floatsamLoop g rate m attr o fuel (n + 1) (t + rate)).1,
          (floatsamLoop g rate m attr o fuel (n + 1) (t + rate)).2)) :=
  floatsamLoopR_step (fun x => x) h hd hw ho rate m fuel n t

theorem EpochsFrom.cons {g : Graph V (Val K)} {rate m : K} {attr : String} {n : Nat} {t : K}
    {tr : List (FloatsamEpoch K)} {o : OnEpoch K} {c : Option Nat} (hc : DrifterOrder g attr (t + rate) c)
    (h : EpochsFrom g rate m attr (n + 1) (t + rate) tr) (hn : (∀ f, o ≠ .function f) → tr = []) :
    EpochsFrom g rate m attr n t ((o.call ⟨n + 1, m, c, t + rate⟩).1 ++ tr) := by
  have hquiet : (∀ f, o ≠ .function f) → (o.call ⟨n + 1, m, c, t + rate⟩).1 = [] := by
    intro hf
    cases o with
    | none => rfl
    | notCallable => rfl
    | function f => exact absurd rfl (hf f)
  by_cases hf : ∃ f, o = .function f
  · obtain ⟨f, rfl⟩ := hf
    intro j e he
    simp only [OnEpoch.call, List.cons_append, List.nil_append] at he
    cases j with
    | zero =>
      simp only [List.getElem?_cons_zero, Option.some.injEq] at he
      subst he
      refine ⟨rfl, rfl, ?_, hc⟩
      simp
    | succ j =>
      rw [List.getElem?_cons_succ] at he
      obtain ⟨h1, h2, h3, h4⟩ := h j e he
      refine ⟨by omega, h2, ?_, h4⟩
      rw [h3]
      push_cast
      ring
  · push Not at hf
    rw [hquiet hf, hn hf]
    intro j e he
    simp at he

/-- The loop stops at the first threshold where a large component drifts. -/
theorem floatsamLoop_stops [IsStrictOrderedRing K] {g : Graph V (Val K)} (h : g.WF) (hd : g.directed = false)
    {attr : String} (hw : Weighted g attr) {o : OnEpoch K} (ho : o.Quiet) (rate m : K) {k fuel : Nat} (hk : k < fuel)
    (n : Nat) (t : K) (h1 : Drifts g attr m (t + (k + 1 : Nat) * rate))
    (h2 : ∀ j < k, ¬ Drifts g attr m (t + (j + 1 : Nat) * rate)) :
    ∃ tr, floatsamLoop g rate m attr o fuel n t = (tr, .ok (t + k * rate)) ∧ EpochsFrom g rate m attr n t tr ∧
      ((∃ f, o = .function f) → tr.length = k + 1) ∧ ((∀ f, o ≠ .function f) → tr = []) := by
  induction k generalizing fuel n t with
  | zero =>
    obtain ⟨fuel, rfl⟩ : ∃ f, fuel = f + 1 := ⟨fuel - 1, by omega⟩
    obtain ⟨c, hc, hs, _⟩ := floatsamLoop_step h hd hw ho rate m fuel n t
    rw [hs (by simpa using h1)]
    refine ⟨_, by rw [Nat.cast_zero, zero_mul, add_zero], ?_, ?_, ?_⟩
    · have := EpochsFrom.cons (n := n) (m := m) (o := o) hc (tr := []) (by intro j e he; simp at he) (fun _ => rfl)
      rwa [List.append_nil] at this
    · rintro ⟨f, rfl⟩; rfl
    · intro hf
      cases o with
      | none => rfl
      | notCallable => rfl
      | function f => exact absurd rfl (hf f)
  | succ k ih =>
    obtain ⟨fuel, rfl⟩ : ∃ f, fuel = f + 1 := ⟨fuel - 1, by omega⟩
    obtain ⟨c, hc, _, hs⟩ := floatsamLoop_step h hd hw ho rate m fuel n t
    have e : ∀ j : Nat, t + rate + (j + 1 : Nat) * rate = t + (j + 1 + 1 : Nat) * rate := by
      intro j; push_cast; ring
    obtain ⟨tr, htr, hE, hl, hnil⟩ := ih (fuel := fuel) (by omega) (n + 1) (t + rate) (by rw [e]; exact h1) (by
      intro j hj
      rw [e]
      exact h2 (j + 1) (by omega))
    rw [hs (by simpa using h2 0 (by omega)), htr]
    refine ⟨_, ?_, EpochsFrom.cons hc hE hnil, ?_, ?_⟩
    · congr 2
      push_cast; ring
    · rintro ⟨f, rfl⟩
      simp only [OnEpoch.call, List.cons_append, List.nil_append, List.length_cons]
      rw [hl ⟨f, rfl⟩]
    · intro hf
      rw [hnil hf]
      cases o with
      | none => rfl
      | notCallable => rfl
      | function f => exact absurd rfl (hf f)

theorem floatsamLoop_diverges [IsStrictOrderedRing K] {g : Graph V (Val K)} (h : g.WF) (hd : g.directed = false)
    {attr : String} (hw : Weighted g attr) {o : OnEpoch K} (ho : o.Quiet) (rate m : K) (fuel n : Nat) (t : K)
    (h2 : ∀ j < fuel, ¬ Drifts g attr m (t + (j + 1 : Nat) * rate)) :
    (floatsamLoop g rate m attr o fuel n t).2 = .error .diverges := by
  induction fuel generalizing n t with
  | zero => rfl
  | succ fuel ih =>
    obtain ⟨c, hc, _, hs⟩ := floatsamLoop_step h hd hw ho rate m fuel n t
    rw [hs (by simpa using h2 0 (by omega))]
    simp only
    apply ih
    intro j hj
    have := h2 (j + 1) (by omega)
    have e : t + rate + (j + 1 : Nat) * rate = t + (j + 1 + 1 : Nat) * rate := by push_cast; ring
    rw [e]
    exact this

end Pelote
