import Verif.Props.Sparsification

/-! C30: when `edge_disparity` raises. -/
set_option linter.unusedSectionVars false
namespace Pelote
open Graph

section
variable {V N : Type} [Zero N] [One N]

theorem toNum_error {x : Val N} {e : PyErr} (h : x.toNum = .error e) : ∃ m, e = .typeError m := by
  cases x with
  | num k => simp [Val.toNum] at h
  | bool b => cases b <;> simp [Val.toNum] at h
  | _ => simp only [Val.toNum, Except.error.injEq] at h; exact ⟨_, h.symm⟩

theorem weightOf_error {attr : String} {a : Attrs (Val N)} {e : PyErr} (h : weightOf attr a = .error e) :
    ∃ m, e = .typeError m := by
  unfold weightOf at h
  split at h
  · cases h
  · exact toNum_error h

theorem weightsOf_cases (attr : String) (as : List (Attrs (Val N))) :
    (∃ ws, weightsOf attr as = .ok ws ∧ ∀ a ∈ as, ∃ k, weightOf attr a = .ok k) ∨
    (∃ m, weightsOf attr as = .error (.typeError m)) := by
  induction as with
  | nil => exact .inl ⟨[], rfl, by simp⟩
  | cons a as ih =>
    cases hw : weightOf attr a with
    | error e =>
      obtain ⟨m, rfl⟩ := weightOf_error hw
      exact .inr ⟨m, by simp only [weightsOf, hw]⟩
    | ok k =>
      rcases ih with ⟨ws, h1, h2⟩ | ⟨m, h1⟩
      · refine .inl ⟨k :: ws, by simp only [weightsOf, hw, h1], ?_⟩
        intro b hb
        rcases List.mem_cons.1 hb with rfl | hb
        · exact ⟨k, hw⟩
        · exact h2 b hb
      · exact .inr ⟨m, by simp only [weightsOf, hw, h1]⟩

variable [DecidableEq V]

theorem weightedDegree_cases (ops : NumOps N) (g : Graph V (Val N)) (attr : String) (n : V) :
    (∃ s, weightedDegree ops g attr n = .ok s ∧ ∀ e ∈ g.edgesOf n, ∃ k, weightOf attr e.2.2.2 = .ok k) ∨
    (∃ m, weightedDegree ops g attr n = .error (.typeError m)) := by
  unfold weightedDegree
  rcases weightsOf_cases attr ((g.edgesOf n).map (fun e => e.2.2.2)) with ⟨ws, h1, h2⟩ | ⟨m, h1⟩
  · rw [h1]
    simp only
    rcases weightsOf_cases attr (((g.edgesOf n).filter (fun e => e.2.1 = n)).map (fun e => e.2.2.2)) with ⟨ls, h3, -⟩ | ⟨m, h3⟩
    · rw [h3]
      exact .inl ⟨_, rfl, fun e he => h2 _ (List.mem_map_of_mem he)⟩
    · rw [h3]
      exact .inr ⟨m, rfl⟩
  · rw [h1]
    exact .inr ⟨m, rfl⟩

theorem weightedDegrees_cases (ops : NumOps N) (g : Graph V (Val N)) (attr : String) (ns : List V) :
    (∃ d, weightedDegrees ops g attr ns = .ok d ∧ d.keys = ns ∧
      ∀ n ∈ ns, ∀ e ∈ g.edgesOf n, ∃ k, weightOf attr e.2.2.2 = .ok k) ∨
    (∃ m, weightedDegrees ops g attr ns = .error (.typeError m)) := by
  induction ns with
  | nil => exact .inl ⟨[], rfl, rfl, by simp⟩
  | cons n ns ih =>
    rcases weightedDegree_cases ops g attr n with ⟨s, h1, h2⟩ | ⟨m, h1⟩
    · rcases ih with ⟨d, h3, h4, h5⟩ | ⟨m, h3⟩
      · refine .inl ⟨(n, s) :: d, by simp only [weightedDegrees, h1, h3], by rw [← h4]; rfl, ?_⟩
        intro x hx
        rcases List.mem_cons.1 hx with rfl | hx
        · exact h2
        · exact h5 x hx
      · exact .inr ⟨m, by simp only [weightedDegrees, h1, h3]⟩
    · exact .inr ⟨m, by simp only [weightedDegrees, h1]⟩

end

section
variable {V N : Type} [LinearOrder V] [PyOrd V] [Zero N] [One N]

/-- The score of an edge seen from `source`. -/
def scoreAt (ops : NumOps N) (g : Graph V (Val N)) (attr : String) (reverse : Bool) (source : V) (sw tw : N)
    (e : V × V × PyKey × Attrs (Val N)) : Py N :=
  disparityScore ops reverse ((e.2.2.2.get? (.str attr)).getD .none) (g.degree source) (g.degree e.2.1) sw tw

/-- The loop over the edges of a node: either each edge listed from its lower end has a score, or one of them raises. -/
theorem disparityEdges_cases (ho : OrderedKeys V) (ops : NumOps N) (g : Graph V (Val N)) (attr : String) (reverse : Bool)
    (wd : Dict V N) (source : V) (sw : N) (es : List (V × V × PyKey × Attrs (Val N)))
    (hget : ∀ e ∈ es, e.2.1 ∈ wd.keys) (d : Dict (V × V) N) :
    (∃ d', disparityEdges ops g attr reverse wd source sw es d = .ok d' ∧
      ∀ e ∈ es, source ≤ e.2.1 → ∃ tw s, wd.get? e.2.1 = some tw ∧ scoreAt ops g attr reverse source sw tw e = .ok s) ∨
    (∃ err, disparityEdges ops g attr reverse wd source sw es d = .error err ∧
      ∃ e ∈ es, ∃ tw, wd.get? e.2.1 = some tw ∧ scoreAt ops g attr reverse source sw tw e = .error err) := by
  induction es generalizing d with
  | nil => exact .inl ⟨d, rfl, by simp⟩
  | cons e es ih =>
    obtain ⟨e0, target, k, a⟩ := e
    obtain ⟨tw, htw⟩ := Dict.exists_get?_of_mem_keys (hget _ List.mem_cons_self)
    simp only at htw
    have ih := ih (fun e he => hget e (List.mem_cons_of_mem _ he))
    have hgt : PyOrd.gt source target = .ok (decide (target < source)) := ho _ _
    by_cases hlt : target < source
    · have hstep : ∀ d, disparityEdges ops g attr reverse wd source sw ((e0, target, k, a) :: es) d =
          disparityEdges ops g attr reverse wd source sw es d := by
        intro d; simp only [disparityEdges, hgt, hlt, decide_true]
      rw [hstep]
      rcases ih d with ⟨d', h1, h2⟩ | ⟨err, h1, e, he, h2⟩
      · refine .inl ⟨d', h1, fun e he hle => ?_⟩
        rcases List.mem_cons.1 he with rfl | he
        · exact absurd hlt (not_lt.2 hle)
        · exact h2 e he hle
      · exact .inr ⟨err, h1, e, List.mem_cons_of_mem _ he, h2⟩
    · have hitem : wd.getItem target = .ok tw := by unfold Dict.getItem; rw [htw]
      cases hs : scoreAt ops g attr reverse source sw tw (e0, target, k, a) with
      | error err =>
        refine .inr ⟨err, ?_, _, List.mem_cons_self, tw, htw, hs⟩
        unfold scoreAt at hs
        simp only [disparityEdges, hgt, hlt, decide_false, hitem]
        rw [hs]
      | ok s =>
        have hstep : disparityEdges ops g attr reverse wd source sw ((e0, target, k, a) :: es) d =
            disparityEdges ops g attr reverse wd source sw es (d.set (source, target) s) := by
          unfold scoreAt at hs
          simp only [disparityEdges, hgt, hlt, decide_false, hitem]
          rw [hs]
        rw [hstep]
        rcases ih (d.set (source, target) s) with ⟨d', h1, h2⟩ | ⟨err, h1, e, he, h2⟩
        · refine .inl ⟨d', h1, fun e he hle => ?_⟩
          rcases List.mem_cons.1 he with rfl | he
          · exact ⟨tw, s, htw, hs⟩
          · exact h2 e he hle
        · exact .inr ⟨err, h1, e, List.mem_cons_of_mem _ he, h2⟩

theorem disparityNodes_cases (ho : OrderedKeys V) (ops : NumOps N) (g : Graph V (Val N)) (attr : String) (reverse : Bool)
    (wd : Dict V N) (ns : List V) (hns : ∀ n ∈ ns, n ∈ wd.keys) (hget : ∀ n, ∀ e ∈ g.edgesOf n, e.2.1 ∈ wd.keys)
    (d : Dict (V × V) N) :
    (∃ d', disparityNodes ops g attr reverse wd ns d = .ok d' ∧
      ∀ n ∈ ns, ∀ e ∈ g.edgesOf n, n ≤ e.2.1 → ∃ sw tw s, wd.get? n = some sw ∧ wd.get? e.2.1 = some tw ∧
        scoreAt ops g attr reverse n sw tw e = .ok s) ∨
    (∃ err, disparityNodes ops g attr reverse wd ns d = .error err ∧
      ∃ n ∈ ns, ∃ e ∈ g.edgesOf n, ∃ sw tw, wd.get? n = some sw ∧ wd.get? e.2.1 = some tw ∧
        scoreAt ops g attr reverse n sw tw e = .error err) := by
  induction ns generalizing d with
  | nil => exact .inl ⟨d, rfl, by simp⟩
  | cons n ns ih =>
    obtain ⟨sw, hsw⟩ := Dict.exists_get?_of_mem_keys (hns n List.mem_cons_self)
    have hitem : wd.getItem n = .ok sw := by unfold Dict.getItem; rw [hsw]
    have ih := ih (fun m hm => hns m (List.mem_cons_of_mem _ hm))
    rcases disparityEdges_cases ho ops g attr reverse wd n sw (g.edgesOf n) (hget n) d with ⟨d', h1, h2⟩ | ⟨err, h1, e, he, tw, h2, h3⟩
    · rcases ih d' with ⟨d'', h3, h4⟩ | ⟨err, h3, m, hm, h4⟩
      · refine .inl ⟨d'', by simp only [disparityNodes, hitem, h1, h3], ?_⟩
        intro m hm e he hle
        rcases List.mem_cons.1 hm with rfl | hm
        · obtain ⟨tw, s, a1, a2⟩ := h2 e he hle
          exact ⟨sw, tw, s, hsw, a1, a2⟩
        · exact h4 m hm e he hle
      · exact .inr ⟨err, by simp only [disparityNodes, hitem, h1, h3], m, List.mem_cons_of_mem _ hm, h4⟩
    · exact .inr ⟨err, by simp only [disparityNodes, hitem, h1], n, List.mem_cons_self, e, he, sw, tw, hsw, h2, h3⟩

end

section
variable {V K : Type} [LinearOrder V] [PyOrd V] [Field K] [LinearOrder K]

/-- The score of an edge raises `TypeError` when the weight is not a number, `ZeroDivisionError` when a strength is 0. -/
theorem disparityScore_cases (ar : Arith K) (reverse : Bool) (y : Val K) (a b : Nat) (sw tw : K) :
    (∃ s, disparityScore ar.ops reverse y a b sw tw = .ok s ∧ (∃ k, y.toNum = .ok k) ∧ sw ≠ 0 ∧ tw ≠ 0) ∨
    (∃ m, disparityScore ar.ops reverse y a b sw tw = .error (.typeError m) ∧ ∀ k, y.toNum ≠ .ok k) ∨
    (disparityScore ar.ops reverse y a b sw tw = .error .zeroDivisionError ∧ (∃ k, y.toNum = .ok k) ∧ (sw = 0 ∨ tw = 0)) := by
  unfold disparityScore
  cases hy : y.toNum with
  | error e =>
    obtain ⟨m, rfl⟩ := toNum_error hy
    exact .inr (.inl ⟨m, rfl, by simp⟩)
  | ok k =>
    by_cases h1 : sw = 0
    · refine .inr (.inr ⟨?_, ⟨k, rfl⟩, .inl h1⟩)
      simp [Arith.ops, pyDiv, h1, Except.map]
    · by_cases h2 : tw = 0
      · refine .inr (.inr ⟨?_, ⟨k, rfl⟩, .inr h2⟩)
        simp [Arith.ops, pyDiv, h1, h2, Except.map]
      · refine .inl ?_
        simp only [Arith.ops, pyDiv, h1, h2, if_false, Except.map]
        cases reverse
        · exact ⟨_, rfl, ⟨k, rfl⟩, h1, h2⟩
        · exact ⟨_, rfl, ⟨k, rfl⟩, h1, h2⟩

variable {g : Graph V (Val K)} {attr : String}

/-- Each edge is seen from its lower end. -/
theorem edge_seen (h : g.WF) (hd : g.directed = false) {e : V × V × Attrs (Val K)} (he : e ∈ g.edgesData) :
    ∃ n ∈ g.nodes, ∃ m k, (n, m, k, e.2.2) ∈ g.edgesOf n ∧ n ≤ m ∧ ((n, m) = (e.1, e.2.1) ∨ (n, m) = (e.2.1, e.1)) := by
  obtain ⟨u, v, a⟩ := e
  have hu : g.hasEdge u v = true := (hasEdge_listed h).2 (.inl (mem_edges.2 ⟨a, he⟩))
  obtain ⟨m1, m2⟩ := hasEdge_mem h hu
  rcases le_total u v with hle | hle
  · obtain ⟨k, hk⟩ := (edgesOf_listed h hd).2 (.inl he)
    exact ⟨u, m1, v, k, hk, hle, .inl rfl⟩
  · obtain ⟨k, hk⟩ := (edgesOf_listed h hd).2 (.inr he)
    exact ⟨v, m2, u, k, hk, hle, .inr rfl⟩

/-- C30.  On simple undirected graphs `edge_disparity` raises nothing but `TypeError`, when some edge has no numeric weight, and
`ZeroDivisionError`; a weight that is there without being a number always raises `TypeError`, whatever the other edges. -/
theorem edgeDisparity_raises (ar : Arith K) (ho : OrderedKeys V) (h : g.WF) (hd : g.directed = false) (hm : g.multi = false)
    (reverse : Bool) :
    (∀ err, edgeDisparityA ar g attr reverse = .error err →
      (∃ m, err = .typeError m ∧ ∃ e ∈ g.edgesData, ∀ y, ¬ HasNumber attr e.2.2 y) ∨ err = .zeroDivisionError) ∧
    ((∃ e ∈ g.edgesData, ∃ y, e.2.2.get? (.str attr) = some y ∧ ∀ k, y.toNum ≠ .ok k) →
      ∃ m, edgeDisparityA ar g attr reverse = .error (.typeError m)) ∧
    ((∃ e ∈ g.edgesData, ∀ y, ¬ HasNumber attr e.2.2 y) → ∃ err, edgeDisparityA ar g attr reverse = .error err) := by
  have hedge : ∀ n, ∀ e ∈ g.edgesOf n, e.2.1 ∈ g.nodes := by
    rintro n ⟨u, m, k, a⟩ he
    obtain ⟨_, l, hl, hs, _⟩ := (mem_edgesOf h).1 he
    exact (Graph.hasEdge_mem h (Graph.hasEdge_iff.2 ⟨l, hl, hs⟩)).2
  have hback : ∀ n, ∀ e ∈ g.edgesOf n, ∃ f ∈ g.edgesData, f.2.2 = e.2.2.2 := by
    rintro n ⟨u, m, k, a⟩ he
    have hu : u = n := ((mem_edgesOf h).1 he).1
    subst hu
    rcases (edgesOf_listed h hd).1 ⟨k, he⟩ with h1 | h1 <;> exact ⟨_, h1, rfl⟩
  have hnum : ∀ {a : Attrs (Val K)} {y : Val K} {k : K}, a.get? (.str attr) = some y → y.toNum = .ok k → HasNumber attr a k := by
    intro a y k h1 h2
    unfold HasNumber
    rw [h1]
    cases y with
    | num z => simp only [Val.toNum, Except.ok.injEq] at h2; subst h2; simp
    | bool b => cases b <;> simp only [Val.toNum, Except.ok.injEq] at h2 <;> simp [h2]
    | _ => simp [Val.toNum] at h2
  have hnum' : ∀ {a : Attrs (Val K)} {k : K}, HasNumber attr a k → ∃ y, a.get? (.str attr) = some y ∧ y.toNum = .ok k := by
    rintro a k (h | ⟨h, rfl⟩ | ⟨h, rfl⟩)
    · exact ⟨_, h, rfl⟩
    · exact ⟨_, h, rfl⟩
    · exact ⟨_, h, rfl⟩
  have hunf : edgeDisparityA ar g attr reverse = match weightedDegrees ar.ops g attr g.nodes with
      | .error e => .error e
      | .ok wd => disparityNodes ar.ops g attr reverse wd g.nodes [] := by
    unfold edgeDisparityA edgeDisparityN
    simp only [hd, hm, Bool.or_self, Bool.false_eq_true, if_false]
    rfl
  rcases weightedDegrees_cases ar.ops g attr g.nodes with ⟨wd, h1, h2, h3⟩ | ⟨m, h1⟩
  · rw [h1] at hunf
    simp only at hunf
    -- no weight that is there fails to be a number
    have hall : ∀ e ∈ g.edgesData, ∃ k, weightOf attr e.2.2 = .ok k := by
      intro e he
      obtain ⟨n, hn, m, k, hk, -⟩ := edge_seen h hd he
      exact h3 n hn _ hk
    have hc2 : ¬ ∃ e ∈ g.edgesData, ∃ y, e.2.2.get? (.str attr) = some y ∧ ∀ k, y.toNum ≠ .ok k := by
      rintro ⟨e, he, y, hy, hk⟩
      obtain ⟨k, hk'⟩ := hall e he
      unfold weightOf at hk'
      rw [hy] at hk'
      exact hk k hk'
    refine ⟨?_, fun hc => absurd hc hc2, ?_⟩
    · intro err herr
      rw [hunf] at herr
      rcases disparityNodes_cases ho ar.ops g attr reverse wd g.nodes (fun n hn => h2 ▸ hn) (fun n e he => h2 ▸ hedge n e he) []
        with ⟨d', h4, -⟩ | ⟨err', h4, n, hn, e, he, sw, tw, -, -, h5⟩
      · rw [h4] at herr; cases herr
      · rw [h4] at herr
        cases herr
        unfold scoreAt at h5
        rcases disparityScore_cases ar reverse ((e.2.2.2.get? (.str attr)).getD .none) (g.degree n) (g.degree e.2.1) sw tw
          with ⟨s, h6, -⟩ | ⟨m, h6, h7⟩ | ⟨h6, -⟩
        · rw [h6] at h5; cases h5
        · rw [h6] at h5
          cases h5
          obtain ⟨f, hf, hfe⟩ := hback n e he
          refine .inl ⟨m, rfl, f, hf, fun y hy => ?_⟩
          obtain ⟨z, hz1, hz2⟩ := hnum' hy
          rw [hfe] at hz1
          rw [hz1] at h7
          exact h7 y hz2
        · rw [h6] at h5
          cases h5
          exact .inr rfl
    · rintro ⟨e, he, hno⟩
      rw [hunf]
      rcases disparityNodes_cases ho ar.ops g attr reverse wd g.nodes (fun n hn => h2 ▸ hn) (fun n e he => h2 ▸ hedge n e he) []
        with ⟨d', h4, h5⟩ | ⟨err', h4, -⟩
      · exfalso
        obtain ⟨n, hn, m, k, hk, hle, -⟩ := edge_seen h hd he
        obtain ⟨sw, tw, s, -, -, h6⟩ := h5 n hn _ hk hle
        unfold scoreAt at h6
        rcases disparityScore_cases ar reverse ((e.2.2.get? (.str attr)).getD .none) (g.degree n) (g.degree m) sw tw
          with ⟨s, h7, ⟨y, hy⟩, -⟩ | ⟨m, h7, -⟩ | ⟨h7, -⟩
        · cases hz : e.2.2.get? (.str attr) with
          | none => rw [hz] at hy; simp [Val.toNum] at hy
          | some z => rw [hz] at hy; exact hno y (hnum hz hy)
        · simp only at h6; rw [h7] at h6; cases h6
        · simp only at h6; rw [h7] at h6; cases h6
      · exact ⟨err', h4⟩
  · rw [h1] at hunf
    simp only at hunf
    refine ⟨?_, fun _ => ⟨m, hunf⟩, fun _ => ⟨_, hunf⟩⟩
    intro err herr
    rw [hunf] at herr
    cases herr
    refine .inl ⟨m, rfl, ?_⟩
    by_contra hc
    push Not at hc
    -- all weights are numbers: the strengths are computed
    have : ∀ ns : List V, ∃ d, weightedDegrees ar.ops g attr ns = .ok d := by
      have hw : ∀ n, ∀ e ∈ g.edgesOf n, ∃ k, weightOf attr e.2.2.2 = .ok k := by
        intro n e he
        obtain ⟨f, hf, hfe⟩ := hback n e he
        obtain ⟨y, hy⟩ := hc f hf
        obtain ⟨z, hz1, hz2⟩ := hnum' hy
        refine ⟨y, ?_⟩
        unfold weightOf
        rw [← hfe, hz1]
        exact hz2
      have hws : ∀ as : List (Attrs (Val K)), (∀ a ∈ as, ∃ k, weightOf attr a = .ok k) → ∃ ws, weightsOf attr as = .ok ws := by
        intro as
        induction as with
        | nil => exact fun _ => ⟨[], rfl⟩
        | cons a as ih =>
          intro ha
          obtain ⟨k, hk⟩ := ha a List.mem_cons_self
          obtain ⟨ws, hws⟩ := ih (fun b hb => ha b (List.mem_cons_of_mem _ hb))
          exact ⟨k :: ws, by simp only [weightsOf, hk, hws]⟩
      intro ns
      induction ns with
      | nil => exact ⟨[], rfl⟩
      | cons n ns ih =>
        obtain ⟨d, hd⟩ := ih
        obtain ⟨ws, e1⟩ := hws ((g.edgesOf n).map (fun e => e.2.2.2)) (by
          intro a ha
          obtain ⟨e, he, rfl⟩ := List.mem_map.1 ha
          exact hw n e he)
        obtain ⟨ls, e2⟩ := hws (((g.edgesOf n).filter (fun e => e.2.1 = n)).map (fun e => e.2.2.2)) (by
          intro a ha
          obtain ⟨e, he, rfl⟩ := List.mem_map.1 ha
          exact hw n e (List.mem_filter.1 he).1)
        have e3 : weightedDegree ar.ops g attr n = .ok (ls.foldl ar.ops.add (ar.ops.sum ws)) := by
          simp only [weightedDegree, e1, e2]
        exact ⟨(n, ls.foldl ar.ops.add (ar.ops.sum ws)) :: d, by simp only [weightedDegrees, e3, hd]⟩
    obtain ⟨d, hd⟩ := this g.nodes
    rw [h1] at hd
    cases hd

/-- C30.  With numeric weights, `edge_disparity` returns unless some end of an edge has strength 0, when it raises
`ZeroDivisionError`. -/
theorem edgeDisparity_raises_zero (ar : Arith K) (ho : OrderedKeys V) (h : g.WF) (hd : g.directed = false)
    (hm : g.multi = false) {w : V → V → K} (hsym : ∀ u v, w u v = w v u) (hw : g.Weighted attr w) (reverse : Bool) :
    ((∃ d, edgeDisparityA ar g attr reverse = .ok d) ↔ ∀ u v, g.hasEdge u v = true → g.roundedStrength ar.rnd w u ≠ 0) ∧
    (edgeDisparityA ar g attr reverse = .error .zeroDivisionError ↔
      ∃ u v, g.hasEdge u v = true ∧ g.roundedStrength ar.rnd w u = 0) := by
  have hno : ¬ ∃ e ∈ g.edgesData, ∀ y, ¬ HasNumber attr e.2.2 y := by
    rintro ⟨e, he, hc⟩
    obtain ⟨y, h1, h2⟩ := hw e he
    refine hc (w e.1 e.2.1) ?_
    unfold HasNumber
    rw [h1]
    cases y with
    | num k => simp only [Val.toNum, Except.ok.injEq] at h2; subst h2; simp
    | bool b => cases b <;> simp only [Val.toNum, Except.ok.injEq] at h2 <;> simp [h2]
    | _ => simp [Val.toNum] at h2
  have hkind := (edgeDisparity_raises (attr := attr) ar ho h hd hm reverse).1
  have hzero : (∃ u v, g.hasEdge u v = true ∧ g.roundedStrength ar.rnd w u = 0) →
      ¬ ∃ d, edgeDisparityA ar g attr reverse = .ok d := by
    rintro ⟨u, v, he, hz⟩ ⟨d, hd'⟩
    have hok : ∀ e ∈ g.edgesData, weightOf attr e.2.2 = .ok (w e.1 e.2.1) := by
      intro e he
      obtain ⟨x, h1, h2⟩ := hw e he
      simp only [weightOf, h1, h2]
    have hwds := weightedDegrees_eq ar.ops (g := g) (attr := attr) (S := g.strengthN ar.ops w) g.nodes
      (fun n _ => weightedDegree_eq ar.ops h hd hsym hok n)
    have hget : ∀ x ∈ g.nodes, Dict.get? (g.nodes.map (fun n => (n, g.strengthN ar.ops w n))) x =
        some (g.strengthN ar.ops w x) := by
      intro x hx
      rw [get?_map_self, if_pos hx]
    have hkeys : Dict.keys (g.nodes.map (fun n => (n, g.strengthN ar.ops w n))) = g.nodes := by
      unfold Dict.keys
      rw [List.map_map]
      exact List.map_id' _
    have hedge : ∀ n, ∀ e ∈ g.edgesOf n, e.2.1 ∈ g.nodes := by
      rintro n ⟨u, m, k, a⟩ he
      obtain ⟨_, l, hl, hs, _⟩ := (mem_edgesOf h).1 he
      exact (Graph.hasEdge_mem h (Graph.hasEdge_iff.2 ⟨l, hl, hs⟩)).2
    unfold edgeDisparityA edgeDisparityN at hd'
    simp only [hd, hm, Bool.or_self, Bool.false_eq_true, if_false, hwds] at hd'
    rcases disparityNodes_cases ho ar.ops g attr reverse _ g.nodes (fun n hn => hkeys.symm ▸ hn)
      (fun n e he => hkeys.symm ▸ hedge n e he) [] with ⟨d', h4, h5⟩ | ⟨err', h4, -⟩
    · have hl : ∃ a, (u, v, a) ∈ g.edgesData ∨ (v, u, a) ∈ g.edgesData := by
        rcases (hasEdge_listed h).1 he with h1 | ⟨-, h1⟩
        · obtain ⟨a, ha⟩ := mem_edges.1 h1; exact ⟨a, .inl ha⟩
        · obtain ⟨a, ha⟩ := mem_edges.1 h1; exact ⟨a, .inr ha⟩
      obtain ⟨a, ha⟩ := hl
      have hseen : ∃ n ∈ g.nodes, ∃ m k, (n, m, k, a) ∈ g.edgesOf n ∧ n ≤ m ∧ (n = u ∨ m = u) := by
        rcases ha with ha | ha <;> obtain ⟨n, hn, m, k, hk, hle, hp⟩ := edge_seen h hd ha <;>
          refine ⟨n, hn, m, k, hk, hle, ?_⟩ <;> rcases hp with hp | hp <;> cases hp <;> simp
      obtain ⟨n, hn, m, k, hk, hle, hnm⟩ := hseen
      obtain ⟨sw, tw, s, e1, e2, h6⟩ := h5 n hn _ hk hle
      rw [hget n hn] at e1
      rw [hget m (hedge n _ hk)] at e2
      cases e1
      cases e2
      unfold scoreAt at h6
      rcases disparityScore_cases ar reverse ((a.get? (.str attr)).getD .none) (g.degree n) (g.degree m)
        (g.strengthN ar.ops w n) (g.strengthN ar.ops w m) with ⟨s, h7, -, h8, h9⟩ | ⟨m, h7, -⟩ | ⟨h7, -⟩
      · rw [strengthN_ops] at h8 h9
        rcases hnm with rfl | rfl
        · exact h8 hz
        · exact h9 hz
      · simp only at h6; rw [h7] at h6; cases h6
      · simp only at h6; rw [h7] at h6; cases h6
    · rw [h4] at hd'; cases hd'
  have hret : (∀ u v, g.hasEdge u v = true → g.roundedStrength ar.rnd w u ≠ 0) → ∃ d, edgeDisparityA ar g attr reverse = .ok d := by
    intro hS
    obtain ⟨d, h1, -⟩ := edgeDisparityA_exact ar ho h hd hm hsym hw hS reverse
    exact ⟨d, h1⟩
  constructor
  · refine ⟨fun hr u v he hz => hzero ⟨u, v, he, hz⟩ hr, hret⟩
  · constructor
    · intro herr
      by_contra hc
      push Not at hc
      obtain ⟨d, h1⟩ := hret hc
      rw [h1] at herr
      cases herr
    · intro hz
      cases hr : edgeDisparityA ar g attr reverse with
      | ok d => exact absurd ⟨d, hr⟩ (hzero hz)
      | error err =>
        rcases hkind err hr with ⟨m, -, hc⟩ | rfl
        · exact absurd hc hno
        · rfl

end

/-- Non-triviality: the edge between nodes 2 and 3 has a weight that is not a number; node 1 is computed before. -/
example : edgeDisparity (K := ℚ) (⟨false, false, [], [(1, []), (2, []), (3, [])],
    [⟨1, 2, [(.int 0, [(.str "weight", .num 2)])]⟩, ⟨2, 3, [(.int 0, [(.str "weight", .str "a")])]⟩]⟩ : Graph Int (Val ℚ))
    "weight" false = .error (.typeError "unsupported operand") := by decide +kernel

end Pelote
