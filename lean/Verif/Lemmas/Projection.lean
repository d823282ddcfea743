import Verif.Spec.Projection
import Verif.Lemmas.Rebuild
import Verif.Lemmas.Strength
import Verif.Lemmas.Disparity
import Mathlib.Algebra.BigOperators.Group.Finset.Piecewise
import Verif.Lemmas.AddWeights

/-! Facts about the model of the monopartite projection. -/
set_option linter.unusedSectionVars false
namespace Pelote
variable {V K : Type} [DecidableEq V] [Field K] [LinearOrder K]

theorem pyEq_iff {x y : Val K} : x.pyEq y = true ↔ SameValue x y := by
  unfold Val.pyEq SameValue
  cases hx : x.toNum with
  | error e =>
    simp only [decide_eq_true_eq, reduceCtorEq, false_and, exists_false, or_false]
  | ok a =>
    cases hy : y.toNum with
    | error e =>
      simp only [decide_eq_true_eq, reduceCtorEq, and_false, exists_false, or_false]
    | ok b =>
      simp only [decide_eq_true_eq, Except.ok.injEq]
      constructor
      · rintro rfl; exact .inr ⟨a, rfl, rfl⟩
      · rintro (rfl | ⟨k, rfl, rfl⟩)
        · rw [hx] at hy; exact Except.ok.inj hy
        · rfl

theorem SameValue.refl (x : Val K) : SameValue x x := .inl rfl

/-! ### The metric object -/
namespace OnlineMetric

theorem accumulateNorm_frame {m m' : OnlineMetric V K} {x : Val K} (h : m.accumulateNorm x = .ok m') :
    m'.kind = m.kind ∧ m'.norms = m.norms := by
  unfold accumulateNorm at h
  split at h
  · split at h
    · cases h
    · cases h; exact ⟨rfl, rfl⟩
  · cases h; exact ⟨rfl, rfl⟩

theorem accumulateNorm_error {m : OnlineMetric V K} {x : Val K} {e : PyErr} (h : m.accumulateNorm x = .error e) :
    ∃ s, e = .typeError s := by
  unfold accumulateNorm at h
  split at h
  · split at h
    · rename_i e' he
      cases h
      cases x with
      | none => cases he; exact ⟨_, rfl⟩
      | bool b => cases b <;> cases he
      | num k => cases he
      | str s => cases he; exact ⟨_, rfl⟩
      | obj t r => cases he; exact ⟨_, rfl⟩
    · cases h
  · cases h

/-- The norm kept for an accumulated sum. -/
def finNorm [PyMath K] (kind : Metric) (x : K) : K :=
  match kind with
  | .binaryCosine | .cosine => PyMath.sqrt x
  | _ => x

theorem finalizeNorm_ok [PyMath K] {kind : Metric} {x : K} (h : 0 ≤ x) :
    finalizeNorm kind x = .ok (finNorm kind x) := by
  cases kind <;> simp [finalizeNorm, finNorm, mathSqrt, not_lt.2 h]

theorem addNorm_ok [PyMath K] (m : OnlineMetric V K) (n : V) :
    m.addNorm n = .ok (if m.keepNorm then { m with norms := m.norms.set n (finNorm m.kind m.acc) } else m) := by
  unfold addNorm
  cases hk : m.keepNorm with
  | false => simp
  | true =>
    have : 0 ≤ m.acc := by
      unfold keepNorm at hk
      split at hk
      · simpa using hk
      · exact (by simpa using hk : 0 < m.acc).le
    simp [finalizeNorm_ok this]

theorem intersect_frame {m m' : OnlineMetric V K} {t : V} {x y : Val K} (h : m.intersect t x y = .ok m') :
    m'.kind = m.kind ∧ m'.norms = m.norms ∧ m'.source = m.source := by
  unfold intersect at h
  split at h
  · cases h
  · cases h; exact ⟨rfl, rfl, rfl⟩

end OnlineMetric

/-! ### The first loop -/
section
variable (g : Graph V (Val K)) (part : Part V K) (partAttr weightAttr : String) (check : Bool)

theorem normLoop_frame {L : List (V × Dict PyKey (Attrs (Val K)))} {m m' : OnlineMetric V K}
    (h : normLoop g part partAttr weightAttr check L m = .ok m') :
    m'.kind = m.kind ∧ m'.norms = m.norms ∧ (check = true → ∀ p ∈ L, part.clashes g partAttr p.1 p.2 = false) := by
  induction L generalizing m with
  | nil => cases h; exact ⟨rfl, rfl, by simp⟩
  | cons p L ih =>
    obtain ⟨t, d⟩ := p
    unfold normLoop at h
    split at h
    · cases h
    · rename_i hc
      split at h
      · cases h
      · rename_i m1 h1
        obtain ⟨i1, i2, i3⟩ := ih h
        obtain ⟨j1, j2⟩ := OnlineMetric.accumulateNorm_frame h1
        refine ⟨i1.trans j1, i2.trans j2, ?_⟩
        intro hch p hp
        rcases List.mem_cons.1 hp with rfl | hp
        · simpa [hch] using hc
        · exact i3 hch p hp

theorem normLoop_error {L : List (V × Dict PyKey (Attrs (Val K)))} {m : OnlineMetric V K} {e : PyErr}
    (h : normLoop g part partAttr weightAttr check L m = .error e) : ∃ s, e = .typeError s := by
  induction L generalizing m with
  | nil => cases h
  | cons p L ih =>
    obtain ⟨t, d⟩ := p
    unfold normLoop at h
    split at h
    · cases h; exact ⟨_, rfl⟩
    · split at h
      · rename_i e' h1
        cases h
        exact OnlineMetric.accumulateNorm_error h1
      · exact ih h

/-- The nodes of the projection: the kept nodes, without their part attribute. -/
def keptNodes (part : Part V K) (partAttr : String) (L : Dict V (Attrs (Val K))) : Dict V (Attrs (Val K)) :=
  (L.filter (fun p => part.keeps partAttr p.1 p.2)).map (fun p => (p.1, p.2.erase (.str partAttr)))

theorem addNode_error {g : Graph V (Val K)} {n : V} {a : Attrs (Val K)} {e : PyErr} (h : g.addNode n a = .error e) :
    ∃ s, e = .typeError s := by
  unfold Graph.addNode at h
  split at h
  · rename_i e' he
    cases h
    unfold Graph.checkKwargs at he
    split at he
    · split at he
      · cases he; exact ⟨_, rfl⟩
      · cases he
    · cases he; exact ⟨_, rfl⟩
  · cases h

theorem partLoop_error [PyMath K] {L : Dict V (Attrs (Val K))} {m : OnlineMetric V K}
    {mono : Graph V (Val K)} {b : Bool} {e : PyErr}
    (h : partLoop g part partAttr weightAttr check L m mono b = .error e) : ∃ s, e = .typeError s := by
  induction L generalizing m mono b with
  | nil => cases h
  | cons p L ih =>
    obtain ⟨n, a⟩ := p
    unfold partLoop at h
    split at h
    · exact ih h
    · split at h
      · rename_i e' h1
        cases h
        exact normLoop_error _ _ _ _ _ h1
      · split at h
        · rename_i h2
          rw [OnlineMetric.addNorm_ok] at h2; cases h2
        · split at h
          · rename_i h3
            cases h
            exact addNode_error h3
          · exact ih h

theorem addNode_inv {g g' : Graph V (Val K)} {n : V} {a : Attrs (Val K)} (h : g.addNode n a = .ok g') :
    g' = g.addNodeCore n a := by
  unfold Graph.addNode at h
  split at h
  · cases h
  · cases h; rfl

theorem nodup_erase {κ ν : Type} [DecidableEq κ] {d : Dict κ ν} (k : κ) (h : d.keys.Nodup) :
    (d.erase k).keys.Nodup := by
  rw [Dict.keys_erase]
  exact h.filter _

theorem partLoop_frame [PyMath K] {L : Dict V (Attrs (Val K))} {m m' : OnlineMetric V K}
    {mono mono' : Graph V (Val K)} {b b' : Bool}
    (h : partLoop g part partAttr weightAttr check L m mono b = .ok (m', mono', b'))
    (hL : L.keys.Nodup) (hdis : ∀ n ∈ L.keys, n ∉ mono.nodes) (ha : ∀ p ∈ L, p.2.keys.Nodup) :
    m'.kind = m.kind ∧ mono' = { mono with node := mono.node ++ keptNodes part partAttr L } ∧
      (∀ n ∈ m'.norms.keys, n ∈ m.norms.keys ∨ n ∈ (keptNodes part partAttr L).keys) ∧
      b' = (b && (keptNodes part partAttr L).isEmpty) ∧
      (check = true → ∀ p ∈ L, part.keeps partAttr p.1 p.2 = true →
        ∀ q ∈ g.adj p.1, part.clashes g partAttr q.1 q.2 = false) := by
  induction L generalizing m mono b with
  | nil =>
    cases h
    refine ⟨rfl, by simp [keptNodes], by simp [keptNodes], by simp [keptNodes], by simp⟩
  | cons p L ih =>
    obtain ⟨n, a⟩ := p
    rw [Dict.keys_cons, List.nodup_cons] at hL
    unfold partLoop at h
    cases hk : part.keeps partAttr n a with
    | false =>
      rw [hk] at h
      simp only [Bool.not_false, if_true] at h
      obtain ⟨i1, i2, i3, i4, i5⟩ := ih h hL.2 (fun x hx => hdis x (by simp [Dict.keys_cons, hx]))
        (fun p hp => ha p (List.mem_cons_of_mem _ hp))
      have e : keptNodes part partAttr ((n, a) :: L) = keptNodes part partAttr L := by
        simp [keptNodes, hk]
      rw [e]
      refine ⟨i1, i2, i3, i4, ?_⟩
      intro hc p hp hkp
      rcases List.mem_cons.1 hp with rfl | hp
      · simp [hk] at hkp
      · exact i5 hc p hp hkp
    | true =>
      rw [hk] at h
      simp only [Bool.not_true, Bool.false_eq_true, if_false] at h
      split at h
      · cases h
      · rename_i m1 h1
        split at h
        · cases h
        · rename_i m2 h2
          split at h
          · cases h
          · rename_i mono1 h3
            have h3' := addNode_inv h3
            rw [addNodeCore_fresh (hdis n (by simp [Dict.keys_cons]))
              (nodup_erase _ (ha (n, a) List.mem_cons_self))] at h3'
            subst h3'
            obtain ⟨j1, j2, j3⟩ := normLoop_frame _ _ _ _ _ h1
            rw [OnlineMetric.addNorm_ok] at h2
            have h2' := Except.ok.inj h2
            obtain ⟨i1, i2, i3, i4, i5⟩ := ih h hL.2 (by
                intro x hx
                simp only [Graph.nodes, Dict.keys_append, List.mem_append, not_or]
                refine ⟨hdis x (by simp [Dict.keys_cons, hx]), ?_⟩
                simp only [Dict.keys_cons, Dict.keys_nil, List.mem_singleton]
                rintro rfl
                exact hL.1 hx)
              (fun p hp => ha p (List.mem_cons_of_mem _ hp))
            have e : keptNodes part partAttr ((n, a) :: L) =
                (n, a.erase (.str partAttr)) :: keptNodes part partAttr L := by
              simp [keptNodes, hk]
            rw [e]
            refine ⟨?_, ?_, ?_, ?_, ?_⟩
            · rw [i1, ← h2']
              split
              · exact j1
              · exact j1
            · rw [i2]
              simp
            · intro y hy
              rcases i3 y hy with h' | h'
              · rw [← h2'] at h'
                split at h'
                · rcases Dict.mem_keys_set.1 h' with h' | rfl
                  · rw [j2] at h'; exact .inl h'
                  · exact .inr (by simp [Dict.keys_cons])
                · rw [j2] at h'; exact .inl h'
              · exact .inr (by simp [Dict.keys_cons, h'])
            · rw [i4]; simp
            · intro hc p hp hkp
              rcases List.mem_cons.1 hp with rfl | hp
              · exact j3 hc
              · exact i5 hc p hp hkp

end

/-! ### The second loop: what it leaves alone -/

theorem sharedLoop_frame [PyOrd V] {g : Graph V (Val K)} {weightAttr : String} {n1 : V} {w1 : Val K}
    {L : List (V × Dict PyKey (Attrs (Val K)))} {m m' : OnlineMetric V K}
    (h : sharedLoop g weightAttr n1 w1 L m = .ok m') :
    m'.kind = m.kind ∧ m'.norms = m.norms ∧ m'.source = m.source := by
  induction L generalizing m with
  | nil => cases h; exact ⟨rfl, rfl, rfl⟩
  | cons p L ih =>
    obtain ⟨n2, d⟩ := p
    unfold sharedLoop at h
    split at h
    · exact ih h
    · split at h
      · cases h
      · exact ih h
      · split at h
        · cases h
        · rename_i m1 h1
          obtain ⟨i1, i2, i3⟩ := ih h
          obtain ⟨j1, j2, j3⟩ := OnlineMetric.intersect_frame h1
          exact ⟨i1.trans j1, i2.trans j2, i3.trans j3⟩

theorem tokenLoop_frame [PyOrd V] {g : Graph V (Val K)} {weightAttr : String} {n1 : V}
    {L : List (V × Dict PyKey (Attrs (Val K)))} {m m' : OnlineMetric V K}
    (h : tokenLoop g weightAttr n1 L m = .ok m') :
    m'.kind = m.kind ∧ m'.norms = m.norms ∧ m'.source = m.source := by
  induction L generalizing m with
  | nil => cases h; exact ⟨rfl, rfl, rfl⟩
  | cons p L ih =>
    obtain ⟨n2, d⟩ := p
    unfold tokenLoop at h
    split at h
    · cases h
    · rename_i m1 h1
      obtain ⟨i1, i2, i3⟩ := ih h
      obtain ⟨j1, j2, j3⟩ := sharedLoop_frame h1
      exact ⟨i1.trans j1, i2.trans j2, i3.trans j3⟩

/-- The same class, graph attributes and nodes. -/
structure SameFrame (g h : Graph V (Val K)) : Prop where
  directed : g.directed = h.directed
  multi : g.multi = h.multi
  attrs : g.attrs = h.attrs
  node : g.node = h.node

theorem linkLoop_frame [PyMath K] [AttrVal (Val K)] {m : OnlineMetric V K} {t : Option K} {n1 : V}
    {I : Dict V K} {mono mono' : Graph V (Val K)} (h : linkLoop m t n1 I mono = .ok mono')
    (hs : mono.multi = false) (h1 : n1 ∈ mono.nodes) (hm : ∀ n ∈ m.norms.keys, n ∈ mono.nodes) :
    SameFrame mono' mono := by
  induction I generalizing mono with
  | nil => cases h; exact ⟨rfl, rfl, rfl, rfl⟩
  | cons p I ih =>
    obtain ⟨n2, i⟩ := p
    unfold linkLoop at h
    split at h
    · cases h
    · rename_i norm2 hn
      split at h
      · cases h
      · rename_i similarity _
        split at h
        · exact ih h hs h1 hm
        · split at h
          · cases h
          · rename_i mono1 hadd
            rw [Graph.addEdge_ok (by rw [hs]; exact weight_kwSafe _)] at hadd
            have hn2 : n2 ∈ mono.nodes := by
              apply hm
              unfold Dict.getItem at hn
              split at hn
              · rename_i v hv
                exact Dict.mem_keys_of_mem (Dict.mem_of_get? hv)
              · cases hn
            rw [Graph.addEdgeCore_present h1 hn2] at hadd
            cases hadd
            have := ih h hs h1 hm
            exact ⟨this.directed, this.multi, this.attrs, this.node⟩

theorem startIntersection_ok {m m' : OnlineMetric V K} {n : V} (h : m.startIntersection n = .ok m') :
    n ∈ m.norms.keys ∧ m'.kind = m.kind ∧ m'.norms = m.norms ∧ m'.inter = [] ∧ m.norms.get? n = some m'.source := by
  unfold OnlineMetric.startIntersection Dict.getItem at h
  cases hg : m.norms.get? n with
  | none => rw [hg] at h; cases h
  | some x =>
    rw [hg] at h
    cases h
    exact ⟨Dict.mem_keys_of_mem (Dict.mem_of_get? hg), rfl, rfl, rfl, rfl⟩

theorem projectLoop_frame [PyOrd V] [PyMath K] [AttrVal (Val K)] {g : Graph V (Val K)} {weightAttr : String}
    {t : Option K} {L : List V} {m : OnlineMetric V K} {mono mono' : Graph V (Val K)}
    (h : projectLoop g weightAttr t L m mono = .ok mono') (hs : mono.multi = false)
    (hm : ∀ n ∈ m.norms.keys, n ∈ mono.nodes) : SameFrame mono' mono := by
  induction L generalizing m mono with
  | nil => cases h; exact ⟨rfl, rfl, rfl, rfl⟩
  | cons n1 L ih =>
    unfold projectLoop at h
    split at h
    · cases h
    · rename_i m1 h1
      split at h
      · cases h
      · rename_i m2 h2
        split at h
        · cases h
        · rename_i mono1 h3
          obtain ⟨a1, a2, a3, _⟩ := startIntersection_ok h1
          obtain ⟨b1, b2, b3⟩ := tokenLoop_frame h2
          have hf := linkLoop_frame h3 hs (hm _ a1) (by rw [b2, a3]; exact hm)
          have hn : mono1.nodes = mono.nodes := by unfold Graph.nodes; rw [hf.node]
          have := ih h (by rw [hf.multi]; exact hs) (by rw [b2, a3, hn]; exact hm)
          exact ⟨this.directed.trans hf.directed, this.multi.trans hf.multi, this.attrs.trans hf.attrs,
            this.node.trans hf.node⟩

end Pelote
