import Verif.Model.ProjectionRounded
import Verif.Spec.ProjectionRounded
import Verif.Props.Projection

/-! What the loops of the monopartite projection compute with rounded weights. -/
set_option linter.unusedSectionVars false
namespace Pelote
variable {V K : Type} [LinearOrder V] [Field K] [LinearOrder K]

/-! ### Without rounding -/

theorem accumulateNormR_id (m : OnlineMetric V K) (x : Val K) : m.accumulateNormR id x = m.accumulateNorm x := by
  unfold OnlineMetric.accumulateNormR OnlineMetric.accumulateNorm
  cases m.kind <;> rfl

theorem accumulateNormR_counting (num : K → K) {m : OnlineMetric V K} (h : m.kind ≠ .cosine) (x : Val K) :
    m.accumulateNormR num x = m.accumulateNorm x := by
  unfold OnlineMetric.accumulateNormR OnlineMetric.accumulateNorm
  cases hk : m.kind <;> first | rfl | exact absurd hk h

theorem intersectR_id (m : OnlineMetric V K) (n : V) (x y : Val K) : m.intersectR id n x y = m.intersect n x y := by
  unfold OnlineMetric.intersectR OnlineMetric.intersect OnlineMetric.intersectionWeight
  cases m.kind <;> first | rfl | (simp only; rcases x.toNum with _ | a <;> rcases y.toNum with _ | b <;> rfl)

theorem intersectR_counting (num : K → K) {m : OnlineMetric V K} (h : m.kind.usesWeights = false) (n : V) (x y : Val K) :
    m.intersectR num n x y = m.intersect n x y := by
  unfold OnlineMetric.intersectR OnlineMetric.intersect OnlineMetric.intersectionWeight
  cases hk : m.kind <;> first | rfl | (rw [hk] at h; cases h)

/-- The rounding does not change what metrics of this kind compute. -/
def Harmless (num : K → K) (kind : Metric) : Prop := num = id ∨ kind.usesWeights = false

/-- The rounding does not change the norms computed by metrics of this kind. -/
def NormHarmless (num : K → K) (kind : Metric) : Prop := num = id ∨ kind ≠ .cosine

theorem Harmless.norm {num : K → K} {kind : Metric} (h : Harmless num kind) : NormHarmless num kind := by
  rcases h with h | h
  · exact .inl h
  · exact .inr (by rintro rfl; cases h)

theorem accumulateNormR_eq {num : K → K} {m : OnlineMetric V K} (h : NormHarmless num m.kind) (x : Val K) :
    m.accumulateNormR num x = m.accumulateNorm x := by
  rcases h with rfl | h
  · exact accumulateNormR_id m x
  · exact accumulateNormR_counting num h x

theorem intersectR_eq {num : K → K} {m : OnlineMetric V K} (h : Harmless num m.kind) (n : V) (x y : Val K) :
    m.intersectR num n x y = m.intersect n x y := by
  rcases h with rfl | h
  · exact intersectR_id m n x y
  · exact intersectR_counting num h n x y

theorem accumulateNorm_kind {m m' : OnlineMetric V K} {x : Val K} (h : m.accumulateNorm x = .ok m') :
    m'.kind = m.kind := by
  unfold OnlineMetric.accumulateNorm at h
  split at h
  · split at h
    · cases h
    · cases h; rfl
  · cases h; rfl

theorem intersect_kind {m m' : OnlineMetric V K} {n : V} {x y : Val K} (h : m.intersect n x y = .ok m') :
    m'.kind = m.kind := by
  unfold OnlineMetric.intersect at h
  split at h
  · cases h
  · cases h; rfl

theorem addNorm_kind [PyMath K] {m m' : OnlineMetric V K} {n : V} (h : m.addNorm n = .ok m') : m'.kind = m.kind := by
  unfold OnlineMetric.addNorm at h
  split at h
  · cases h; rfl
  · split at h
    · cases h
    · cases h; rfl

theorem normLoopR_eq {num : K → K} {g : Graph V (Val K)} {part : Part V K} {partAttr weightAttr : String} {check : Bool}
    (L : List (V × Dict PyKey (Attrs (Val K)))) {m : OnlineMetric V K} (h : NormHarmless num m.kind) :
    normLoopR num g part partAttr weightAttr check L m = normLoop g part partAttr weightAttr check L m ∧
      ∀ m', normLoop g part partAttr weightAttr check L m = .ok m' → m'.kind = m.kind := by
  induction L generalizing m with
  | nil => exact ⟨rfl, fun m' h => by cases h; rfl⟩
  | cons p L ih =>
    obtain ⟨t, d⟩ := p
    unfold normLoopR normLoop
    split
    · exact ⟨rfl, fun m' h => by cases h⟩
    · rw [accumulateNormR_eq h]
      rcases hx : m.accumulateNorm (taWeight g d weightAttr) with e | m1
      · exact ⟨rfl, fun m' h => by cases h⟩
      · have hk := accumulateNorm_kind hx
        obtain ⟨i1, i2⟩ := ih (m := m1) (by rw [hk]; exact h)
        exact ⟨i1, fun m' h' => (i2 m' h').trans hk⟩

theorem partLoopR_eq [PyMath K] {num : K → K} {g : Graph V (Val K)} {part : Part V K} {partAttr weightAttr : String}
    {check : Bool} (L : Dict V (Attrs (Val K))) {m : OnlineMetric V K} (mono : Graph V (Val K)) (b : Bool)
    (h : NormHarmless num m.kind) :
    partLoopR num g part partAttr weightAttr check L m mono b = partLoop g part partAttr weightAttr check L m mono b ∧
      ∀ m' mono' b', partLoop g part partAttr weightAttr check L m mono b = .ok (m', mono', b') → m'.kind = m.kind := by
  induction L generalizing m mono b with
  | nil => exact ⟨rfl, fun m' mono' b' h => by cases h; rfl⟩
  | cons p L ih =>
    obtain ⟨n, a⟩ := p
    unfold partLoopR partLoop
    split
    · exact ih mono b h
    · obtain ⟨i1, i2⟩ := normLoopR_eq (num := num) (g := g) (part := part) (partAttr := partAttr) (weightAttr := weightAttr)
        (check := check) (g.adj n) (m := m.resetNorm) h
      rw [i1]
      rcases hx : normLoop g part partAttr weightAttr check (g.adj n) m.resetNorm with e | m1
      · exact ⟨rfl, fun m' mono' b' h => by cases h⟩
      · have hk : m1.kind = m.kind := i2 m1 hx
        simp only
        rcases hy : m1.addNorm n with e | m2
        · exact ⟨rfl, fun m' mono' b' h => by cases h⟩
        · have hk2 := (addNorm_kind hy).trans hk
          simp only
          rcases hz : mono.addNode n (a.erase (.str partAttr)) with e | mono2
          · exact ⟨rfl, fun m' mono' b' h => by cases h⟩
          · obtain ⟨j1, j2⟩ := ih (m := m2) mono2 false (by rw [hk2]; exact h)
            exact ⟨j1, fun m' mono' b' h' => (j2 m' mono' b' h').trans hk2⟩

theorem sharedLoopR_eq [PyOrd V] {num : K → K} {g : Graph V (Val K)} {weightAttr : String} {n1 : V} {w1 : Val K}
    (L : List (V × Dict PyKey (Attrs (Val K)))) {m : OnlineMetric V K} (h : Harmless num m.kind) :
    sharedLoopR num g weightAttr n1 w1 L m = sharedLoop g weightAttr n1 w1 L m ∧
      ∀ m', sharedLoop g weightAttr n1 w1 L m = .ok m' → m'.kind = m.kind := by
  induction L generalizing m with
  | nil => exact ⟨rfl, fun m' h => by cases h; rfl⟩
  | cons p L ih =>
    obtain ⟨n2, d⟩ := p
    unfold sharedLoopR sharedLoop
    split
    · exact ih h
    · rcases PyOrd.gt n1 n2 with e | b
      · exact ⟨rfl, fun m' h => by cases h⟩
      · cases b with
        | true => exact ih h
        | false =>
          simp only
          rw [intersectR_eq h]
          rcases hx : m.intersect n2 w1 (taWeight g d weightAttr) with e | m1
          · exact ⟨rfl, fun m' h => by cases h⟩
          · have hk := intersect_kind hx
            obtain ⟨i1, i2⟩ := ih (m := m1) (by rw [hk]; exact h)
            exact ⟨i1, fun m' h' => (i2 m' h').trans hk⟩

theorem tokenLoopR_eq [PyOrd V] {num : K → K} {g : Graph V (Val K)} {weightAttr : String} {n1 : V}
    (L : List (V × Dict PyKey (Attrs (Val K)))) {m : OnlineMetric V K} (h : Harmless num m.kind) :
    tokenLoopR num g weightAttr n1 L m = tokenLoop g weightAttr n1 L m ∧
      ∀ m', tokenLoop g weightAttr n1 L m = .ok m' → m'.kind = m.kind := by
  induction L generalizing m with
  | nil => exact ⟨rfl, fun m' h => by cases h; rfl⟩
  | cons p L ih =>
    obtain ⟨t, d⟩ := p
    unfold tokenLoopR tokenLoop
    obtain ⟨i1, i2⟩ := sharedLoopR_eq (num := num) (g := g) (weightAttr := weightAttr) (n1 := n1)
      (w1 := taWeight g d weightAttr) (g.adj t) h
    rw [i1]
    rcases hx : sharedLoop g weightAttr n1 (taWeight g d weightAttr) (g.adj t) m with e | m1
    · exact ⟨rfl, fun m' h => by cases h⟩
    · have hk := i2 m1 hx
      obtain ⟨j1, j2⟩ := ih (m := m1) (by rw [hk]; exact h)
      exact ⟨j1, fun m' h' => (j2 m' h').trans hk⟩

theorem projectLoopR_eq [PyOrd V] [PyMath K] [AttrVal (Val K)] {num : K → K} {g : Graph V (Val K)} {weightAttr : String}
    {t : Option K} (L : List V) {m : OnlineMetric V K} (mono : Graph V (Val K)) (h : Harmless num m.kind) :
    projectLoopR num g weightAttr t L m mono = projectLoop g weightAttr t L m mono := by
  induction L generalizing m mono with
  | nil => rfl
  | cons n L ih =>
    unfold projectLoopR projectLoop
    rcases hx : m.startIntersection n with e | m1
    · rfl
    · have hk : m1.kind = m.kind := by
        unfold OnlineMetric.startIntersection at hx
        split at hx
        · cases hx
        · cases hx; rfl
      simp only
      obtain ⟨i1, i2⟩ := tokenLoopR_eq (num := num) (g := g) (weightAttr := weightAttr) (n1 := n) (g.adj n) (m := m1)
        (by rw [hk]; exact h)
      rw [i1]
      rcases hy : tokenLoop g weightAttr n (g.adj n) m1 with e | m2
      · rfl
      · simp only
        rcases linkLoop m2 t n m2.inter mono with e | mono2
        · rfl
        · exact ih mono2 (by rw [i2 m2 hy, hk]; exact h)

theorem monopartiteProjectionR_eq [PyOrd V] [PyMath K] [AttrVal (Val K)] {num : K → K} (g : Graph V (Val K))
    (part : Part V K) (partAttr weightAttr : String) (metric : Option String) (check : Bool) (threshold : Option (Val K))
    (h : ∀ kind, (metric, kind) ∈ metricNames → Harmless num kind) :
    monopartiteProjectionR num g part partAttr weightAttr metric check threshold =
      monopartiteProjection g part partAttr weightAttr metric check threshold := by
  unfold monopartiteProjectionR monopartiteProjection
  rcases hk : instantiateMetric metric with e | kind
  · rfl
  · have hh := h kind (((instantiateMetric_exact metric).1 kind).1 hk)
    simp only
    rcases checkThreshold threshold with e | t
    · rfl
    · simp only
      split
      · rfl
      · obtain ⟨i1, i2⟩ := partLoopR_eq (num := num) (g := g) (part := part) (partAttr := partAttr)
          (weightAttr := weightAttr) (check := check) g.node (m := OnlineMetric.init kind) (Graph.empty false false []) true hh.norm
        rw [i1]
        rcases hx : partLoop g part partAttr weightAttr check g.node (OnlineMetric.init kind)
          (Graph.empty false false []) true with e | ⟨m, mono, b⟩
        · rfl
        · simp only
          split
          · rfl
          · exact projectLoopR_eq _ _ (by rw [i2 m mono b hx]; exact hh)

/-! ### With rounding -/

theorem normLoopR_ok {num : K → K} {g : Graph V (Val K)} {part : Part V K} {partAttr weightAttr : String} {check : Bool}
    {L : List (V × Dict PyKey (Attrs (Val K)))} (m : OnlineMetric V K) {f : V → K} (hk : m.kind = .cosine)
    (hc : check = true → ∀ p ∈ L, part.clashes g partAttr p.1 p.2 = false)
    (hw : ∀ p ∈ L, (taWeight g p.2 weightAttr).toNum = .ok (f p.1)) :
    normLoopR num g part partAttr weightAttr check L m =
      .ok { m with acc := (L.map Prod.fst).foldl (fun s t => num (s + num (f t * f t))) m.acc } := by
  induction L generalizing m with
  | nil => simp [normLoopR]
  | cons p L ih =>
    obtain ⟨t, d⟩ := p
    unfold normLoopR
    have h1 : (check && part.clashes g partAttr t d) = false := by
      cases check with
      | false => rfl
      | true => exact hc rfl _ List.mem_cons_self
    have h2 : m.accumulateNormR num (taWeight g d weightAttr) = .ok { m with acc := num (m.acc + num (f t * f t)) } := by
      unfold OnlineMetric.accumulateNormR
      have := hw (t, d) List.mem_cons_self
      simp only at this
      simp [hk, this]
    rw [h1, h2]
    simp only [Bool.false_eq_true, if_false]
    rw [ih { m with acc := num (m.acc + num (f t * f t)) } hk]
    · rfl
    · intro h p hp; exact hc h p (List.mem_cons_of_mem _ hp)
    · intro p hp; exact hw p (List.mem_cons_of_mem _ hp)

/-- The norms kept for the nodes of a list. -/
def keptNormsR [PyMath K] (num : K → K) (g : Graph V (Val K)) (part : Part V K) (partAttr : String)
    (w : V → V → K) (L : Dict V (Attrs (Val K))) : Dict V K :=
  (L.filter (fun p => part.keeps partAttr p.1 p.2 && decide (0 < roundedDot num (g.neighbors p.1) (w p.1) (w p.1)))).map
    (fun p => (p.1, roundedNorm num g w p.1))

theorem partLoopR_ok [PyMath K] {num : K → K} {g : Graph V (Val K)} {part : Part V K} {partAttr weightAttr : String}
    {check : Bool} {w : V → V → K} {L : Dict V (Attrs (Val K))} (m m0 : OnlineMetric V K)
    (mono : Graph V (Val K)) (b : Bool) {r : OnlineMetric V K × Graph V (Val K) × Bool}
    (h0 : partLoop g part partAttr weightAttr check L m0 mono b = .ok r)
    (hL : L.keys.Nodup) (hdis : ∀ n ∈ L.keys, n ∉ m.norms.keys) (hk : m.kind = .cosine)
    (hsafe : ∀ p ∈ L, part.keeps partAttr p.1 p.2 = true → Graph.NodeKwSafe (p.2.erase (.str partAttr)))
    (hc : check = true → ∀ p ∈ L, part.keeps partAttr p.1 p.2 = true →
      ∀ q ∈ g.adj p.1, part.clashes g partAttr q.1 q.2 = false)
    (hw : ∀ p ∈ L, ∀ q ∈ g.adj p.1, (taWeight g q.2 weightAttr).toNum = .ok (w p.1 q.1)) :
    ∃ m', partLoopR num g part partAttr weightAttr check L m mono b = .ok (m', r.2) ∧
      m'.kind = m.kind ∧ m'.norms = m.norms ++ keptNormsR num g part partAttr w L := by
  induction L generalizing m m0 mono b with
  | nil =>
    cases h0
    exact ⟨m, rfl, rfl, by simp [keptNormsR]⟩
  | cons p L ih =>
    obtain ⟨n, a⟩ := p
    rw [Dict.keys_cons, List.nodup_cons] at hL
    unfold partLoopR
    unfold partLoop at h0
    cases hkp : part.keeps partAttr n a with
    | false =>
      simp only [hkp, Bool.not_false, if_true] at h0 ⊢
      obtain ⟨m', i1, i2, i3⟩ := ih m m0 mono b h0 hL.2
        (fun x hx => hdis x (by simp [Dict.keys_cons, hx])) hk
        (fun p hp => hsafe p (List.mem_cons_of_mem _ hp))
        (fun h p hp => hc h p (List.mem_cons_of_mem _ hp))
        (fun p hp => hw p (List.mem_cons_of_mem _ hp))
      refine ⟨m', i1, i2, ?_⟩
      rw [i3]
      simp [keptNormsR, hkp]
    | true =>
      simp only [hkp, Bool.not_true, Bool.false_eq_true, if_false] at h0 ⊢
      rw [Graph.addNode_ok (hsafe (n, a) List.mem_cons_self hkp)] at h0
      rcases hx : normLoop g part partAttr weightAttr check (g.adj n) m0.resetNorm with e | m1
      · rw [hx] at h0; cases h0
      rw [hx] at h0
      simp only at h0
      rcases hy : m1.addNorm n with e | m2
      · rw [hy] at h0; cases h0
      rw [hy] at h0
      simp only at h0
      rw [normLoopR_ok (m := m.resetNorm) (f := w n) hk (fun h => hc h (n, a) List.mem_cons_self hkp)
        (hw (n, a) List.mem_cons_self)]
      simp only [OnlineMetric.resetNorm]
      rw [OnlineMetric.addNorm_ok, Graph.addNode_ok (hsafe (n, a) List.mem_cons_self hkp)]
      have hS : ((g.adj n).map Prod.fst).foldl (fun s t => num (s + num (w n t * w n t))) 0 =
          roundedDot num (g.neighbors n) (w n) (w n) := rfl
      simp only [keepNorm_eq, hk, hS, Metric.keepsNorm, gt_iff_lt]
      cases hq : decide (0 < roundedDot num (g.neighbors n) (w n) (w n)) with
      | false =>
        simp only [Bool.false_eq_true, if_false]
        obtain ⟨m', i1, i2, i3⟩ := ih { m with kind := .cosine, acc := roundedDot num (g.neighbors n) (w n) (w n) } m2
          (mono.addNodeCore n (a.erase (.str partAttr))) false h0 hL.2
          (fun x hx => hdis x (by simp [Dict.keys_cons, hx])) rfl
          (fun p hp => hsafe p (List.mem_cons_of_mem _ hp))
          (fun h p hp => hc h p (List.mem_cons_of_mem _ hp))
          (fun p hp => hw p (List.mem_cons_of_mem _ hp))
        refine ⟨m', ?_, i2, ?_⟩
        · exact i1
        · rw [i3]
          simp [keptNormsR, hkp, hq]
      | true =>
        simp only [if_true]
        have hfresh : n ∉ m.norms.keys := hdis n (by simp [Dict.keys_cons])
        obtain ⟨m', i1, i2, i3⟩ := ih { m with
              kind := .cosine
              acc := roundedDot num (g.neighbors n) (w n) (w n)
              norms := m.norms.set n (OnlineMetric.finNorm .cosine (roundedDot num (g.neighbors n) (w n) (w n))) } m2
          (mono.addNodeCore n (a.erase (.str partAttr))) false h0 hL.2
          (by
            intro x hxm hx'
            rcases Dict.mem_keys_set.1 hx' with h' | rfl
            · exact hdis x (by simp [Dict.keys_cons, hxm]) h'
            · exact hL.1 hxm) rfl
          (fun p hp => hsafe p (List.mem_cons_of_mem _ hp))
          (fun h p hp => hc h p (List.mem_cons_of_mem _ hp))
          (fun p hp => hw p (List.mem_cons_of_mem _ hp))
        refine ⟨m', i1, i2, ?_⟩
        rw [i3, Dict.set_of_not_mem _ hfresh]
        simp [keptNormsR, hkp, hq, roundedNorm, OnlineMetric.finNorm]

/-- `counter[k] += x`, rounded. -/
def counterAddR (num : K → K) (d : Dict V K) (e : V × K) : Dict V K :=
  d.set e.1 (num ((d.get? e.1).getD 0 + num e.2))

theorem counterR_nodup (num : K → K) (L : List (V × K)) {d : Dict V K} (h : d.keys.Nodup) :
    (L.foldl (counterAddR num) d).keys.Nodup := by
  induction L generalizing d with
  | nil => exact h
  | cons e L ih => exact ih (Dict.nodup_set _ _ h)

theorem counterR_get? (num : K → K) (L : List (V × K)) (d : Dict V K) (k : V) :
    (L.foldl (counterAddR num) d).get? k =
      if k ∈ L.map Prod.fst then
        some (((L.filter (fun e => e.1 = k)).map Prod.snd).foldl (fun s x => num (s + num x)) ((d.get? k).getD 0))
      else d.get? k := by
  induction L generalizing d with
  | nil => simp
  | cons e L ih =>
    obtain ⟨k', x⟩ := e
    rw [List.foldl_cons, ih]
    unfold counterAddR
    by_cases hk : k' = k
    · subst hk
      by_cases hm : k' ∈ L.map Prod.fst
      · simp only [hm, if_true, List.map_cons, List.mem_cons, true_or, Dict.get?_set_self, Option.getD_some]
        simp
      · have : L.filter (fun e => decide (e.1 = k')) = [] := by
          rw [List.filter_eq_nil_iff]
          intro e he
          have : e.1 ≠ k' := by
            rintro rfl
            exact hm (List.mem_map_of_mem he)
          simpa using this
        simp [hm, this, Dict.get?_set_self]
    · simp only [Dict.get?_set_ne d _ hk, List.map_cons, List.mem_cons, Ne.symm hk, false_or]
      have : List.filter (fun e => decide (e.1 = k)) ((k', x) :: L) = L.filter (fun e => decide (e.1 = k)) := by
        simp [hk]
      rw [this]

theorem intersectR_ok (num : K → K) (m : OnlineMetric V K) (n2 : V) {w1 w2 : Val K} {x y : K}
    (hk : m.kind.usesWeights = true) (h1 : w1.toNum = .ok x) (h2 : w2.toNum = .ok y) :
    m.intersectR num n2 w1 w2 = .ok { m with inter := counterAddR num m.inter (n2, x * y) } := by
  unfold OnlineMetric.intersectR
  cases hm : m.kind <;> first | (rw [hm] at hk; cases hk; done) | simp [h1, h2, counterAddR]

theorem sharedLoopR_ok [PyOrd V] {num : K → K} {g : Graph V (Val K)} {weightAttr : String} {n1 : V} {w1 : Val K}
    {L : List (V × Dict PyKey (Attrs (Val K)))} (m : OnlineMetric V K) {x : K} {f : V → K}
    (ho : ∀ p ∈ L, p.1 ≠ n1 → PyOrd.gt n1 p.1 = .ok (decide (p.1 < n1)))
    (hk : m.kind.usesWeights = true) (hx : w1.toNum = .ok x)
    (hw : ∀ p ∈ L, (taWeight g p.2 weightAttr).toNum = .ok (f p.1)) :
    sharedLoopR num g weightAttr n1 w1 L m =
      .ok { m with inter := ((L.filter (fun p => n1 < p.1)).map
        (fun p => (p.1, x * f p.1))).foldl (counterAddR num) m.inter } := by
  induction L generalizing m with
  | nil => rfl
  | cons p L ih =>
    obtain ⟨n2, d⟩ := p
    have ho' : ∀ p ∈ L, p.1 ≠ n1 → PyOrd.gt n1 p.1 = .ok (decide (p.1 < n1)) :=
      fun p hp => ho p (List.mem_cons_of_mem _ hp)
    have hw' : ∀ p ∈ L, (taWeight g p.2 weightAttr).toNum = .ok (f p.1) := fun p hp => hw p (List.mem_cons_of_mem _ hp)
    unfold sharedLoopR
    rcases lt_trichotomy n1 n2 with hlt | heq | hgt
    · rw [if_neg hlt.ne']
      have := ho (n2, d) List.mem_cons_self hlt.ne'
      simp only at this
      rw [this]
      simp only [not_lt.2 hlt.le, decide_false]
      rw [intersectR_ok num m n2 hk hx (hw (n2, d) List.mem_cons_self)]
      simp only
      rw [ih { m with inter := counterAddR num m.inter (n2, x * f n2) } ho' hk hw']
      simp [hlt]
    · rw [if_pos heq.symm, ih m ho' hk hw']
      subst heq
      simp
    · rw [if_neg hgt.ne]
      have := ho (n2, d) List.mem_cons_self hgt.ne
      simp only at this
      rw [this]
      simp only [hgt, decide_true]
      rw [ih m ho' hk hw']
      simp [not_lt.2 hgt.le]

theorem tokenLoopR_ok [PyOrd V] {num : K → K} {g : Graph V (Val K)} {weightAttr : String} {n1 : V}
    {L : List (V × Dict PyKey (Attrs (Val K)))} (m : OnlineMetric V K) {w : V → V → K}
    (ho : ∀ q ∈ L, ∀ p ∈ g.adj q.1, p.1 ≠ n1 → PyOrd.gt n1 p.1 = .ok (decide (p.1 < n1)))
    (hk : m.kind.usesWeights = true)
    (hw : ∀ q ∈ L, (taWeight g q.2 weightAttr).toNum = .ok (w n1 q.1) ∧
      ∀ p ∈ g.adj q.1, (taWeight g p.2 weightAttr).toNum = .ok (w q.1 p.1)) :
    tokenLoopR num g weightAttr n1 L m =
      .ok { m with inter := (contributions g .cosine w n1 L).foldl (counterAddR num) m.inter } := by
  induction L generalizing m with
  | nil => rfl
  | cons q L ih =>
    obtain ⟨t, d⟩ := q
    unfold tokenLoopR
    have h := hw (t, d) List.mem_cons_self
    rw [sharedLoopR_ok m (x := w n1 t) (f := w t) (ho (t, d) List.mem_cons_self) hk h.1 h.2]
    simp only
    refine (ih { m with inter := ((((g.adj t).filter (fun p => n1 < p.1)).map
        (fun p => (p.1, w n1 t * w t p.1))).foldl (counterAddR num) m.inter) } (fun q hq => ho q (List.mem_cons_of_mem _ hq)) hk
      (fun q hq => hw q (List.mem_cons_of_mem _ hq))).trans ?_
    simp [contributions, List.foldl_append, Metric.interTerm]

theorem filter_key_eq {α : Type} (key : α → V) (k : V) {L : List α} (hL : (L.map key).Nodup) {β : Type} (c : V → β) :
    (L.filter (fun q => decide (key q = k))).map (fun q => c (key q)) = if k ∈ L.map key then [c k] else [] := by
  induction L with
  | nil => simp
  | cons q L ih =>
    rw [List.map_cons, List.nodup_cons] at hL
    by_cases hk : key q = k
    · subst hk
      have h0 := ih hL.2
      rw [if_neg hL.1] at h0
      simp [h0]
    · simp only [hk, decide_false, Bool.false_eq_true, not_false_eq_true, List.filter_cons_of_neg, ih hL.2, List.map_cons,
        List.mem_cons, Ne.symm hk, false_or]

/-- What is added to the intersection of `n1` and `k`, in order: a term for each shared neighbor. -/
theorem contributions_list {g : Graph V (Val K)} (h : g.WF) (hd : g.directed = false) {w : V → V → K} {n1 k : V}
    (hlt : n1 < k) (hsym : ∀ t, g.hasEdge t k = true → w t k = w k t) :
    (((contributions g .cosine w n1 (g.adj n1)).filter (fun e => e.1 = k)).map Prod.snd) =
      (g.sharedList n1 k).map (fun t => w n1 t * w k t) := by
  unfold contributions Graph.sharedList Graph.neighbors
  generalize g.adj n1 = L
  rw [List.filter_flatMap]
  induction L with
  | nil => rfl
  | cons q L ih =>
    rw [List.flatMap_cons, List.map_append, ih]
    have h1 : ((((((g.adj q.1).filter (fun p => decide (n1 < p.1))).map
        (fun p => (p.1, Metric.cosine.interTerm (w n1 q.1) (w q.1 p.1)))).filter (fun e => decide (e.1 = k))).map Prod.snd)) =
      if g.hasEdge q.1 k = true then [w n1 q.1 * w k q.1] else [] := by
      rw [List.filter_map, List.map_map]
      have e1 : List.filter ((fun e : V × K => decide (e.1 = k)) ∘ fun p : V × Dict PyKey (Attrs (Val K)) =>
            (p.1, Metric.cosine.interTerm (w n1 q.1) (w q.1 p.1)))
            ((g.adj q.1).filter (fun p => decide (n1 < p.1))) =
          (g.adj q.1).filter (fun p => decide (p.1 = k)) := by
        rw [List.filter_filter]
        apply List.filter_congr
        intro p _
        by_cases hp : p.1 = k
        · simp [hp, hlt]
        · simp [hp]
      rw [e1]
      have := filter_key_eq Prod.fst k (L := g.adj q.1) (Graph.neighbors_nodup h q.1)
        (fun y => w n1 q.1 * w q.1 y)
      refine Eq.trans this ?_
      have e3 : k ∈ (g.adj q.1).map Prod.fst ↔ g.hasEdge q.1 k = true := Graph.mem_neighbors
      simp only [e3]
      split
      · rename_i hq
        rw [hsym _ hq]
      · rfl
    rw [h1, List.map_cons, List.filter_cons, Graph.hasEdge_comm hd k q.1]
    split <;> rfl

theorem projectLoopR_ok [PyOrd V] [PyMath K] [AttrVal (Val K)] {num : K → K} {g : Graph V (Val K)} (hwf : g.WF)
    (hd : g.directed = false) {weightAttr : String}
    {t : Option K} {kind : Metric} (hu : kind.usesWeights = true) {N : Dict V K} {w : V → V → K} {sim : V → V → K}
    (L : List V) (m : OnlineMetric V K) (mono : Graph V (Val K)) (hkind : m.kind = kind) (hnorms : m.norms = N)
    (hs : mono.multi = false)
    (ho : ∀ n ∈ L, ∀ q ∈ g.adj n, ∀ p ∈ g.adj q.1, p.1 ≠ n → PyOrd.gt n p.1 = .ok (decide (p.1 < n)))
    (hw : ∀ n, ∀ q ∈ g.adj n, (taWeight g q.2 weightAttr).toNum = .ok (w n q.1))
    (hsym : ∀ t k, g.hasEdge t k = true → w t k = w k t)
    (hL : ∀ n ∈ L, ∃ a, N.get? n = some a ∧ ∀ k, n < k → (∃ t, g.hasEdge n t = true ∧ g.hasEdge t k = true) →
      ∃ b, N.get? k = some b ∧
        OnlineMetric.computeMetric kind (roundedDot num (g.sharedList n k) (w n) (w k)) a b = .ok (sim n k)) :
    ∃ E, projectLoopR num g weightAttr t L m mono = .ok (addWeights mono E) ∧
      ∀ e, e ∈ E ↔ e.1 ∈ L ∧ e.1 < e.2.1 ∧ (∃ t, g.hasEdge e.1 t = true ∧ g.hasEdge t e.2.1 = true) ∧
        e.2.2 = sim e.1 e.2.1 ∧ belowThreshold t e.2.2 = false := by
  induction L generalizing m mono with
  | nil => exact ⟨[], rfl, by simp⟩
  | cons n1 L ih =>
    obtain ⟨a, ha, hk⟩ := hL n1 List.mem_cons_self
    have hstart : m.startIntersection n1 = .ok { m with source := a, inter := [] } := by
      unfold OnlineMetric.startIntersection Dict.getItem
      rw [hnorms, ha]
    have htok := tokenLoopR_ok (num := num) (g := g) (weightAttr := weightAttr) (n1 := n1) (L := g.adj n1)
      (m := { m with source := a, inter := [] }) (w := w) (ho n1 List.mem_cons_self) (by simp only [hkind]; exact hu)
      (fun q hq => ⟨hw n1 q hq, fun p hp => hw q.1 p hp⟩)
    simp only [hkind] at htok
    have hI : ∀ p, p ∈ (contributions g .cosine w n1 (g.adj n1)).foldl (counterAddR num) [] ↔
        n1 < p.1 ∧ (∃ t, g.hasEdge n1 t = true ∧ g.hasEdge t p.1 = true) ∧
          p.2 = roundedDot num (g.sharedList n1 p.1) (w n1) (w p.1) := by
      rintro ⟨k, i⟩
      rw [← Dict.get?_iff_mem (counterR_nodup num _ (by simp [Dict.keys_nil])), counterR_get?]
      by_cases hm : k ∈ (contributions g .cosine w n1 (g.adj n1)).map Prod.fst
      · have hm' := mem_contributions.1 hm
        rw [if_pos hm]
        simp only [Dict.get?_nil, Option.getD_none, Option.some.injEq]
        rw [contributions_list hwf hd hm'.1 (fun t he => hsym t k he), List.foldl_map]
        exact ⟨fun h => ⟨hm'.1, hm'.2, h.symm⟩, fun h => h.2.2.symm⟩
      · rw [if_neg hm]
        simp only [Dict.get?_nil, reduceCtorEq, false_iff]
        rintro ⟨h1, h2, _⟩
        exact hm (mem_contributions.2 ⟨h1, h2⟩)
    have hlink := linkLoop_ok (m := { m with
        source := a
        inter := (contributions g .cosine w n1 (g.adj n1)).foldl (counterAddR num) [] }) (t := t) (n1 := n1)
      (I := (contributions g .cosine w n1 (g.adj n1)).foldl (counterAddR num) []) mono (sim := sim n1) hs
      (by
        intro p hp
        obtain ⟨h1, h2, h3⟩ := (hI p).1 hp
        obtain ⟨b, hb, hc⟩ := hk p.1 h1 h2
        refine ⟨b, by simpa [hnorms] using hb, ?_⟩
        simp only [hkind]
        rw [h3]; exact hc)
    unfold projectLoopR
    simp only [hstart, htok, hkind]
    simp only [hkind] at hlink
    rw [hlink]
    simp only
    obtain ⟨E, hE, hmem⟩ := ih { m with
        source := a
        inter := (contributions g .cosine w n1 (g.adj n1)).foldl (counterAddR num) [] }
      (addWeights mono (((contributions g .cosine w n1 (g.adj n1)).foldl (counterAddR num) []).filter
        (fun p => !belowThreshold t (sim n1 p.1)) |>.map (fun p => (n1, p.1, sim n1 p.1)))) hkind hnorms
      (by rw [addWeights_multi]; exact hs)
      (fun n hn => ho n (List.mem_cons_of_mem _ hn))
      (fun n hn => hL n (List.mem_cons_of_mem _ hn))
    simp only [hkind] at hE
    refine ⟨_ ++ E, by rw [hE]; unfold addWeights; rw [← List.foldl_append], ?_⟩
    rintro ⟨u, v, x⟩
    rw [List.mem_append, hmem]
    simp only [List.mem_map, List.mem_filter, Prod.mk.injEq, List.mem_cons, Bool.not_eq_true']
    constructor
    · rintro (⟨⟨k, i⟩, ⟨hp, hb⟩, rfl, rfl, rfl⟩ | ⟨h1, h2⟩)
      · obtain ⟨h1, h2, h3⟩ := (hI _).1 hp
        exact ⟨.inl rfl, h1, h2, rfl, hb⟩
      · exact ⟨.inr h1, h2⟩
    · rintro ⟨rfl | h1, h2, h3, h4, h5⟩
      · exact .inl ⟨(v, roundedDot num (g.sharedList u v) (w u) (w v)), ⟨(hI _).2 ⟨h2, h3, rfl⟩, by rw [← h4]; exact h5⟩, rfl, rfl, h4.symm⟩
      · exact .inr ⟨h1, h2, h3, h4, h5⟩

end Pelote
