import Verif.Lemmas.Projection
import Verif.Lemmas.AddWeights

/-! What the loops of the monopartite projection compute. -/
set_option linter.unusedSectionVars false
namespace Pelote
variable {V K : Type} [LinearOrder V] [Field K] [LinearOrder K]

/-- Does the metric look at the weights? -/
def Metric.usesWeights : Metric → Bool
  | .cosine | .dotProduct => true
  | _ => false

/-- What one neighbor adds to the norm. -/
def Metric.normTerm (kind : Metric) (x : K) : K :=
  match kind with
  | .cosine => x * x
  | _ => 1

/-- What one shared neighbor adds to the intersection. -/
def Metric.interTerm (kind : Metric) (x y : K) : K :=
  match kind with
  | .cosine | .dotProduct => x * y
  | _ => 1

/-- Is a norm accumulated to `x` kept? -/
def Metric.keepsNorm (kind : Metric) (x : K) : Bool :=
  match kind with
  | .pmi => decide (x ≥ 0)
  | _ => decide (x > 0)

theorem keepNorm_eq (m : OnlineMetric V K) : m.keepNorm = m.kind.keepsNorm m.acc := by
  unfold OnlineMetric.keepNorm Metric.keepsNorm
  cases m.kind <;> rfl

theorem hasWeight_toNum {attr : String} {a : Attrs (Val K)} {x : K} (h : HasWeight attr a x) :
    ((a.get? (.str attr)).getD (.num 1)).toNum = .ok x := by
  rcases h with ⟨h, rfl⟩ | h | ⟨h, rfl⟩ | ⟨h, rfl⟩ <;> rw [h] <;> rfl

theorem simple_get? {g : Graph V (Val K)} (h : g.WF) (hm : g.multi = false) {n t : V}
    {d : Dict PyKey (Attrs (Val K))} (hp : (t, d) ∈ g.adj n) :
    ∃ a, d.get? (.int 0) = some a ∧ g.edge? n t (.int 0) = some a := by
  have hk := (Graph.mem_adj h).1 hp
  obtain ⟨l, hl, _, rfl⟩ := (Graph.keydict?_eq_some h).1 hk
  have := h.simple hm l hl
  obtain ⟨a, ha⟩ := Dict.exists_get?_of_mem_keys (d := l.data) (k := .int 0) (by rw [this]; simp)
  exact ⟨a, ha, by unfold Graph.edge?; rw [hk]; exact ha⟩

theorem taWeight_ok {g : Graph V (Val K)} (h : g.WF) (hm : g.multi = false) {attr : String} {w : V → V → K}
    (hw : EdgeWeights g attr w) {n t : V} {d : Dict PyKey (Attrs (Val K))} (hp : (t, d) ∈ g.adj n) :
    (taWeight g d attr).toNum = .ok (w n t) := by
  obtain ⟨a, h1, h2⟩ := simple_get? h hm hp
  have := hasWeight_toNum (hw n t a h2)
  unfold taWeight Graph.taGet
  rw [hm, h1]
  exact this

theorem hasWeight_unique {attr : String} {a : Attrs (Val K)} {x y : K} (h : HasWeight attr a x)
    (h' : HasWeight attr a y) : x = y := by
  have h1 := hasWeight_toNum h
  rw [hasWeight_toNum h'] at h1
  exact (Except.ok.inj h1).symm

theorem edge?_comm {g : Graph V (Val K)} (hd : g.directed = false) (u v : V) (k : PyKey) :
    g.edge? u v k = g.edge? v u k := by
  unfold Graph.edge?
  rw [Graph.keydict?_samePair (g := g) (u := u) (v := v) (x := v) (y := u)
    (by rw [hd]; simp [samePair])]

theorem edge_exists {g : Graph V (Val K)} (h : g.WF) (hm : g.multi = false) {u v : V}
    (he : g.hasEdge u v = true) : ∃ a, g.edge? u v (.int 0) = some a := by
  have : v ∈ g.neighbors u := Graph.mem_neighbors.2 he
  unfold Graph.neighbors at this
  obtain ⟨⟨v', d⟩, hp, rfl⟩ := List.mem_map.1 this
  obtain ⟨a, _, h2⟩ := simple_get? h hm hp
  exact ⟨a, h2⟩

theorem weights_symm {g : Graph V (Val K)} (h : g.WF) (hd : g.directed = false) (hm : g.multi = false)
    {attr : String} {w : V → V → K} (hw : EdgeWeights g attr w) {u v : V} (he : g.hasEdge u v = true) :
    w u v = w v u := by
  obtain ⟨a, ha⟩ := edge_exists h hm he
  exact hasWeight_unique (hw u v a ha) (hw v u a (by rw [edge?_comm hd]; exact ha))

/-! ### Norms -/

theorem normLoop_ok {g : Graph V (Val K)} {part : Part V K} {partAttr weightAttr : String} {check : Bool}
    {L : List (V × Dict PyKey (Attrs (Val K)))} (m : OnlineMetric V K) {f : V → K}
    (hc : check = true → ∀ p ∈ L, part.clashes g partAttr p.1 p.2 = false)
    (hw : m.kind.usesWeights = true → ∀ p ∈ L, (taWeight g p.2 weightAttr).toNum = .ok (f p.1)) :
    normLoop g part partAttr weightAttr check L m =
      .ok { m with acc := m.acc + (L.map (fun p => m.kind.normTerm (f p.1))).sum } := by
  induction L generalizing m with
  | nil => simp [normLoop]
  | cons p L ih =>
    obtain ⟨t, d⟩ := p
    unfold normLoop
    have h1 : (check && part.clashes g partAttr t d) = false := by
      cases check with
      | false => rfl
      | true => exact hc rfl _ List.mem_cons_self
    have h2 : m.accumulateNorm (taWeight g d weightAttr) = .ok { m with acc := m.acc + m.kind.normTerm (f t) } := by
      unfold OnlineMetric.accumulateNorm
      cases hk : m.kind with
      | cosine =>
        have := hw (by rw [hk]; rfl) (t, d) List.mem_cons_self
        simp only at this
        simp [this, Metric.normTerm]
      | _ => simp [Metric.normTerm]
    rw [h1, h2]
    simp only [Bool.false_eq_true, if_false]
    rw [ih]
    · simp [add_assoc]
    · intro h p hp; exact hc h p (List.mem_cons_of_mem _ hp)
    · intro h p hp; exact hw h p (List.mem_cons_of_mem _ hp)

/-- The accumulated norm of a node. -/
def normSum (g : Graph V (Val K)) (kind : Metric) (w : V → V → K) (n : V) : K :=
  ((g.neighbors n).map (fun t => kind.normTerm (w n t))).sum

/-- The norms kept for the nodes of a list. -/
def keptNorms [PyMath K] (g : Graph V (Val K)) (part : Part V K) (partAttr : String) (kind : Metric)
    (w : V → V → K) (L : Dict V (Attrs (Val K))) : Dict V K :=
  (L.filter (fun p => part.keeps partAttr p.1 p.2 && kind.keepsNorm (normSum g kind w p.1))).map
    (fun p => (p.1, OnlineMetric.finNorm kind (normSum g kind w p.1)))

theorem partLoop_ok [PyMath K] {g : Graph V (Val K)} {part : Part V K} {partAttr weightAttr : String}
    {check : Bool} {w : V → V → K} {L : Dict V (Attrs (Val K))} (m : OnlineMetric V K)
    (mono : Graph V (Val K)) (b : Bool)
    (hL : L.keys.Nodup) (hdis : ∀ n ∈ L.keys, n ∉ m.norms.keys)
    (hsafe : ∀ p ∈ L, part.keeps partAttr p.1 p.2 = true → Graph.NodeKwSafe (p.2.erase (.str partAttr)))
    (hc : check = true → ∀ p ∈ L, part.keeps partAttr p.1 p.2 = true →
      ∀ q ∈ g.adj p.1, part.clashes g partAttr q.1 q.2 = false)
    (hw : m.kind.usesWeights = true → ∀ p ∈ L, ∀ q ∈ g.adj p.1,
      (taWeight g q.2 weightAttr).toNum = .ok (w p.1 q.1)) :
    ∃ m' mono' b', partLoop g part partAttr weightAttr check L m mono b = .ok (m', mono', b') ∧
      m'.kind = m.kind ∧ m'.norms = m.norms ++ keptNorms g part partAttr m.kind w L := by
  induction L generalizing m mono b with
  | nil => exact ⟨m, mono, b, rfl, rfl, by simp [keptNorms]⟩
  | cons p L ih =>
    obtain ⟨n, a⟩ := p
    rw [Dict.keys_cons, List.nodup_cons] at hL
    unfold partLoop
    cases hk : part.keeps partAttr n a with
    | false =>
      simp only [Bool.not_false, if_true]
      obtain ⟨m', mono', b', i1, i2, i3⟩ := ih m mono b hL.2
        (fun x hx => hdis x (by simp [Dict.keys_cons, hx]))
        (fun p hp => hsafe p (List.mem_cons_of_mem _ hp))
        (fun h p hp => hc h p (List.mem_cons_of_mem _ hp))
        (fun h p hp => hw h p (List.mem_cons_of_mem _ hp))
      refine ⟨m', mono', b', i1, i2, ?_⟩
      rw [i3]
      simp [keptNorms, hk]
    | true =>
      simp only [Bool.not_true, Bool.false_eq_true, if_false]
      rw [normLoop_ok (m := m.resetNorm) (f := w n) (fun h => hc h (n, a) List.mem_cons_self hk)
        (fun h => hw h (n, a) List.mem_cons_self)]
      simp only [OnlineMetric.resetNorm, zero_add]
      rw [OnlineMetric.addNorm_ok, Graph.addNode_ok (hsafe (n, a) List.mem_cons_self hk)]
      simp only [keepNorm_eq]
      have hS : ((g.adj n).map (fun p => m.kind.normTerm (w n p.1))).sum = normSum g m.kind w n := by
        unfold normSum Graph.neighbors
        rw [List.map_map]; rfl
      rw [hS]
      cases hq : m.kind.keepsNorm (normSum g m.kind w n) with
      | false =>
        simp only [Bool.false_eq_true, if_false]
        obtain ⟨m', mono', b', i1, i2, i3⟩ := ih { m with acc := normSum g m.kind w n }
          (mono.addNodeCore n (a.erase (.str partAttr))) false hL.2
          (fun x hx => hdis x (by simp [Dict.keys_cons, hx]))
          (fun p hp => hsafe p (List.mem_cons_of_mem _ hp))
          (fun h p hp => hc h p (List.mem_cons_of_mem _ hp))
          (fun h p hp => hw h p (List.mem_cons_of_mem _ hp))
        refine ⟨m', mono', b', i1, i2, ?_⟩
        rw [i3]
        simp [keptNorms, hk, hq]
      | true =>
        simp only [if_true]
        have hfresh : n ∉ m.norms.keys := hdis n (by simp [Dict.keys_cons])
        obtain ⟨m', mono', b', i1, i2, i3⟩ := ih { m with
              acc := normSum g m.kind w n
              norms := m.norms.set n (OnlineMetric.finNorm m.kind (normSum g m.kind w n)) }
          (mono.addNodeCore n (a.erase (.str partAttr))) false hL.2
          (by
            intro x hx hx'
            rcases Dict.mem_keys_set.1 hx' with h' | rfl
            · exact hdis x (by simp [Dict.keys_cons, hx]) h'
            · exact hL.1 hx)
          (fun p hp => hsafe p (List.mem_cons_of_mem _ hp))
          (fun h p hp => hc h p (List.mem_cons_of_mem _ hp))
          (fun h p hp => hw h p (List.mem_cons_of_mem _ hp))
        refine ⟨m', mono', b', i1, i2, ?_⟩
        rw [i3, Dict.set_of_not_mem _ hfresh]
        simp [keptNorms, hk, hq]

/-! ### Intersections -/

/-- `counter[k] += x`. -/
def counterAdd (d : Dict V K) (e : V × K) : Dict V K := d.set e.1 ((d.get? e.1).getD 0 + e.2)

theorem counter_nodup (L : List (V × K)) {d : Dict V K} (h : d.keys.Nodup) :
    (L.foldl counterAdd d).keys.Nodup := by
  induction L generalizing d with
  | nil => exact h
  | cons e L ih => exact ih (Dict.nodup_set _ _ h)

theorem counter_get? (L : List (V × K)) (d : Dict V K) (k : V) :
    (L.foldl counterAdd d).get? k =
      if k ∈ L.map Prod.fst then some ((d.get? k).getD 0 + ((L.filter (fun e => e.1 = k)).map Prod.snd).sum)
      else d.get? k := by
  induction L generalizing d with
  | nil => simp
  | cons e L ih =>
    obtain ⟨k', x⟩ := e
    rw [List.foldl_cons, ih]
    unfold counterAdd
    by_cases hk : k' = k
    · subst hk
      by_cases hm : k' ∈ L.map Prod.fst
      · simp only [hm, if_true, List.map_cons, List.mem_cons, true_or, Dict.get?_set_self, Option.getD_some]
        simp [add_assoc]
      · have : L.filter (fun e => decide (e.1 = k')) = [] := by
          rw [List.filter_eq_nil_iff]
          intro e he
          have : e.1 ≠ k' := by
            rintro rfl
            exact hm (List.mem_map_of_mem he)
          simpa using this
        simp [hm, this, Dict.get?_set_self]
    · simp only [Dict.get?_set_ne d _ hk, List.map_cons, List.mem_cons, Ne.symm hk, false_or]
      have : List.filter (fun e => decide (e.1 = k)) ((k', x) :: L) = L.filter (fun e => decide (e.1 = k)) := by
        simp [hk]
      rw [this]

theorem intersect_ok (m : OnlineMetric V K) (n2 : V) {w1 w2 : Val K} {x y : K}
    (hw : m.kind.usesWeights = true → w1.toNum = .ok x ∧ w2.toNum = .ok y) :
    m.intersect n2 w1 w2 = .ok { m with inter := counterAdd m.inter (n2, m.kind.interTerm x y) } := by
  unfold OnlineMetric.intersect OnlineMetric.intersectionWeight
  cases hk : m.kind with
  | cosine =>
    obtain ⟨h1, h2⟩ := hw (by rw [hk]; rfl)
    simp [h1, h2, counterAdd, Metric.interTerm]
  | dotProduct =>
    obtain ⟨h1, h2⟩ := hw (by rw [hk]; rfl)
    simp [h1, h2, counterAdd, Metric.interTerm]
  | _ => simp [counterAdd, Metric.interTerm]

theorem sharedLoop_ok [PyOrd V] {g : Graph V (Val K)} {weightAttr : String} {n1 : V} {w1 : Val K}
    {L : List (V × Dict PyKey (Attrs (Val K)))} (m : OnlineMetric V K) {x : K} {f : V → K}
    (ho : ∀ p ∈ L, p.1 ≠ n1 → PyOrd.gt n1 p.1 = .ok (decide (p.1 < n1)))
    (hw : m.kind.usesWeights = true → w1.toNum = .ok x ∧ ∀ p ∈ L, (taWeight g p.2 weightAttr).toNum = .ok (f p.1)) :
    sharedLoop g weightAttr n1 w1 L m =
      .ok { m with inter := ((L.filter (fun p => n1 < p.1)).map
        (fun p => (p.1, m.kind.interTerm x (f p.1)))).foldl counterAdd m.inter } := by
  induction L generalizing m with
  | nil => rfl
  | cons p L ih =>
    obtain ⟨n2, d⟩ := p
    have ho' : ∀ p ∈ L, p.1 ≠ n1 → PyOrd.gt n1 p.1 = .ok (decide (p.1 < n1)) :=
      fun p hp => ho p (List.mem_cons_of_mem _ hp)
    have hw' : m.kind.usesWeights = true → w1.toNum = .ok x ∧
        ∀ p ∈ L, (taWeight g p.2 weightAttr).toNum = .ok (f p.1) :=
      fun h => ⟨(hw h).1, fun p hp => (hw h).2 p (List.mem_cons_of_mem _ hp)⟩
    unfold sharedLoop
    rcases lt_trichotomy n1 n2 with hlt | heq | hgt
    · rw [if_neg hlt.ne']
      have := ho (n2, d) List.mem_cons_self hlt.ne'
      simp only at this
      rw [this]
      simp only [not_lt.2 hlt.le, decide_false]
      rw [intersect_ok m n2 (x := x) (y := f n2) (fun h => ⟨(hw h).1, (hw h).2 (n2, d) List.mem_cons_self⟩)]
      simp only
      rw [ih { m with inter := counterAdd m.inter (n2, m.kind.interTerm x (f n2)) } ho' hw']
      simp [hlt]
    · rw [if_pos heq.symm, ih m ho' hw']
      subst heq
      simp
    · rw [if_neg hgt.ne]
      have := ho (n2, d) List.mem_cons_self hgt.ne
      simp only at this
      rw [this]
      simp only [hgt, decide_true]
      rw [ih m ho' hw']
      simp [not_lt.2 hgt.le]

/-- The contributions to the intersections of `n1`. -/
def contributions (g : Graph V (Val K)) (kind : Metric) (w : V → V → K) (n1 : V)
    (L : List (V × Dict PyKey (Attrs (Val K)))) : List (V × K) :=
  L.flatMap (fun q => ((g.adj q.1).filter (fun p => n1 < p.1)).map
    (fun p => (p.1, kind.interTerm (w n1 q.1) (w q.1 p.1))))

theorem tokenLoop_ok [PyOrd V] {g : Graph V (Val K)} {weightAttr : String} {n1 : V}
    {L : List (V × Dict PyKey (Attrs (Val K)))} (m : OnlineMetric V K) {w : V → V → K}
    (ho : ∀ q ∈ L, ∀ p ∈ g.adj q.1, p.1 ≠ n1 → PyOrd.gt n1 p.1 = .ok (decide (p.1 < n1)))
    (hw : m.kind.usesWeights = true → ∀ q ∈ L, (taWeight g q.2 weightAttr).toNum = .ok (w n1 q.1) ∧
      ∀ p ∈ g.adj q.1, (taWeight g p.2 weightAttr).toNum = .ok (w q.1 p.1)) :
    tokenLoop g weightAttr n1 L m =
      .ok { m with inter := (contributions g m.kind w n1 L).foldl counterAdd m.inter } := by
  induction L generalizing m with
  | nil => rfl
  | cons q L ih =>
    obtain ⟨t, d⟩ := q
    unfold tokenLoop
    rw [sharedLoop_ok m (x := w n1 t) (f := w t) (ho (t, d) List.mem_cons_self)
      (fun h => hw h (t, d) List.mem_cons_self)]
    simp only
    rw [ih]
    · simp [contributions, List.foldl_append]
    · exact fun q hq => ho q (List.mem_cons_of_mem _ hq)
    · exact fun h q hq => hw h q (List.mem_cons_of_mem _ hq)

theorem mem_nbhd {g : Graph V (Val K)} (h : g.WF) {n t : V} : t ∈ g.nbhd n ↔ g.hasEdge n t = true := by
  unfold Graph.nbhd
  simp only [List.mem_toFinset, List.mem_filter]
  exact ⟨fun h => h.2, fun he => ⟨(Graph.hasEdge_mem h he).2, he⟩⟩

theorem nbhd_eq {g : Graph V (Val K)} (h : g.WF) (n : V) : g.nbhd n = (g.neighbors n).toFinset := by
  ext t
  rw [mem_nbhd h, List.mem_toFinset, Graph.mem_neighbors]

theorem normSum_eq {g : Graph V (Val K)} (h : g.WF) (kind : Metric) (w : V → V → K) (n : V) :
    normSum g kind w n = ∑ t ∈ g.nbhd n, kind.normTerm (w n t) := by
  unfold normSum
  rw [nbhd_eq h, List.sum_toFinset _ (Graph.neighbors_nodup h n)]

theorem sum_filter_key {α : Type} (key : α → V) (c : V → K) (k : V) {L : List α} (hL : (L.map key).Nodup) :
    ((L.filter (fun q => decide (key q = k))).map (fun q => c (key q))).sum =
      if k ∈ L.map key then c k else 0 := by
  induction L with
  | nil => simp
  | cons q L ih =>
    rw [List.map_cons, List.nodup_cons] at hL
    by_cases hk : key q = k
    · subst hk
      have h0 := ih hL.2
      rw [if_neg hL.1] at h0
      simp [h0]
    · have : key q ≠ k := hk
      simp [hk, ih hL.2, Ne.symm hk]

theorem mem_contributions {g : Graph V (Val K)} {kind : Metric} {w : V → V → K} {n1 k : V} :
    k ∈ (contributions g kind w n1 (g.adj n1)).map Prod.fst ↔
      n1 < k ∧ ∃ t, g.hasEdge n1 t = true ∧ g.hasEdge t k = true := by
  unfold contributions
  simp only [List.mem_map, List.mem_flatMap, List.mem_filter, decide_eq_true_eq, Prod.exists, exists_and_right,
    exists_eq_right, Prod.mk.injEq]
  constructor
  · rintro ⟨x, t, ⟨d, hd⟩, k', ⟨⟨d', hd'⟩, hlt⟩, rfl, _⟩
    refine ⟨hlt, t, ?_, ?_⟩
    · exact Graph.mem_neighbors.1 (List.mem_map.2 ⟨_, hd, rfl⟩)
    · exact Graph.mem_neighbors.1 (List.mem_map.2 ⟨_, hd', rfl⟩)
  · rintro ⟨hlt, t, h1, h2⟩
    obtain ⟨⟨_, d⟩, hd, rfl⟩ := List.mem_map.1 (Graph.mem_neighbors.2 h1)
    obtain ⟨⟨_, d'⟩, hd', rfl⟩ := List.mem_map.1 (Graph.mem_neighbors.2 h2)
    exact ⟨_, _, ⟨d, hd⟩, _, ⟨⟨d', hd'⟩, hlt⟩, rfl, rfl⟩

theorem sum_contributions {g : Graph V (Val K)} (h : g.WF) (hd : g.directed = false) {kind : Metric}
    {w : V → V → K} {n1 k : V} (hlt : n1 < k)
    (hsym : kind.usesWeights = true → ∀ t, g.hasEdge t k = true → w t k = w k t) :
    (((contributions g kind w n1 (g.adj n1)).filter (fun e => e.1 = k)).map Prod.snd).sum =
      ∑ t ∈ g.nbhd n1 ∩ g.nbhd k, kind.interTerm (w n1 t) (w k t) := by
  unfold contributions
  rw [List.filter_flatMap, sum_flatMap'']
  have h1 : ∀ q : V × Dict PyKey (Attrs (Val K)),
      ((((((g.adj q.1).filter (fun p => decide (n1 < p.1))).map
        (fun p => (p.1, kind.interTerm (w n1 q.1) (w q.1 p.1)))).filter (fun e => decide (e.1 = k))).map Prod.snd).sum) =
      if g.hasEdge q.1 k = true then kind.interTerm (w n1 q.1) (w k q.1) else 0 := by
    intro q
    rw [List.filter_map, List.map_map]
    have e1 : List.filter ((fun e : V × K => decide (e.1 = k)) ∘ fun p : V × Dict PyKey (Attrs (Val K)) =>
          (p.1, kind.interTerm (w n1 q.1) (w q.1 p.1)))
          ((g.adj q.1).filter (fun p => decide (n1 < p.1))) =
        (g.adj q.1).filter (fun p => decide (p.1 = k)) := by
      rw [List.filter_filter]
      apply List.filter_congr
      intro p _
      by_cases hp : p.1 = k
      · simp [hp, hlt]
      · simp [hp]
    rw [e1]
    have := sum_filter_key Prod.fst (fun y => kind.interTerm (w n1 q.1) (w q.1 y)) k
      (L := g.adj q.1) (Graph.neighbors_nodup h q.1)
    have e2 : (Prod.snd ∘ fun p : V × Dict PyKey (Attrs (Val K)) => (p.1, kind.interTerm (w n1 q.1) (w q.1 p.1))) =
      (fun p : V × Dict PyKey (Attrs (Val K)) => kind.interTerm (w n1 q.1) (w q.1 p.1)) := rfl
    rw [e2, this]
    have e3 : k ∈ (g.adj q.1).map Prod.fst ↔ g.hasEdge q.1 k = true := Graph.mem_neighbors
    simp only [e3]
    split
    · rename_i hq
      cases hu : kind.usesWeights with
      | true => rw [hsym hu _ hq]
      | false => cases kind <;> first | rfl | cases hu
    · rfl
  simp only [h1]
  have e4 : (List.map (fun q : V × Dict PyKey (Attrs (Val K)) =>
      if g.hasEdge q.1 k = true then kind.interTerm (w n1 q.1) (w k q.1) else 0) (g.adj n1)) =
      (g.neighbors n1).map (fun t => if g.hasEdge t k = true then kind.interTerm (w n1 t) (w k t) else 0) := by
    unfold Graph.neighbors
    rw [List.map_map]; rfl
  rw [e4, ← List.sum_toFinset _ (Graph.neighbors_nodup h n1), ← nbhd_eq h, ← Finset.sum_filter]
  apply Finset.sum_congr _ (fun _ _ => rfl)
  ext t
  simp only [Finset.mem_filter, Finset.mem_inter, mem_nbhd h]
  rw [Graph.hasEdge_comm hd t k]

/-! ### Links -/

theorem linkLoop_ok [PyMath K] [AttrVal (Val K)] {m : OnlineMetric V K} {t : Option K} {n1 : V}
    {I : Dict V K} (mono : Graph V (Val K)) {sim : V → K} (hs : mono.multi = false)
    (hn : ∀ p ∈ I, ∃ y, m.norms.get? p.1 = some y ∧
      OnlineMetric.computeMetric m.kind p.2 m.source y = .ok (sim p.1)) :
    linkLoop m t n1 I mono = .ok (addWeights mono
      ((I.filter (fun p => !belowThreshold t (sim p.1))).map (fun p => (n1, p.1, sim p.1)))) := by
  induction I generalizing mono with
  | nil => rfl
  | cons p I ih =>
    obtain ⟨n2, i⟩ := p
    obtain ⟨y, h1, h2⟩ := hn (n2, i) List.mem_cons_self
    simp only at h1 h2
    have hn' : ∀ p ∈ I, ∃ y, m.norms.get? p.1 = some y ∧
      OnlineMetric.computeMetric m.kind p.2 m.source y = .ok (sim p.1) :=
      fun p hp => hn p (List.mem_cons_of_mem _ hp)
    unfold linkLoop Dict.getItem
    rw [h1]
    simp only [h2]
    cases hb : belowThreshold t (sim n2) with
    | true =>
      simp only [if_true]
      rw [ih mono hs hn']
      simp [hb]
    | false =>
      simp only [Bool.false_eq_true, if_false]
      rw [Graph.addEdge_ok (by rw [hs]; exact weight_kwSafe _)]
      simp only
      rw [ih _ (by rw [Graph.addEdgeCore_multi]; exact hs) hn']
      simp [hb, addWeights]

theorem projectLoop_ok [PyOrd V] [PyMath K] [AttrVal (Val K)] {g : Graph V (Val K)} {weightAttr : String}
    {t : Option K} {kind : Metric} {N : Dict V K} {w : V → V → K} {S : V → V → K} {sim : V → V → K}
    (L : List V) (m : OnlineMetric V K) (mono : Graph V (Val K)) (hkind : m.kind = kind) (hnorms : m.norms = N)
    (hs : mono.multi = false)
    (ho : ∀ n ∈ L, ∀ q ∈ g.adj n, ∀ p ∈ g.adj q.1, p.1 ≠ n → PyOrd.gt n p.1 = .ok (decide (p.1 < n)))
    (hw : kind.usesWeights = true → ∀ n, ∀ q ∈ g.adj n, (taWeight g q.2 weightAttr).toNum = .ok (w n q.1))
    (hS : ∀ n ∈ L, ∀ k, n < k → (((contributions g kind w n (g.adj n)).filter (fun e => e.1 = k)).map Prod.snd).sum =
      S n k)
    (hL : ∀ n ∈ L, ∃ a, N.get? n = some a ∧ ∀ k, n < k → (∃ t, g.hasEdge n t = true ∧ g.hasEdge t k = true) →
      ∃ b, N.get? k = some b ∧ OnlineMetric.computeMetric kind (S n k) a b = .ok (sim n k)) :
    ∃ E, projectLoop g weightAttr t L m mono = .ok (addWeights mono E) ∧
      ∀ e, e ∈ E ↔ e.1 ∈ L ∧ e.1 < e.2.1 ∧ (∃ t, g.hasEdge e.1 t = true ∧ g.hasEdge t e.2.1 = true) ∧
        e.2.2 = sim e.1 e.2.1 ∧ belowThreshold t e.2.2 = false := by
  induction L generalizing m mono with
  | nil => exact ⟨[], rfl, by simp⟩
  | cons n1 L ih =>
    obtain ⟨a, ha, hk⟩ := hL n1 List.mem_cons_self
    have hstart : m.startIntersection n1 = .ok { m with source := a, inter := [] } := by
      unfold OnlineMetric.startIntersection Dict.getItem
      rw [hnorms, ha]
    have htok := tokenLoop_ok (g := g) (weightAttr := weightAttr) (n1 := n1) (L := g.adj n1)
      (m := { m with source := a, inter := [] }) (w := w) (ho n1 List.mem_cons_self)
      (by
        intro hu q hq
        simp only [hkind] at hu
        exact ⟨hw hu n1 q hq, fun p hp => hw hu q.1 p hp⟩)
    simp only [hkind] at htok
    have hI : ∀ p, p ∈ (contributions g kind w n1 (g.adj n1)).foldl counterAdd [] ↔
        n1 < p.1 ∧ (∃ t, g.hasEdge n1 t = true ∧ g.hasEdge t p.1 = true) ∧ p.2 = S n1 p.1 := by
      rintro ⟨k, i⟩
      rw [← Dict.get?_iff_mem (counter_nodup _ (by simp [Dict.keys_nil])), counter_get?]
      by_cases hm : k ∈ (contributions g kind w n1 (g.adj n1)).map Prod.fst
      · have hm' := mem_contributions.1 hm
        rw [if_pos hm]
        simp only [Dict.get?_nil, Option.getD_none, zero_add, Option.some.injEq]
        rw [hS n1 List.mem_cons_self k hm'.1]
        exact ⟨fun h => ⟨hm'.1, hm'.2, h.symm⟩, fun h => h.2.2.symm⟩
      · rw [if_neg hm]
        simp only [Dict.get?_nil, reduceCtorEq, false_iff]
        rintro ⟨h1, h2, _⟩
        exact hm (mem_contributions.2 ⟨h1, h2⟩)
    have hlink := linkLoop_ok (m := { m with
        source := a
        inter := (contributions g kind w n1 (g.adj n1)).foldl counterAdd [] }) (t := t) (n1 := n1)
      (I := (contributions g kind w n1 (g.adj n1)).foldl counterAdd []) mono (sim := sim n1) hs
      (by
        intro p hp
        obtain ⟨h1, h2, h3⟩ := (hI p).1 hp
        obtain ⟨b, hb, hc⟩ := hk p.1 h1 h2
        refine ⟨b, by simpa [hnorms] using hb, ?_⟩
        simp only [hkind]
        rw [h3]; exact hc)
    unfold projectLoop
    simp only [hstart, htok, hkind]
    simp only [hkind] at hlink
    rw [hlink]
    simp only
    obtain ⟨E, hE, hmem⟩ := ih { m with
        source := a
        inter := (contributions g kind w n1 (g.adj n1)).foldl counterAdd [] }
      (addWeights mono (((contributions g kind w n1 (g.adj n1)).foldl counterAdd []).filter
        (fun p => !belowThreshold t (sim n1 p.1)) |>.map (fun p => (n1, p.1, sim n1 p.1)))) hkind hnorms
      (by rw [addWeights_multi]; exact hs)
      (fun n hn => ho n (List.mem_cons_of_mem _ hn)) (fun n hn => hS n (List.mem_cons_of_mem _ hn))
      (fun n hn => hL n (List.mem_cons_of_mem _ hn))
    simp only [hkind] at hE
    refine ⟨_ ++ E, by rw [hE]; unfold addWeights; rw [← List.foldl_append], ?_⟩
    rintro ⟨u, v, x⟩
    rw [List.mem_append, hmem]
    simp only [List.mem_map, List.mem_filter, Prod.mk.injEq, List.mem_cons, Bool.not_eq_true']
    constructor
    · rintro (⟨⟨k, i⟩, ⟨hp, hb⟩, rfl, rfl, rfl⟩ | ⟨h1, h2⟩)
      · obtain ⟨h1, h2, h3⟩ := (hI _).1 hp
        exact ⟨.inl rfl, h1, h2, rfl, hb⟩
      · exact ⟨.inr h1, h2⟩
    · rintro ⟨rfl | h1, h2, h3, h4, h5⟩
      · exact .inl ⟨(v, S u v), ⟨(hI _).2 ⟨h2, h3, rfl⟩, by rw [← h4]; exact h5⟩, rfl, rfl, h4.symm⟩
      · exact .inr ⟨h1, h2, h3, h4, h5⟩

theorem linkLoop_bad [PyMath K] [AttrVal (Val K)] {m : OnlineMetric V K} {t : Option K} {n1 : V}
    {I : Dict V K} (mono : Graph V (Val K)) {sim : V → K} (hs : mono.multi = false)
    (hn : ∀ p ∈ I, m.norms.get? p.1 = none ∨ ∃ y, m.norms.get? p.1 = some y ∧
      OnlineMetric.computeMetric m.kind p.2 m.source y = .ok (sim p.1))
    (hbad : ∃ p ∈ I, m.norms.get? p.1 = none) :
    linkLoop m t n1 I mono = .error .keyError := by
  induction I generalizing mono with
  | nil => obtain ⟨p, hp, _⟩ := hbad; cases hp
  | cons p I ih =>
    obtain ⟨n2, i⟩ := p
    unfold linkLoop Dict.getItem
    rcases hn (n2, i) List.mem_cons_self with h1 | ⟨y, h1, h2⟩
    · simp only at h1
      rw [h1]
    · simp only at h1 h2
      have hn' := fun p hp => hn p (List.mem_cons_of_mem _ hp)
      have hbad' : ∃ p ∈ I, m.norms.get? p.1 = none := by
        obtain ⟨p, hp, hx⟩ := hbad
        rcases List.mem_cons.1 hp with rfl | hp
        · simp only at hx
          rw [h1] at hx; cases hx
        · exact ⟨p, hp, hx⟩
      rw [h1]
      simp only [h2]
      cases hb : belowThreshold t (sim n2) with
      | true =>
        simp only [if_true]
        exact ih mono hs hn' hbad'
      | false =>
        simp only [Bool.false_eq_true, if_false]
        rw [Graph.addEdge_ok (by rw [hs]; exact weight_kwSafe _)]
        exact ih _ (by rw [Graph.addEdgeCore_multi]; exact hs) hn' hbad'

/-- A node sharing a neighbor with a smaller one, and lacking a norm the other has, raises. -/
theorem projectLoop_bad [PyOrd V] [PyMath K] [AttrVal (Val K)] {g : Graph V (Val K)} {weightAttr : String}
    {t : Option K} {kind : Metric} {N : Dict V K} {w : V → V → K} {S : V → V → K} {sim : V → V → K}
    (L : List V) (m : OnlineMetric V K) (mono : Graph V (Val K)) (hkind : m.kind = kind) (hnorms : m.norms = N)
    (hs : mono.multi = false)
    (ho : ∀ n ∈ L, ∀ q ∈ g.adj n, ∀ p ∈ g.adj q.1, p.1 ≠ n → PyOrd.gt n p.1 = .ok (decide (p.1 < n)))
    (hw : kind.usesWeights = true → ∀ n, ∀ q ∈ g.adj n, (taWeight g q.2 weightAttr).toNum = .ok (w n q.1))
    (hS : ∀ n ∈ L, ∀ k, n < k → (((contributions g kind w n (g.adj n)).filter (fun e => e.1 = k)).map Prod.snd).sum =
      S n k)
    (hL : ∀ n ∈ L, ∃ a, N.get? n = some a ∧ ∀ k, n < k → (∃ t, g.hasEdge n t = true ∧ g.hasEdge t k = true) →
      N.get? k = none ∨ ∃ b, N.get? k = some b ∧ OnlineMetric.computeMetric kind (S n k) a b = .ok (sim n k))
    (hbad : ∃ n ∈ L, ∃ k, n < k ∧ (∃ t, g.hasEdge n t = true ∧ g.hasEdge t k = true) ∧ N.get? k = none) :
    projectLoop g weightAttr t L m mono = .error .keyError := by
  induction L generalizing m mono with
  | nil => obtain ⟨n, hn, _⟩ := hbad; cases hn
  | cons n1 L ih =>
    obtain ⟨a, ha, hk⟩ := hL n1 List.mem_cons_self
    have hstart : m.startIntersection n1 = .ok { m with source := a, inter := [] } := by
      unfold OnlineMetric.startIntersection Dict.getItem
      rw [hnorms, ha]
    have htok := tokenLoop_ok (g := g) (weightAttr := weightAttr) (n1 := n1) (L := g.adj n1)
      (m := { m with source := a, inter := [] }) (w := w) (ho n1 List.mem_cons_self)
      (by
        intro hu q hq
        simp only [hkind] at hu
        exact ⟨hw hu n1 q hq, fun p hp => hw hu q.1 p hp⟩)
    simp only [hkind] at htok
    have hI : ∀ p, p ∈ (contributions g kind w n1 (g.adj n1)).foldl counterAdd [] ↔
        n1 < p.1 ∧ (∃ t, g.hasEdge n1 t = true ∧ g.hasEdge t p.1 = true) ∧ p.2 = S n1 p.1 := by
      rintro ⟨k, i⟩
      rw [← Dict.get?_iff_mem (counter_nodup _ (by simp [Dict.keys_nil])), counter_get?]
      by_cases hm : k ∈ (contributions g kind w n1 (g.adj n1)).map Prod.fst
      · have hm' := mem_contributions.1 hm
        rw [if_pos hm]
        simp only [Dict.get?_nil, Option.getD_none, zero_add, Option.some.injEq]
        rw [hS n1 List.mem_cons_self k hm'.1]
        exact ⟨fun h => ⟨hm'.1, hm'.2, h.symm⟩, fun h => h.2.2.symm⟩
      · rw [if_neg hm]
        simp only [Dict.get?_nil, reduceCtorEq, false_iff]
        rintro ⟨h1, h2, _⟩
        exact hm (mem_contributions.2 ⟨h1, h2⟩)
    have hall : ∀ p ∈ (contributions g kind w n1 (g.adj n1)).foldl counterAdd [],
        N.get? p.1 = none ∨ ∃ y, N.get? p.1 = some y ∧
          OnlineMetric.computeMetric kind p.2 a y = .ok (sim n1 p.1) := by
      intro p hp
      obtain ⟨h1, h2, h3⟩ := (hI p).1 hp
      rw [h3]
      exact hk p.1 h1 h2
    unfold projectLoop
    simp only [hstart, htok, hkind]
    by_cases hx : ∃ p ∈ (contributions g kind w n1 (g.adj n1)).foldl counterAdd [], N.get? p.1 = none
    · have hlink := linkLoop_bad (m := { m with
          source := a
          inter := (contributions g kind w n1 (g.adj n1)).foldl counterAdd [] }) (t := t) (n1 := n1)
        (I := (contributions g kind w n1 (g.adj n1)).foldl counterAdd []) mono (sim := sim n1) hs
        (by simpa only [hkind, hnorms] using hall) (by simpa only [hnorms] using hx)
      simp only [hkind] at hlink
      rw [hlink]
    · have hlink := linkLoop_ok (m := { m with
          source := a
          inter := (contributions g kind w n1 (g.adj n1)).foldl counterAdd [] }) (t := t) (n1 := n1)
        (I := (contributions g kind w n1 (g.adj n1)).foldl counterAdd []) mono (sim := sim n1) hs
        (by
          intro p hp
          rcases hall p hp with h1 | h1
          · exact absurd ⟨p, hp, h1⟩ hx
          · simpa only [hkind, hnorms] using h1)
      simp only [hkind] at hlink
      rw [hlink]
      simp only
      have := ih { m with
          source := a
          inter := (contributions g kind w n1 (g.adj n1)).foldl counterAdd [] }
        (addWeights mono (((contributions g kind w n1 (g.adj n1)).foldl counterAdd []).filter
          (fun p => !belowThreshold t (sim n1 p.1)) |>.map (fun p => (n1, p.1, sim n1 p.1)))) hkind hnorms
        (by rw [addWeights_multi]; exact hs)
        (fun n hn => ho n (List.mem_cons_of_mem _ hn)) (fun n hn => hS n (List.mem_cons_of_mem _ hn))
        (fun n hn => hL n (List.mem_cons_of_mem _ hn))
        (by
          obtain ⟨n, hn, k, h1, h2, h3⟩ := hbad
          rcases List.mem_cons.1 hn with rfl | hn
          · exact absurd ⟨(k, S n k), (hI _).2 ⟨h1, h2, rfl⟩, h3⟩ hx
          · exact ⟨n, hn, k, h1, h2, h3⟩)
      simp only [hkind] at this
      exact this

end Pelote
