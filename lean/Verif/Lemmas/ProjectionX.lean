import Verif.Spec.ProjectionX
import Verif.Lemmas.ProjectionRounded

/-! What the loops of the monopartite projection compute with numbers of any kind. -/
set_option linter.unusedSectionVars false
namespace Pelote
variable {V N : Type} [LinearOrder V] [Zero N] [One N] {ops : MetricOps N} {cosine : Bool} {g : Graph V (Val N)} {ns : List V}
  {partAttr weightAttr : String} {check : Bool} {w : V → V → N}

theorem simple_getN (h : g.WF) (hm : g.multi = false) {n t : V}
    {d : Dict PyKey (Attrs (Val N))} (hp : (t, d) ∈ g.adj n) :
    ∃ a, d.get? (.int 0) = some a ∧ g.edge? n t (.int 0) = some a := by
  have hk := (Graph.mem_adj h).1 hp
  obtain ⟨l, hl, _, rfl⟩ := (Graph.keydict?_eq_some h).1 hk
  have := h.simple hm l hl
  obtain ⟨a, ha⟩ := Dict.exists_get?_of_mem_keys (d := l.data) (k := .int 0) (by rw [this]; simp)
  exact ⟨a, ha, by unfold Graph.edge?; rw [hk]; exact ha⟩

theorem ProjectableN.weight [PyOrd V] (h : ProjectableN g ns partAttr weightAttr w) (n : V) :
    ∀ q ∈ g.adj n, (taWeightN g q.2 weightAttr).toNum = .ok (w n q.1) := by
  rintro ⟨t, d⟩ hq
  obtain ⟨a, h1, h2⟩ := simple_getN h.wf h.simple hq
  unfold taWeightN Graph.taGet
  rw [h.simple, h1]
  exact h.weights n t a h2

theorem ProjectableN.symm [PyOrd V] (h : ProjectableN g ns partAttr weightAttr w) {t k : V} (he : g.hasEdge t k = true) :
    w t k = w k t := by
  obtain ⟨d, hd⟩ := Option.isSome_iff_exists.1 he
  obtain ⟨l, hl, _, rfl⟩ := (Graph.keydict?_eq_some h.wf).1 hd
  obtain ⟨a, ha⟩ := Dict.exists_get?_of_mem_keys (d := l.data) (k := .int 0) (by rw [h.wf.simple h.simple l hl]; simp)
  have e1 : g.edge? t k (.int 0) = some a := by unfold Graph.edge?; rw [hd]; exact ha
  have e2 : g.edge? k t (.int 0) = some a := by
    rw [← e1]
    unfold Graph.edge?
    rw [Graph.keydict?_samePair (g := g) (u := k) (v := t) (x := t) (y := k) (by rw [h.undirected]; simp [samePair])]
  have h1 := h.weights t k a e1
  rw [h.weights k t a e2] at h1
  exact (Except.ok.inj h1).symm

theorem normLoopN_ok {L : List (V × Dict PyKey (Attrs (Val N)))} (acc : N) {f : V → N}
    (hc : ∀ q ∈ L, q.1 ∉ ns) (hw : ∀ q ∈ L, (taWeightN g q.2 weightAttr).toNum = .ok (f q.1)) :
    normLoopN ops cosine g ns weightAttr check L acc =
      .ok (if cosine then (L.map Prod.fst).foldl (fun s t => ops.add s (ops.mul (f t) (f t))) acc
        else if L = [] then acc else 1) := by
  induction L generalizing acc with
  | nil => cases cosine <;> rfl
  | cons q L ih =>
    obtain ⟨t, d⟩ := q
    unfold normLoopN
    have : (check && decide (t ∈ ns)) = false := by simp [hc (t, d) List.mem_cons_self]
    rw [this]
    have ih := fun acc => ih acc (fun q hq => hc q (List.mem_cons_of_mem _ hq)) (fun q hq => hw q (List.mem_cons_of_mem _ hq))
    simp only [Bool.false_eq_true, if_false, accumulateNormN]
    cases cosine with
    | true =>
      simp only [if_true, hw (t, d) List.mem_cons_self] at ih ⊢
      rw [ih]
      rfl
    | false =>
      simp only [Bool.false_eq_true, if_false] at ih ⊢
      rw [ih]
      simp

/-- The node has a norm, as a test. -/
def keptN (ops : MetricOps N) (cosine : Bool) (g : Graph V (Val N)) (w : V → V → N) (n : V) : Bool :=
  !(g.neighbors n).isEmpty && (!cosine || ops.lt 0 (squareN ops g w n))

theorem keptN_iff (n : V) : keptN ops cosine g w n = true ↔ HasNorm ops cosine g w n := by
  unfold keptN HasNorm
  cases cosine <;> simp

/-- The norm that is stored. -/
def storedNorm (ops : MetricOps N) (cosine : Bool) (g : Graph V (Val N)) (w : V → V → N) (n : V) : N :=
  if cosine then
    match ops.sqrt (squareN ops g w n) with
    | .ok x => x
    | .error _ => 0
  else 1

/-- The norms of a list of nodes. -/
def normsN (ops : MetricOps N) (cosine : Bool) (g : Graph V (Val N)) (ns : List V) (w : V → V → N) (L : Dict V (Attrs (Val N))) : Dict V N :=
  (L.filter (fun p => decide (p.1 ∈ ns) && keptN ops cosine g w p.1)).map (fun p => (p.1, storedNorm ops cosine g w p.1))

/-- The nodes of a list that are in the part, without the part attribute. -/
def nodesN (ns : List V) (partAttr : String) (L : Dict V (Attrs (Val N))) : Dict V (Attrs (Val N)) :=
  (L.filter (fun p => decide (p.1 ∈ ns))).map (fun p => (p.1, p.2.erase (.str partAttr)))

/-- What the comparisons with 0 and 1 give. -/
structure Sane (ops : MetricOps N) : Prop where
  zero : ops.lt 0 0 = false
  one : ops.lt 0 1 = true

theorem partLoopN_ok (hs : Sane ops) {L : Dict V (Attrs (Val N))} (norms : Dict V N) (mono : Graph V (Val N)) (b : Bool)
    (hL : L.keys.Nodup) (hd1 : ∀ n ∈ L.keys, n ∉ norms.keys) (hd2 : ∀ n ∈ L.keys, n ∉ mono.nodes) (ha : ∀ p ∈ L, p.2.keys.Nodup)
    (hsafe : ∀ p ∈ L, p.1 ∈ ns → Graph.NodeKwSafe (p.2.erase (.str partAttr)))
    (hc : ∀ p ∈ L, p.1 ∈ ns → ∀ q ∈ g.adj p.1, q.1 ∉ ns)
    (hw : ∀ p ∈ L, ∀ q ∈ g.adj p.1, (taWeightN g q.2 weightAttr).toNum = .ok (w p.1 q.1))
    (hr : ∀ p ∈ L, p.1 ∈ ns → HasRoot ops cosine g w p.1) :
    partLoopN ops cosine g ns partAttr weightAttr check L norms mono b =
      .ok (norms ++ normsN ops cosine g ns w L, { mono with node := mono.node ++ nodesN ns partAttr L },
        b && (nodesN ns partAttr L).isEmpty) := by
  induction L generalizing norms mono b with
  | nil => simp [partLoopN, normsN, nodesN]
  | cons p L ih =>
    obtain ⟨n, a⟩ := p
    rw [Dict.keys_cons, List.nodup_cons] at hL
    have ih := fun norms mono b h1 h2 => ih norms mono b hL.2 h1 h2 (fun p hp => ha p (List.mem_cons_of_mem _ hp))
      (fun p hp => hsafe p (List.mem_cons_of_mem _ hp)) (fun p hp => hc p (List.mem_cons_of_mem _ hp))
      (fun p hp => hw p (List.mem_cons_of_mem _ hp)) (fun p hp => hr p (List.mem_cons_of_mem _ hp))
    unfold partLoopN
    by_cases hn : n ∈ ns
    · simp only [hn, decide_true, Bool.not_true, Bool.false_eq_true, if_false]
      rw [normLoopN_ok (0 : N) (hc (n, a) List.mem_cons_self hn) (hw (n, a) List.mem_cons_self)]
      simp only
      have hadd : addNormN ops cosine norms n (if cosine then ((g.adj n).map Prod.fst).foldl
            (fun s t => ops.add s (ops.mul (w n t) (w n t))) 0 else if g.adj n = [] then 0 else 1) =
          .ok (norms ++ (if keptN ops cosine g w n then [(n, storedNorm ops cosine g w n)] else [])) := by
        have hfresh : n ∉ norms.keys := hd1 n (by simp [Dict.keys_cons])
        have hroot := hr (n, a) List.mem_cons_self hn
        unfold HasRoot at hroot
        unfold addNormN keptN storedNorm
        unfold squareN dotN Graph.neighbors at hroot ⊢
        cases hadj : g.adj n with
        | nil => cases cosine <;> simp [hs.zero]
        | cons q Q =>
          cases cosine with
          | true =>
            simp only [hadj, if_true, List.map_cons, List.isEmpty_cons, Bool.not_false, Bool.not_true, Bool.false_or, Bool.true_and,
              true_implies] at hroot ⊢
            split
            · rename_i hlt
              obtain ⟨x, hx⟩ := hroot hlt
              rw [hx]
              simp only
              rw [Dict.set_of_not_mem _ hfresh]
            · simp
          | false => simp [hs.one, Dict.set_of_not_mem _ hfresh]
      rw [hadd]
      simp only
      rw [Graph.addNode_ok (hsafe (n, a) List.mem_cons_self hn)]
      simp only
      rw [addNodeCore_fresh (hd2 n (by simp [Dict.keys_cons])) (nodup_erase _ (ha (n, a) List.mem_cons_self)), ih]
      · simp only [normsN, nodesN, List.filter_cons, hn, decide_true, Bool.true_and, if_true, List.map_cons, List.isEmpty_cons,
          Bool.false_and, Bool.and_false, List.append_assoc, List.cons_append, List.nil_append]
        cases keptN ops cosine g w n <;> simp
      · intro x hx hx'
        rw [Dict.keys, List.map_append, List.mem_append] at hx'
        rcases hx' with hx' | hx'
        · exact hd1 x (by simp [Dict.keys_cons, hx]) hx'
        · split at hx'
          · simp only [List.map_cons, List.map_nil, List.mem_singleton] at hx'
            exact hL.1 (hx' ▸ hx)
          · simp at hx'
      · intro x hx hx'
        simp only [Graph.nodes, Dict.keys, List.map_append, List.map_cons, List.map_nil, List.mem_append, List.mem_singleton] at hx'
        rcases hx' with hx' | hx'
        · exact hd2 x (by simp [Dict.keys_cons, hx]) hx'
        · exact hL.1 (hx' ▸ hx)
    · simp only [hn, decide_false, Bool.not_false, if_true]
      rw [ih norms mono b (fun x hx => hd1 x (by simp [Dict.keys_cons, hx])) (fun x hx => hd2 x (by simp [Dict.keys_cons, hx]))]
      simp [normsN, nodesN, hn]

/-- The first loop raises what the square root raises. -/
theorem partLoopN_raises {e : PyErr} {L : Dict V (Attrs (Val N))} (norms : Dict V N) (mono : Graph V (Val N)) (b : Bool)
    (hsafe : ∀ p ∈ L, p.1 ∈ ns → Graph.NodeKwSafe (p.2.erase (.str partAttr)))
    (hc : ∀ p ∈ L, p.1 ∈ ns → ∀ q ∈ g.adj p.1, q.1 ∉ ns)
    (hw : ∀ p ∈ L, ∀ q ∈ g.adj p.1, (taWeightN g q.2 weightAttr).toNum = .ok (w p.1 q.1))
    (he : ∀ x e', ops.sqrt x = .error e' → e' = e)
    {p : V × Attrs (Val N)} (hp : p ∈ L) (hpn : p.1 ∈ ns) (hlt : ops.lt 0 (squareN ops g w p.1) = true)
    (hx : ops.sqrt (squareN ops g w p.1) = .error e) :
    partLoopN ops true g ns partAttr weightAttr check L norms mono b = .error e := by
  induction L generalizing norms mono b with
  | nil => cases hp
  | cons q L ih =>
    obtain ⟨n, a⟩ := q
    have ih := fun norms mono b => ih norms mono b (fun p hp => hsafe p (List.mem_cons_of_mem _ hp))
      (fun p hp => hc p (List.mem_cons_of_mem _ hp)) (fun p hp => hw p (List.mem_cons_of_mem _ hp))
    unfold partLoopN
    by_cases hn : n ∈ ns
    · simp only [hn, decide_true, Bool.not_true, Bool.false_eq_true, if_false]
      rw [normLoopN_ok (0 : N) (hc (n, a) List.mem_cons_self hn) (hw (n, a) List.mem_cons_self)]
      simp only [if_true]
      have hsq : ((g.adj n).map Prod.fst).foldl (fun s t => ops.add s (ops.mul (w n t) (w n t))) 0 = squareN ops g w n := rfl
      rw [hsq]
      rcases List.mem_cons.1 hp with rfl | hp
      · simp only [addNormN, hlt, if_true, hx]
      · have hgo : ∀ norms' : Dict V N, (match mono.addNode n (a.erase (.str partAttr)) with
            | .error e => (.error e : Py (Dict V N × Graph V (Val N) × Bool))
            | .ok mono => partLoopN ops true g ns partAttr weightAttr check L norms' mono false) = .error e := by
          intro norms'
          rw [Graph.addNode_ok (hsafe (n, a) List.mem_cons_self hn)]
          exact ih _ _ _ hp
        unfold addNormN
        by_cases hl : ops.lt 0 (squareN ops g w n) = true
        · rw [if_pos hl]
          cases hs : ops.sqrt (squareN ops g w n) with
          | error e' => simp only [if_true, he _ _ hs]
          | ok x =>
            simp only [if_true]
            exact hgo _
        · rw [if_neg hl]
          simp only
          exact hgo _
    · simp only [hn, decide_false, Bool.not_false, if_true]
      rcases List.mem_cons.1 hp with rfl | hp
      · exact absurd hpn hn
      · exact ih _ _ _ hp

/-! ### Intersections -/

/-- `counter[k] += x`. -/
def counterAddN (ops : MetricOps N) (d : Dict V N) (e : V × N) : Dict V N := d.set e.1 (ops.add ((d.get? e.1).getD 0) e.2)

theorem counterN_nodup (L : List (V × N)) {d : Dict V N} (h : d.keys.Nodup) : (L.foldl (counterAddN ops) d).keys.Nodup := by
  induction L generalizing d with
  | nil => exact h
  | cons e L ih => exact ih (Dict.nodup_set _ _ h)

theorem counterN_get? (L : List (V × N)) (d : Dict V N) (k : V) :
    (L.foldl (counterAddN ops) d).get? k =
      if k ∈ L.map Prod.fst then
        some (((L.filter (fun e => e.1 = k)).map Prod.snd).foldl ops.add ((d.get? k).getD 0))
      else d.get? k := by
  induction L generalizing d with
  | nil => simp
  | cons e L ih =>
    obtain ⟨k', x⟩ := e
    rw [List.foldl_cons, ih]
    unfold counterAddN
    by_cases hk : k' = k
    · subst hk
      by_cases hm : k' ∈ L.map Prod.fst
      · simp only [hm, if_true, List.map_cons, List.mem_cons, true_or, Dict.get?_set_self, Option.getD_some]
        simp
      · have : L.filter (fun e => decide (e.1 = k')) = [] := by
          rw [List.filter_eq_nil_iff]
          intro e he
          have : e.1 ≠ k' := by
            rintro rfl
            exact hm (List.mem_map_of_mem he)
          simpa using this
        simp [hm, this, Dict.get?_set_self]
    · simp only [Dict.get?_set_ne d _ hk, List.map_cons, List.mem_cons, Ne.symm hk, false_or]
      have : List.filter (fun e => decide (e.1 = k)) ((k', x) :: L) = L.filter (fun e => decide (e.1 = k)) := by
        simp [hk]
      rw [this]

theorem sharedLoopN_ok [PyOrd V] {n1 : V} {w1 : Val N}
    {L : List (V × Dict PyKey (Attrs (Val N)))} (inter : Dict V N) {x : N} {f : V → N}
    (ho : ∀ p ∈ L, p.1 ≠ n1 → PyOrd.gt n1 p.1 = .ok (decide (p.1 < n1)))
    (hx : w1.toNum = .ok x) (hw : ∀ p ∈ L, (taWeightN g p.2 weightAttr).toNum = .ok (f p.1)) :
    sharedLoopN ops g weightAttr n1 w1 L inter =
      .ok (((L.filter (fun p => n1 < p.1)).map (fun p => (p.1, ops.mul x (f p.1)))).foldl (counterAddN ops) inter) := by
  induction L generalizing inter with
  | nil => rfl
  | cons p L ih =>
    obtain ⟨n2, d⟩ := p
    have ho' : ∀ p ∈ L, p.1 ≠ n1 → PyOrd.gt n1 p.1 = .ok (decide (p.1 < n1)) :=
      fun p hp => ho p (List.mem_cons_of_mem _ hp)
    have hw' : ∀ p ∈ L, (taWeightN g p.2 weightAttr).toNum = .ok (f p.1) := fun p hp => hw p (List.mem_cons_of_mem _ hp)
    unfold sharedLoopN
    rcases lt_trichotomy n1 n2 with hlt | heq | hgt
    · rw [if_neg hlt.ne']
      have := ho (n2, d) List.mem_cons_self hlt.ne'
      simp only at this
      rw [this]
      simp only [not_lt.2 hlt.le, decide_false]
      have hi : intersectN ops inter n2 w1 (taWeightN g d weightAttr) = .ok (counterAddN ops inter (n2, ops.mul x (f n2))) := by
        unfold intersectN
        rw [hx, hw (n2, d) List.mem_cons_self]
        rfl
      rw [hi]
      simp only
      rw [ih _ ho' hw']
      simp [hlt]
    · rw [if_pos heq.symm, ih inter ho' hw']
      subst heq
      simp
    · rw [if_neg hgt.ne]
      have := ho (n2, d) List.mem_cons_self hgt.ne
      simp only at this
      rw [this]
      simp only [hgt, decide_true]
      rw [ih inter ho' hw']
      simp [not_lt.2 hgt.le]

/-- The products added to the counter for a node, in order. -/
def termsN (ops : MetricOps N) (g : Graph V (Val N)) (w : V → V → N) (n1 : V) (L : List (V × Dict PyKey (Attrs (Val N)))) : List (V × N) :=
  L.flatMap (fun q => ((g.adj q.1).filter (fun p => n1 < p.1)).map (fun p => (p.1, ops.mul (w n1 q.1) (w q.1 p.1))))

theorem tokenLoopN_ok [PyOrd V] {n1 : V} {L : List (V × Dict PyKey (Attrs (Val N)))} (inter : Dict V N)
    (ho : ∀ q ∈ L, ∀ p ∈ g.adj q.1, p.1 ≠ n1 → PyOrd.gt n1 p.1 = .ok (decide (p.1 < n1)))
    (hw : ∀ q ∈ L, (taWeightN g q.2 weightAttr).toNum = .ok (w n1 q.1) ∧
      ∀ p ∈ g.adj q.1, (taWeightN g p.2 weightAttr).toNum = .ok (w q.1 p.1)) :
    tokenLoopN ops g weightAttr n1 L inter = .ok ((termsN ops g w n1 L).foldl (counterAddN ops) inter) := by
  induction L generalizing inter with
  | nil => rfl
  | cons q L ih =>
    obtain ⟨t, d⟩ := q
    unfold tokenLoopN
    have h := hw (t, d) List.mem_cons_self
    rw [sharedLoopN_ok inter (x := w n1 t) (f := w t) (ho (t, d) List.mem_cons_self) h.1 h.2]
    simp only
    rw [ih _ (fun q hq => ho q (List.mem_cons_of_mem _ hq)) (fun q hq => hw q (List.mem_cons_of_mem _ hq))]
    simp [termsN, List.foldl_append]

theorem mem_termsN {n1 k : V} :
    k ∈ (termsN ops g w n1 (g.adj n1)).map Prod.fst ↔ n1 < k ∧ ∃ t, g.hasEdge n1 t = true ∧ g.hasEdge t k = true := by
  unfold termsN
  simp only [List.map_flatMap, List.map_map, List.mem_flatMap, List.mem_map, List.mem_filter, decide_eq_true_eq, Function.comp]
  constructor
  · rintro ⟨q, hq, p, ⟨hp, hlt⟩, rfl⟩
    exact ⟨hlt, q.1, Graph.mem_neighbors.1 (List.mem_map_of_mem hq), Graph.mem_neighbors.1 (List.mem_map_of_mem hp)⟩
  · rintro ⟨hlt, t, h1, h2⟩
    obtain ⟨q, hq, rfl⟩ := List.mem_map.1 (Graph.mem_neighbors.2 h1)
    obtain ⟨p, hp, rfl⟩ := List.mem_map.1 (Graph.mem_neighbors.2 h2)
    exact ⟨q, hq, p, ⟨hp, hlt⟩, rfl⟩

theorem termsN_list (h : g.WF) (hd : g.directed = false) {n1 k : V} (hlt : n1 < k)
    (hsym : ∀ t, g.hasEdge t k = true → w t k = w k t) :
    (((termsN ops g w n1 (g.adj n1)).filter (fun e => e.1 = k)).map Prod.snd) =
      (g.sharedList n1 k).map (fun t => ops.mul (w n1 t) (w k t)) := by
  unfold termsN Graph.sharedList Graph.neighbors
  generalize g.adj n1 = L
  rw [List.filter_flatMap]
  induction L with
  | nil => rfl
  | cons q L ih =>
    rw [List.flatMap_cons, List.map_append, ih]
    have h1 : ((((((g.adj q.1).filter (fun p => decide (n1 < p.1))).map
        (fun p => (p.1, ops.mul (w n1 q.1) (w q.1 p.1)))).filter (fun e => decide (e.1 = k))).map Prod.snd)) =
      if g.hasEdge q.1 k = true then [ops.mul (w n1 q.1) (w k q.1)] else [] := by
      rw [List.filter_map, List.map_map]
      have e1 : List.filter ((fun e : V × N => decide (e.1 = k)) ∘ fun p : V × Dict PyKey (Attrs (Val N)) =>
            (p.1, ops.mul (w n1 q.1) (w q.1 p.1)))
            ((g.adj q.1).filter (fun p => decide (n1 < p.1))) =
          (g.adj q.1).filter (fun p => decide (p.1 = k)) := by
        rw [List.filter_filter]
        apply List.filter_congr
        intro p _
        by_cases hp : p.1 = k
        · simp [hp, hlt]
        · simp [hp]
      rw [e1]
      have := filter_key_eq Prod.fst k (L := g.adj q.1) (Graph.neighbors_nodup h q.1)
        (fun y => ops.mul (w n1 q.1) (w q.1 y))
      refine Eq.trans this ?_
      have e3 : k ∈ (g.adj q.1).map Prod.fst ↔ g.hasEdge q.1 k = true := Graph.mem_neighbors
      simp only [e3]
      split
      · rename_i hq
        rw [hsym _ hq]
      · rfl
    rw [h1, List.map_cons, List.filter_cons, Graph.hasEdge_comm hd k q.1]
    split <;> rfl

/-! ### Links -/

theorem linkLoopN_ok [AttrVal (Val N)] {norms : Dict V N} {source : N} {t : Option N} {n1 : V}
    {I : Dict V N} (mono : Graph V (Val N)) {sim : V → N} (hs : mono.multi = false)
    (hn : ∀ p ∈ I, ∃ y, norms.get? p.1 = some y ∧ computeMetricN ops cosine p.2 source y = .ok (sim p.1)) :
    linkLoopN ops cosine norms source t n1 I mono = .ok (addWeights mono
      ((I.filter (fun p => !belowThresholdN ops t (sim p.1))).map (fun p => (n1, p.1, sim p.1)))) := by
  induction I generalizing mono with
  | nil => rfl
  | cons p I ih =>
    obtain ⟨n2, i⟩ := p
    obtain ⟨y, h1, h2⟩ := hn (n2, i) List.mem_cons_self
    simp only at h1 h2
    have hn' := fun p hp => hn p (List.mem_cons_of_mem _ hp)
    unfold linkLoopN Dict.getItem
    rw [h1]
    simp only [h2]
    cases hb : belowThresholdN ops t (sim n2) with
    | true =>
      simp only [if_true]
      rw [ih mono hs hn']
      simp [hb]
    | false =>
      simp only [Bool.false_eq_true, if_false]
      rw [Graph.addEdge_ok (by rw [hs]; exact weight_kwSafe _)]
      simp only
      rw [ih _ (by rw [Graph.addEdgeCore_multi]; exact hs) hn']
      simp [hb, addWeights]

theorem linkLoopN_bad [AttrVal (Val N)] {norms : Dict V N} {source : N} {t : Option N} {n1 : V}
    {I : Dict V N} (mono : Graph V (Val N)) {sim : V → N} (hs : mono.multi = false)
    (hn : ∀ p ∈ I, norms.get? p.1 = none ∨ ∃ y, norms.get? p.1 = some y ∧ computeMetricN ops cosine p.2 source y = .ok (sim p.1))
    (hbad : ∃ p ∈ I, norms.get? p.1 = none) :
    linkLoopN ops cosine norms source t n1 I mono = .error .keyError := by
  induction I generalizing mono with
  | nil => obtain ⟨p, hp, _⟩ := hbad; cases hp
  | cons p I ih =>
    obtain ⟨n2, i⟩ := p
    unfold linkLoopN Dict.getItem
    rcases hn (n2, i) List.mem_cons_self with h1 | ⟨y, h1, h2⟩
    · simp only at h1
      rw [h1]
    · simp only at h1 h2
      have hn' := fun p hp => hn p (List.mem_cons_of_mem _ hp)
      have hbad' : ∃ p ∈ I, norms.get? p.1 = none := by
        obtain ⟨p, hp, hx⟩ := hbad
        rcases List.mem_cons.1 hp with rfl | hp
        · simp only at hx
          rw [h1] at hx; cases hx
        · exact ⟨p, hp, hx⟩
      rw [h1]
      simp only [h2]
      cases hb : belowThresholdN ops t (sim n2) with
      | true =>
        simp only [if_true]
        exact ih mono hs hn' hbad'
      | false =>
        simp only [Bool.false_eq_true, if_false]
        rw [Graph.addEdge_ok (by rw [hs]; exact weight_kwSafe _)]
        exact ih _ (by rw [Graph.addEdgeCore_multi]; exact hs) hn' hbad'

/-- The loop over the nodes that have a norm: the links it adds, or `KeyError` when a node sharing a neighbor with one of a lesser label
has none. -/
theorem projectLoopN_cases [PyOrd V] [AttrVal (Val N)] (hwf : g.WF) (hd : g.directed = false)
    {t : Option N} {norms : Dict V N} {sim : V → V → N}
    (L : List V) (mono : Graph V (Val N)) (hs : mono.multi = false)
    (ho : ∀ n ∈ L, ∀ q ∈ g.adj n, ∀ p ∈ g.adj q.1, p.1 ≠ n → PyOrd.gt n p.1 = .ok (decide (p.1 < n)))
    (hw : ∀ n, ∀ q ∈ g.adj n, (taWeightN g q.2 weightAttr).toNum = .ok (w n q.1))
    (hsym : ∀ t k, g.hasEdge t k = true → w t k = w k t)
    (hL : ∀ n ∈ L, ∃ a, norms.get? n = some a ∧ ∀ k, n < k → (∃ t, g.hasEdge n t = true ∧ g.hasEdge t k = true) →
      norms.get? k = none ∨ ∃ b, norms.get? k = some b ∧ computeMetricN ops cosine (productN ops g w n k) a b = .ok (sim n k)) :
    ((∃ n ∈ L, ∃ k, n < k ∧ (∃ t, g.hasEdge n t = true ∧ g.hasEdge t k = true) ∧ norms.get? k = none) →
      projectLoopN ops cosine g weightAttr norms t L mono = .error .keyError) ∧
    ((∀ n ∈ L, ∀ k, n < k → (∃ t, g.hasEdge n t = true ∧ g.hasEdge t k = true) → norms.get? k ≠ none) →
      ∃ E, projectLoopN ops cosine g weightAttr norms t L mono = .ok (addWeights mono E) ∧
        ∀ e, e ∈ E ↔ e.1 ∈ L ∧ e.1 < e.2.1 ∧ (∃ t, g.hasEdge e.1 t = true ∧ g.hasEdge t e.2.1 = true) ∧
          e.2.2 = sim e.1 e.2.1 ∧ belowThresholdN ops t e.2.2 = false) := by
  induction L generalizing mono with
  | nil => exact ⟨(by rintro ⟨_, h, _⟩; cases h), fun _ => ⟨[], rfl, by simp⟩⟩
  | cons n1 L ih =>
    obtain ⟨a, ha, hk⟩ := hL n1 List.mem_cons_self
    have htok := tokenLoopN_ok (ops := ops) (g := g) (weightAttr := weightAttr) (n1 := n1) (L := g.adj n1) (w := w) []
      (ho n1 List.mem_cons_self) (fun q hq => ⟨hw n1 q hq, fun p hp => hw q.1 p hp⟩)
    generalize hIe : (termsN ops g w n1 (g.adj n1)).foldl (counterAddN ops) [] = I at htok
    have hI : ∀ p, p ∈ I ↔ n1 < p.1 ∧ (∃ t, g.hasEdge n1 t = true ∧ g.hasEdge t p.1 = true) ∧ p.2 = productN ops g w n1 p.1 := by
      rintro ⟨k, i⟩
      rw [← hIe, ← Dict.get?_iff_mem (counterN_nodup _ (by simp [Dict.keys_nil])), counterN_get?]
      by_cases hm : k ∈ (termsN ops g w n1 (g.adj n1)).map Prod.fst
      · have hm' := mem_termsN.1 hm
        rw [if_pos hm, termsN_list hwf hd hm'.1 (fun t he => hsym t k he)]
        simp only [Dict.get?_nil, Option.getD_none, Option.some.injEq, List.foldl_map]
        exact ⟨fun h => ⟨hm'.1, hm'.2, h.symm⟩, fun h => h.2.2.symm⟩
      · rw [if_neg hm]
        simp only [Dict.get?_nil, reduceCtorEq, false_iff]
        rintro ⟨h1, h2, _⟩
        exact hm (mem_termsN.2 ⟨h1, h2⟩)
    have hall : ∀ p ∈ I, norms.get? p.1 = none ∨ ∃ y, norms.get? p.1 = some y ∧
        computeMetricN ops cosine p.2 a y = .ok (sim n1 p.1) := by
      intro p hp
      obtain ⟨h1, h2, h3⟩ := (hI p).1 hp
      rw [h3]
      exact hk p.1 h1 h2
    have hstep : ∀ r, linkLoopN ops cosine norms a t n1 I mono = .ok r →
        projectLoopN ops cosine g weightAttr norms t (n1 :: L) mono = projectLoopN ops cosine g weightAttr norms t L r := by
      intro r hr
      conv_lhs => unfold projectLoopN
      simp only [Dict.getItem, ha, htok, hr]
    by_cases hx : ∃ p ∈ I, norms.get? p.1 = none
    · refine ⟨fun _ => ?_, fun hgood => ?_⟩
      · unfold projectLoopN
        simp only [Dict.getItem, ha, htok]
        rw [linkLoopN_bad mono hs hall hx]
      · obtain ⟨p, hp, hnone⟩ := hx
        obtain ⟨h1, h2, _⟩ := (hI p).1 hp
        exact absurd hnone (hgood n1 List.mem_cons_self p.1 h1 h2)
    · have hlink := linkLoopN_ok (ops := ops) (cosine := cosine) (norms := norms) (source := a) (t := t) (n1 := n1) (I := I) mono
        (sim := sim n1) hs (fun p hp => (hall p hp).resolve_left fun h1 => hx ⟨p, hp, h1⟩)
      rw [hstep _ hlink]
      obtain ⟨i1, i2⟩ := ih (addWeights mono ((I.filter (fun p => !belowThresholdN ops t (sim n1 p.1))).map
          (fun p => (n1, p.1, sim n1 p.1)))) (by rw [addWeights_multi]; exact hs)
        (fun n hn => ho n (List.mem_cons_of_mem _ hn)) (fun n hn => hL n (List.mem_cons_of_mem _ hn))
      refine ⟨fun hbad => i1 ?_, fun hgood => ?_⟩
      · obtain ⟨n, hn, k, h1, h2, h3⟩ := hbad
        rcases List.mem_cons.1 hn with rfl | hn
        · exact absurd ⟨(k, productN ops g w n k), (hI _).2 ⟨h1, h2, rfl⟩, h3⟩ hx
        · exact ⟨n, hn, k, h1, h2, h3⟩
      · obtain ⟨E, hE, hm⟩ := i2 (fun n hn => hgood n (List.mem_cons_of_mem _ hn))
        refine ⟨(I.filter (fun p => !belowThresholdN ops t (sim n1 p.1))).map (fun p => (n1, p.1, sim n1 p.1)) ++ E, ?_, ?_⟩
        · rw [hE]
          unfold addWeights
          rw [List.foldl_append]
        · rintro ⟨u, v, x⟩
          rw [List.mem_append, hm, List.mem_map]
          simp only [List.mem_filter, Bool.not_eq_true', Prod.mk.injEq, List.mem_cons]
          constructor
          · rintro (⟨⟨k, i⟩, ⟨hp, hb⟩, rfl, rfl, rfl⟩ | ⟨h1, h2⟩)
            · obtain ⟨h1, h2, h3⟩ := (hI _).1 hp
              exact ⟨.inl rfl, h1, h2, rfl, hb⟩
            · exact ⟨.inr h1, h2⟩
          · rintro ⟨h1, h2, h3, h4, h5⟩
            rcases h1 with rfl | h1
            · exact .inl ⟨(v, productN ops g w u v), ⟨(hI _).2 ⟨h2, h3, rfl⟩, by rw [← h4]; exact h5⟩, rfl, rfl, h4.symm⟩
            · exact .inr ⟨h1, h2, h3, h4, h5⟩

end Pelote
