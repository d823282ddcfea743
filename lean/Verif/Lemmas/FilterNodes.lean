import Verif.Lemmas.RemoveEdges

/-! Lemmas about the node removal and filtering functions. -/
set_option linter.unusedSectionVars false
set_option linter.unusedSimpArgs false
namespace Pelote
variable {V A : Type} [DecidableEq V]
open Graph

theorem nodesToDrop_ok {pred : NodePred V A} {p : V → Attrs A → Bool} {ns : Dict V (Attrs A)}
    (h : ∀ q ∈ ns, pred q.1 q.2 = .ok (p q.1 q.2)) :
    nodesToDrop pred ns = .ok ((ns.filter (fun q => !p q.1 q.2)).map Prod.fst) := by
  induction ns with
  | nil => rfl
  | cons q ns ih =>
    obtain ⟨n, a⟩ := q
    have h1 := h (n, a) (by simp)
    simp only at h1
    simp only [nodesToDrop, h1, ih (fun e he => h e (by simp [he]))]
    cases hp : p n a <;> simp [List.filter_cons, hp]

theorem nodesToDrop_error {pred : NodePred V A} {pre post : Dict V (Attrs A)} {q : V × Attrs A}
    {err : PyErr} (h : ∀ q ∈ pre, ∃ b, pred q.1 q.2 = .ok b)
    (he : pred q.1 q.2 = .error err) : nodesToDrop pred (pre ++ q :: post) = .error err := by
  induction pre with
  | nil => simp [nodesToDrop, he]
  | cons e' pre ih =>
    obtain ⟨b, hb⟩ := h e' (by simp)
    simp only [List.cons_append, nodesToDrop, hb, ih (fun e he => h e (by simp [he]))]

/-- The verdict of a predicate on a node of the graph. -/
def keepNode (g : Graph V A) (p : V → Attrs A → Bool) (n : V) : Bool :=
  match g.node.get? n with
  | some a => p n a
  | none => false

theorem keepNode_of_mem {g : Graph V A} (h : g.WF) (p : V → Attrs A → Bool) {q : V × Attrs A} (hq : q ∈ g.node) :
    keepNode g p q.1 = p q.1 q.2 := by
  unfold keepNode
  rw [Dict.get?_of_mem h.nodup (k := q.1) (v := q.2) hq]

theorem removeNodes_eq {g : Graph V A} (h : g.WF) {pred : NodePred V A} {p : V → Attrs A → Bool}
    (hp : ∀ q ∈ g.node, pred q.1 q.2 = .ok (p q.1 q.2)) :
    removeNodes g pred = (g.induced (keepNode g p), .ok ()) := by
  unfold removeNodes
  rw [nodesToDrop_ok hp]
  simp only
  rw [removeNodesFrom_eq]
  have hmem : ∀ n ∈ g.nodes, decide (n ∉ ((g.node.filter (fun q => !p q.1 q.2)).map Prod.fst)) = keepNode g p n := by
    intro n hn
    obtain ⟨q, hq, rfl⟩ := List.mem_map.1 hn
    rw [keepNode_of_mem h p hq, Bool.eq_iff_iff, decide_eq_true_eq]
    constructor
    · intro h1
      by_contra h2
      apply h1
      exact List.mem_map.2 ⟨q, List.mem_filter.2 ⟨hq, by simpa using h2⟩, rfl⟩
    · intro h1 h2
      obtain ⟨q', hq', e⟩ := List.mem_map.1 h2
      obtain ⟨hq'1, hq'2⟩ := List.mem_filter.1 hq'
      have h3 := Dict.get?_of_mem h.nodup (k := q'.1) (v := q'.2) hq'1
      have h4 := Dict.get?_of_mem h.nodup (k := q.1) (v := q.2) hq
      rw [e, h4] at h3
      have h5 : q.2 = q'.2 := Option.some.inj h3
      rw [e, ← h5] at hq'2
      simp [h1] at hq'2
  congr 1
  unfold induced
  congr 1
  · apply List.filter_congr
    intro q hq
    exact hmem q.1 (List.mem_map_of_mem hq)
  · apply List.filter_congr
    intro l hl
    have := h.ends l hl
    beta_reduce
    rw [hmem _ this.1, hmem _ this.2]

/-! ### `filter_nodes` -/

/-- Adding all the parallel edges of one pair, with their keys. -/
theorem addPair {copy : Graph V A} {u v : V} (d : Dict PyKey (Attrs A)) (hd : d ≠ [])
    (hkeys : d.keys.Nodup) (hattrs : ∀ q ∈ d, q.2.keys.Nodup)
    (hfresh : copy.keydict? u v = none)
    (key : PyKey → Option PyKey)
    (hkey : (copy.multi = true ∧ key = some) ∨ (copy.multi = false ∧ d.keys = [.int 0])) :
    let copy' := d.foldl (fun c q => c.addEdgeCore u v (key q.1) q.2) copy
    copy'.directed = copy.directed ∧ copy'.multi = copy.multi ∧ copy'.attrs = copy.attrs ∧
    (∀ x y, copy'.keydict? x y = if samePair copy.directed u v x y then some d else copy.keydict? x y) ∧
    (∀ x, copy'.node.get? x = if x = u ∨ x = v then some ((copy.node.get? x).getD []) else copy.node.get? x) := by
  simp only
  have step : ∀ (e : Dict PyKey (Attrs A)) (q : PyKey × Attrs A), q.1 ∉ e.keys → q.2.keys.Nodup →
      ((copy.multi = true ∧ key = some) ∨ (copy.multi = false ∧ q.1 = .int 0)) →
      addToData copy.multi e (key q.1) q.2 = e ++ [q] := by
    intro e q hq ha hk
    unfold addToData
    have hk' : (if copy.multi then (key q.1).getD (newEdgeKey e) else .int 0) = q.1 := by
      rcases hk with ⟨h1, h2⟩ | ⟨h1, h2⟩
      · simp [h1, h2]
      · simp [h1, h2]
    simp only [hk']
    rw [Dict.get?_eq_none_iff.2 hq, Option.getD_none, Dict.update_nil_left ha, Dict.set_of_not_mem _ hq]
  induction d using List.reverseRecOn with
  | nil => exact absurd rfl hd
  | append_singleton e q ih =>
    rw [List.foldl_append]
    simp only [List.foldl_cons, List.foldl_nil]
    rw [Dict.keys_append] at hkeys
    have hq : q.1 ∉ Dict.keys e := by
      intro h
      exact (List.nodup_append.1 hkeys).2.2 _ h _ (by simp) rfl
    have hqa := hattrs q (by simp)
    by_cases he : e = []
    · subst he
      have hs := step [] q hq hqa (by
        rcases hkey with h | ⟨h1, h2⟩
        · exact .inl h
        · refine .inr ⟨h1, ?_⟩
          simpa [Dict.keys] using h2)
      simp only [List.foldl_nil]
      refine ⟨addEdgeCore_directed _ _ _ _ _, addEdgeCore_multi _ _ _ _ _, addEdgeCore_attrs _ _ _ _ _, ?_, ?_⟩
      · intro x y
        rw [keydict?_addEdgeCore, hfresh]
        simp only [Option.getD_none, hs]
      · intro x
        rw [get?_addEdgeCore]
    · have hm : copy.multi = true ∧ key = some := by
        rcases hkey with h | ⟨_, h2⟩
        · exact h
        · rw [Dict.keys_append] at h2
          have := congrArg List.length h2
          simp [Dict.keys] at this
          exact absurd this he
      obtain ⟨h1, h2, h3, h4, h5⟩ := ih he (List.nodup_append.1 hkeys).1 (fun q hq => hattrs q (by simp [hq])) (.inl hm)
      refine ⟨by rw [addEdgeCore_directed, h1], by rw [addEdgeCore_multi, h2], by rw [addEdgeCore_attrs, h3], ?_, ?_⟩
      · intro x y
        rw [keydict?_addEdgeCore, h1, h2, h4 u v, if_pos (samePair_refl _ _ _), Option.getD_some,
          step e q hq hqa (.inl hm), h4 x y]
        split <;> rfl
      · intro x
        rw [get?_addEdgeCore, h5 x]
        split <;> simp_all

/-- What the inner loop decides about an edge. -/
structure EdgeVerdict [PyOrd V] (g : Graph V A) (pred : NodePred V A) (p : V → Bool) (gt : V → V → Bool)
    (u v : V) : Prop where
  cmp : g.directed = false → PyOrd.gt u v = .ok (gt u v)
  node : ∃ a, g.nodeData v = .ok a ∧ pred v a = .ok (p v)

/-- The edges of `n` added by the inner loop. -/
def addedTo (g : Graph V A) (p : V → Bool) (gt : V → V → Bool) (n v : V) : Bool :=
  (g.directed || gt n v) && p v

/-- The inner loop adds the edges of the selected neighbors. -/
theorem filterNodesEdges_ok [AttrVal A] [PyOrd V] {g : Graph V A} {pred : NodePred V A}
    {p : V → Bool} {gt : V → V → Bool} {es : List (V × V × PyKey × Attrs A)} {copy : Graph V A}
    (hm : copy.multi = g.multi)
    (hes : ∀ e ∈ es, EdgeVerdict g pred p gt e.1 e.2.1)
    (hkw : ∀ e ∈ es, EdgeKwSafe g.multi e.2.2.2) :
    filterNodesEdges g pred es copy =
      .ok ((es.filter (fun e => addedTo g p gt e.1 e.2.1)).foldl
        (fun c e => c.addEdgeCore e.1 e.2.1 (if g.multi then some e.2.2.1 else none) e.2.2.2) copy) := by
  induction es generalizing copy with
  | nil => rfl
  | cons e es ih =>
    obtain ⟨u, v, k, a⟩ := e
    have hv := hes (u, v, k, a) (by simp)
    have hk := hkw (u, v, k, a) (by simp)
    simp only at hv hk
    obtain ⟨av, hav1, hav2⟩ := hv.node
    have ih' := fun (c : Graph V A) (hc : c.multi = g.multi) =>
      ih (copy := c) hc (fun e he => hes e (by simp [he])) (fun e he => hkw e (by simp [he]))
    have hcond : (if g.directed then (.ok true : Py Bool) else PyOrd.gt u v) = .ok (g.directed || gt u v) := by
      cases hd : g.directed with
      | true => simp
      | false => simp [hv.cmp hd]
    simp only [filterNodesEdges, hcond, List.filter_cons]
    unfold addedTo
    cases h1 : (g.directed || gt u v) with
    | false =>
      simp only [Bool.false_and, Bool.false_eq_true, if_false]
      exact ih' copy hm
    | true =>
      simp only [Bool.true_and, hav1, hav2]
      cases h2 : p v with
      | false =>
        simp only [Bool.false_eq_true, if_false]
        exact ih' copy hm
      | true =>
        simp only [if_true]
        have hadd : (if g.multi then copy.addEdgeKey u v k a else copy.addEdge u v a) =
            .ok (copy.addEdgeCore u v (if g.multi then some k else none) a) := by
          cases hmm : g.multi with
          | true =>
            simp only [if_true]
            rw [addEdgeKey_ok (hm.trans hmm) (by rw [hm]; exact hk)]
          | false =>
            simp only [Bool.false_eq_true, if_false]
            rw [addEdge_ok (by rw [hm]; exact hk)]
        rw [hadd]
        simp only
        rw [ih' _ (by rw [addEdgeCore_multi]; exact hm)]
        rfl

/-- Effect of adding the edges towards a list of distinct fresh neighbors. -/
theorem addNeighbors {copy : Graph V A} {n : V} (m : Bool) (hm : copy.multi = m)
    (L : List (V × Dict PyKey (Attrs A))) (hnd : (L.map Prod.fst).Nodup)
    (hne : ∀ q ∈ L, q.2 ≠ [] ∧ q.2.keys.Nodup ∧ (∀ r ∈ q.2, r.2.keys.Nodup) ∧ (m = false → q.2.keys = [.int 0]))
    (hfresh : ∀ q ∈ L, copy.keydict? n q.1 = none) :
    let copy' := (L.flatMap (fun q => q.2.map (fun ka => (n, q.1, ka.1, ka.2)))).foldl
      (fun c e => c.addEdgeCore e.1 e.2.1 (if m then some e.2.2.1 else none) e.2.2.2) copy
    copy'.directed = copy.directed ∧ copy'.multi = copy.multi ∧ copy'.attrs = copy.attrs ∧
    (∀ q ∈ L, ∀ x y, samePair copy.directed n q.1 x y = true → copy'.keydict? x y = some q.2) ∧
    (∀ x y, (∀ q ∈ L, samePair copy.directed n q.1 x y = false) → copy'.keydict? x y = copy.keydict? x y) ∧
    (∀ x, copy'.node.get? x =
      if (L ≠ [] ∧ x = n) ∨ x ∈ L.map Prod.fst then some ((copy.node.get? x).getD []) else copy.node.get? x) := by
  simp only
  induction L generalizing copy with
  | nil => simp
  | cons q L ih =>
    obtain ⟨v, d⟩ := q
    rw [List.map_cons, List.nodup_cons] at hnd
    obtain ⟨h1, h2, h3, h4⟩ := hne (v, d) (by simp)
    have hp := addPair (copy := copy) (u := n) (v := v) d h1 h2 h3 (hfresh (v, d) (by simp))
      (fun k => if m then some k else none)
      (by
        cases hmm : m with
        | true => exact .inl ⟨hm.trans hmm, by simp⟩
        | false => exact .inr ⟨hm.trans hmm, h4 hmm⟩)
    simp only at hp
    obtain ⟨p1, p2, p3, p4, p5⟩ := hp
    rw [List.flatMap_cons, List.foldl_append, List.foldl_map]
    simp only
    set c1 := List.foldl (fun c (q : PyKey × Attrs A) => c.addEdgeCore n v (if m then some q.1 else none) q.2) copy d with hc1
    have hdiff : ∀ q ∈ L, samePair copy.directed n v n q.1 = false := by
      intro q hq
      cases hsp : samePair copy.directed n v n q.1 with
      | false => rfl
      | true =>
        rcases samePair_iff.1 hsp with ⟨_, h⟩ | ⟨_, h, h'⟩
        · exact absurd (List.mem_map.2 ⟨q, hq, h.symm⟩) hnd.1
        · exact absurd (List.mem_map.2 ⟨q, hq, by rw [← h, ← h']⟩) hnd.1
    obtain ⟨i1, i2, i3, i4, i5, i6⟩ := ih (copy := c1) (p2.trans hm) hnd.2 (fun q hq => hne q (by simp [hq]))
      (by
        intro q hq
        rw [p4, if_neg (by rw [hdiff q hq]; simp)]
        exact hfresh q (by simp [hq]))
    rw [p1] at i1 i4 i5
    refine ⟨i1, i2.trans p2, i3.trans p3, ?_, ?_, ?_⟩
    · intro q hq x y hs
      rcases List.mem_cons.1 hq with rfl | hq
      · rw [i5, p4, if_pos hs]
        intro q' hq'
        rw [samePair_comm, ← samePair_trans hs]
        exact hdiff q' hq'
      · exact i4 q hq x y hs
    · intro x y hall
      rw [i5 x y (fun q hq => hall q (by simp [hq])), p4, if_neg]
      rw [hall (v, d) (by simp)]
      simp
    · intro x
      rw [i6 x, p5 x]
      by_cases hx1 : x = n
      · subst hx1
        by_cases hL : L = [] <;> simp [hL]
      · by_cases hx2 : x = v
        · subst hx2
          simp [hx1]
        · by_cases hx3 : x ∈ L.map Prod.fst
          · simp [hx1, hx2, hx3]
          · simp [hx1, hx2, hx3]

/-- The pairs whose edges have been copied once the nodes of `P` have been visited. -/
def doneEdge (g : Graph V A) (p : V → Bool) (gt : V → V → Bool) (P : List V) (x y : V) : Prop :=
  p x = true ∧ p y = true ∧
    ((x ∈ P ∧ (g.directed = true ∨ gt x y = true)) ∨ (g.directed = false ∧ y ∈ P ∧ gt y x = true))

/-- Loop invariant of `filter_nodes`. -/
structure FilterInv (g : Graph V A) (p : V → Bool) (gt : V → V → Bool) (P : List V) (copy : Graph V A) : Prop where
  directed : copy.directed = g.directed
  multi : copy.multi = g.multi
  attrs : copy.attrs = g.attrs
  done : ∀ x y, doneEdge g p gt P x y → copy.keydict? x y = g.keydict? x y
  notDone : ∀ x y, ¬ doneEdge g p gt P x y → copy.keydict? x y = none
  kept : ∀ x ∈ P, p x = true → copy.node.get? x = g.node.get? x
  other : ∀ x, ¬ (x ∈ P ∧ p x = true) →
    copy.node.get? x = none ∨ (copy.node.get? x = some [] ∧ p x = true ∧ x ∈ g.nodes)

theorem filterNodesLoop_ok [AttrVal A] [PyOrd V] {g : Graph V A} (h : g.WF) {pred : NodePred V A}
    {p : V → Attrs A → Bool} {gt : V → V → Bool}
    (hp : ∀ q ∈ g.node, pred q.1 q.2 = .ok (p q.1 q.2))
    (hnkw : ∀ q ∈ g.node, p q.1 q.2 = true → NodeKwSafe q.2)
    (hekw : ∀ l ∈ g.links, ∀ q ∈ l.data, EdgeKwSafe g.multi q.2)
    (hcmp : g.directed = false → ∀ u v, keepNode g p u = true → g.hasEdge u v = true → PyOrd.gt u v = .ok (gt u v))
    (hasym : g.directed = false → ∀ u v, keepNode g p u = true → keepNode g p v = true → g.hasEdge u v = true →
      gt u v = true → gt v u = false)
    (rest : Dict V (Attrs A)) (P : List V) (hrest : g.nodes = P ++ rest.keys) (hsub : ∀ q ∈ rest, q ∈ g.node)
    (copy : Graph V A) (hI : FilterInv g (keepNode g p) gt P copy) :
    ∃ copy', filterNodesLoop g pred rest copy = .ok copy' ∧ FilterInv g (keepNode g p) gt g.nodes copy' := by
  induction rest generalizing P copy with
  | nil =>
    refine ⟨copy, rfl, ?_⟩
    have : g.nodes = P := by simpa using hrest
    rw [this]; exact hI
  | cons q rest ih =>
    obtain ⟨n, a⟩ := q
    have hq := hsub (n, a) (by simp)
    have hpn := hp (n, a) hq
    have hkeep := keepNode_of_mem h p hq
    simp only at hpn hkeep
    have hget : g.node.get? n = some a := Dict.get?_of_mem h.nodup hq
    have hnP : n ∉ P := by
      intro hmem
      have := h.nodup
      rw [hrest, List.nodup_append] at this
      exact this.2.2 n hmem n (by simp) rfl
    have hrest' : g.nodes = (P ++ [n]) ++ Dict.keys rest := by rw [hrest]; simp
    have hsub' : ∀ q ∈ rest, q ∈ g.node := fun q hq => hsub q (by simp [hq])
    simp only [filterNodesLoop, hpn]
    cases hpv : p n a with
    | false =>
      simp only
      rw [hpv] at hkeep
      refine ih (P ++ [n]) hrest' hsub' copy ?_
      have hdone : ∀ x y, doneEdge g (keepNode g p) gt (P ++ [n]) x y ↔ doneEdge g (keepNode g p) gt P x y := by
        intro x y
        unfold doneEdge
        simp only [List.mem_append, List.mem_singleton]
        constructor
        · rintro ⟨h1, h2, h3⟩
          refine ⟨h1, h2, ?_⟩
          rcases h3 with ⟨h3 | rfl, h4⟩ | ⟨h3, h4 | rfl, h5⟩
          · exact .inl ⟨h3, h4⟩
          · rw [hkeep] at h1; cases h1
          · exact .inr ⟨h3, h4, h5⟩
          · rw [hkeep] at h2; cases h2
        · rintro ⟨h1, h2, h3⟩
          refine ⟨h1, h2, ?_⟩
          rcases h3 with ⟨h3, h4⟩ | ⟨h3, h4, h5⟩
          · exact .inl ⟨.inl h3, h4⟩
          · exact .inr ⟨h3, .inl h4, h5⟩
      refine ⟨hI.directed, hI.multi, hI.attrs, ?_, ?_, ?_, ?_⟩
      · intro x y hd; exact hI.done x y ((hdone x y).1 hd)
      · intro x y hd; exact hI.notDone x y (fun h' => hd ((hdone x y).2 h'))
      · intro x hx hk
        rcases List.mem_append.1 hx with hx | hx
        · exact hI.kept x hx hk
        · simp only [List.mem_singleton] at hx
          subst hx
          rw [hkeep] at hk; cases hk
      · intro x hx
        exact hI.other x (fun h' => hx ⟨List.mem_append_left _ h'.1, h'.2⟩)
    | true =>
      simp only
      rw [hpv] at hkeep
      rw [addNode_ok (hnkw (n, a) hq hpv)]
      simp only
      -- the inner loop
      have hedges : ∀ e ∈ g.edgesOf n, e.1 = n ∧ ∃ d, (e.2.1, d) ∈ g.adj n ∧ (e.2.2.1, e.2.2.2) ∈ d := by
        intro e he
        unfold edgesOf at he
        obtain ⟨q, hq, he⟩ := List.mem_flatMap.1 he
        obtain ⟨ka, hka, rfl⟩ := List.mem_map.1 he
        exact ⟨rfl, q.2, hq, hka⟩
      have hadjEdge : ∀ v d, (v, d) ∈ g.adj n → g.hasEdge n v = true := by
        intro v d hvd
        unfold hasEdge
        rw [(mem_adj h).1 hvd]; rfl
      have hverdict : ∀ e ∈ g.edgesOf n, EdgeVerdict g pred (keepNode g p) gt e.1 e.2.1 := by
        intro e he
        obtain ⟨h1, d, h2, h3⟩ := hedges e he
        have hE := hadjEdge _ _ h2
        refine ⟨?_, ?_⟩
        · intro hd
          rw [h1]
          exact hcmp hd n e.2.1 hkeep hE
        · have hv := (hasEdge_mem h hE).2
          obtain ⟨av, hav⟩ := Dict.exists_get?_of_mem_keys hv
          refine ⟨av, ?_, ?_⟩
          · unfold nodeData Dict.getItem; rw [hav]
          · have hm := Dict.mem_of_get? hav
            rw [keepNode_of_mem h p hm]
            exact hp _ hm
      have hekw' : ∀ e ∈ g.edgesOf n, EdgeKwSafe g.multi e.2.2.2 := by
        intro e he
        obtain ⟨h1, d, h2, h3⟩ := hedges e he
        obtain ⟨l, hl, _, hld⟩ := (keydict?_eq_some h).1 ((mem_adj h).1 h2)
        rw [← hld] at h3
        exact hekw l hl _ h3
      rw [filterNodesEdges_ok (gt := gt) (p := keepNode g p) (copy := copy.addNodeCore n a) hI.multi hverdict hekw']
      simp only
      -- as an addition of neighbors
      set L := (g.adj n).filter (fun q => addedTo g (keepNode g p) gt n q.1) with hL
      have hflat : (g.edgesOf n).filter (fun e => addedTo g (keepNode g p) gt e.1 e.2.1) =
          L.flatMap (fun q => q.2.map (fun ka => (n, q.1, ka.1, ka.2))) := by
        unfold edgesOf
        rw [List.filter_flatMap, hL]
        generalize g.adj n = adjs
        induction adjs with
        | nil => rfl
        | cons q adjs ih =>
          rw [List.flatMap_cons, List.filter_cons, ih, List.filter_map]
          cases hq : addedTo g (keepNode g p) gt n q.1 with
          | true =>
            simp only [if_true, List.flatMap_cons]
            congr 1
            rw [List.filter_eq_self.2]
            intro ka _
            exact hq
          | false =>
            simp only [Bool.false_eq_true, if_false]
            rw [List.filter_eq_nil_iff.2]
            · rfl
            · intro ka _
              simp only [Function.comp]
              rw [hq]; simp
      rw [hflat]
      have hLmem : ∀ q ∈ L, q ∈ g.adj n ∧ (g.directed = true ∨ gt n q.1 = true) ∧ keepNode g p q.1 = true := by
        intro q hq
        obtain ⟨h1, h2⟩ := List.mem_filter.1 hq
        unfold addedTo at h2
        simp only [Bool.and_eq_true, Bool.or_eq_true] at h2
        exact ⟨h1, h2⟩
      have hLnd : (L.map Prod.fst).Nodup :=
        (neighbors_nodup h n).sublist (List.filter_sublist.map _)
      have hLne : ∀ q ∈ L, q.2 ≠ [] ∧ q.2.keys.Nodup ∧ (∀ r ∈ q.2, r.2.keys.Nodup) ∧
          (g.multi = false → q.2.keys = [.int 0]) := by
        intro q hq
        obtain ⟨l, hl, _, hld⟩ := (keydict?_eq_some h).1 ((mem_adj h).1 (hLmem q hq).1)
        rw [← hld]
        exact ⟨h.nonempty l hl, h.keys l hl, h.edgeAttrs l hl, fun hs => h.simple hs l hl⟩
      have hfresh : ∀ q ∈ L, (copy.addNodeCore n a).keydict? n q.1 = none := by
        intro q hq
        obtain ⟨h1, h2, h3⟩ := hLmem q hq
        show copy.keydict? n q.1 = none
        apply hI.notDone
        rintro ⟨_, _, ⟨h4, _⟩ | ⟨h4, h5, h6⟩⟩
        · exact hnP h4
        · have hd : g.directed = false := h4
          rcases h2 with h2 | h2
          · rw [hd] at h2; cases h2
          · have := hasym hd n q.1 hkeep h3 (hadjEdge _ _ h1) h2
            rw [this] at h6; cases h6
      obtain ⟨a1, a2, a3, a4, a5, a6⟩ := addNeighbors (copy := copy.addNodeCore n a) (n := n) g.multi hI.multi L hLnd hLne hfresh
      refine ih (P ++ [n]) hrest' hsub' _ ?_
      have hdir : (copy.addNodeCore n a).directed = g.directed := hI.directed
      rw [hdir] at a1 a4 a5
      have hkd : ∀ x y, (copy.addNodeCore n a).keydict? x y = copy.keydict? x y := fun x y => rfl
      have hgetn : (copy.addNodeCore n a).node.get? n = some a := by
        rw [get?_addNodeCore, if_pos rfl]
        have : (copy.node.get? n).getD [] = [] := by
          rcases hI.other n (fun h' => hnP h'.1) with h1 | ⟨h1, _⟩ <;> rw [h1] <;> rfl
        rw [this, Dict.update_nil_left (h.nodeAttrs _ hq)]
      have hgetx : ∀ x, x ≠ n → (copy.addNodeCore n a).node.get? x = copy.node.get? x := by
        intro x hx
        rw [get?_addNodeCore, if_neg hx]
      -- the new pairs
      have hnew : ∀ x y, doneEdge g (keepNode g p) gt (P ++ [n]) x y → ¬ doneEdge g (keepNode g p) gt P x y →
          ∃ v, samePair g.directed n v x y = true ∧ addedTo g (keepNode g p) gt n v = true := by
        rintro x y ⟨h1, h2, h3⟩ hnd
        rcases h3 with ⟨h3, h4⟩ | ⟨h3, h4, h5⟩
        · rcases List.mem_append.1 h3 with h3 | h3
          · exact absurd ⟨h1, h2, .inl ⟨h3, h4⟩⟩ hnd
          · simp only [List.mem_singleton] at h3
            subst h3
            refine ⟨y, samePair_refl _ _ _, ?_⟩
            unfold addedTo
            rw [h2, Bool.and_true]
            simpa using h4
        · rcases List.mem_append.1 h4 with h4 | h4
          · exact absurd ⟨h1, h2, .inr ⟨h3, h4, h5⟩⟩ hnd
          · simp only [List.mem_singleton] at h4
            subst h4
            refine ⟨x, ?_, ?_⟩
            · rw [samePair_iff]; exact .inr ⟨h3, rfl, rfl⟩
            · unfold addedTo
              rw [h1, h5]; simp
      have hLdone : ∀ q ∈ L, ∀ x y, samePair g.directed n q.1 x y = true →
          doneEdge g (keepNode g p) gt (P ++ [n]) x y := by
        intro q hq x y hs
        obtain ⟨_, h2, h3⟩ := hLmem q hq
        rcases samePair_iff.1 hs with ⟨rfl, rfl⟩ | ⟨hd, rfl, rfl⟩
        · exact ⟨hkeep, h3, .inl ⟨by simp, h2⟩⟩
        · refine ⟨h3, hkeep, .inr ⟨hd, by simp, ?_⟩⟩
          rcases h2 with h2 | h2
          · rw [hd] at h2; cases h2
          · exact h2
      have hmono : ∀ x y, doneEdge g (keepNode g p) gt P x y → doneEdge g (keepNode g p) gt (P ++ [n]) x y := by
        rintro x y ⟨h1, h2, h3⟩
        refine ⟨h1, h2, ?_⟩
        rcases h3 with ⟨h3, h4⟩ | ⟨h3, h4, h5⟩
        · exact .inl ⟨List.mem_append_left _ h3, h4⟩
        · exact .inr ⟨h3, List.mem_append_left _ h4, h5⟩
      refine ⟨a1, a2.trans hI.multi, a3.trans hI.attrs, ?_, ?_, ?_, ?_⟩
      · intro x y hd
        by_cases hex : ∃ q ∈ L, samePair g.directed n q.1 x y = true
        · obtain ⟨q, hq, hs⟩ := hex
          rw [a4 q hq x y hs, ← keydict?_samePair hs]
          exact ((mem_adj h).1 (hLmem q hq).1).symm
        · push Not at hex
          rw [a5 x y (fun q hq => by simpa using hex q hq), hkd]
          by_cases hd' : doneEdge g (keepNode g p) gt P x y
          · exact hI.done x y hd'
          · rw [hI.notDone x y hd']
            obtain ⟨v, hs, hadd⟩ := hnew x y hd hd'
            rw [← keydict?_samePair hs]
            rcases hk : g.keydict? n v with _ | d
            · rfl
            · exfalso
              have : (v, d) ∈ L := List.mem_filter.2 ⟨(mem_adj h).2 hk, hadd⟩
              exact hex _ this hs
      · intro x y hd
        rw [a5 x y, hkd]
        · exact hI.notDone x y (fun h' => hd (hmono x y h'))
        · intro q hq
          cases hs : samePair g.directed n q.1 x y with
          | false => rfl
          | true => exact absurd (hLdone q hq x y hs) hd
      · intro x hx hk
        rw [a6 x]
        by_cases hxn : x = n
        · subst hxn
          rw [hgetn, hget]
          split <;> rfl
        · have hxP : x ∈ P := by
            rcases List.mem_append.1 hx with h1 | h1
            · exact h1
            · exact absurd (List.mem_singleton.1 h1) hxn
          have := hI.kept x hxP hk
          rw [hgetx x hxn, this]
          split
          · have hxm : x ∈ g.nodes := by rw [hrest]; simp [hxP]
            obtain ⟨ax, hax⟩ := Dict.exists_get?_of_mem_keys hxm
            rw [hax]; rfl
          · rfl
      · intro x hx
        have hxn : x ≠ n := by
          rintro rfl
          exact hx ⟨by simp, hkeep⟩
        have hxP : ¬ (x ∈ P ∧ keepNode g p x = true) := fun h' => hx ⟨List.mem_append_left _ h'.1, h'.2⟩
        rw [a6 x, hgetx x hxn]
        by_cases hxL : x ∈ L.map Prod.fst
        · rw [if_pos (.inr hxL)]
          right
          obtain ⟨q, hq, rfl⟩ := List.mem_map.1 hxL
          obtain ⟨h1, _, h3⟩ := hLmem q hq
          refine ⟨?_, h3, (hasEdge_mem h (hadjEdge _ _ h1)).2⟩
          rcases hI.other q.1 hxP with h4 | ⟨h4, _⟩ <;> rw [h4] <;> rfl
        · rw [if_neg (by rintro (⟨_, h1⟩ | h1); exacts [hxn h1, hxL h1])]
          exact hI.other x hxP

end Pelote
