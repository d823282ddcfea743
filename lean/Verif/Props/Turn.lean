import Verif.Lemmas.Turn
import Verif.Props.ReorderTrees
import Verif.Props.ComponentsExact
import Verif.Props.Leaves
import Verif.Props.KeepConnected

/-! Property C108: the direction of the edges. -/
namespace Pelote

/-! ### Triangles -/

section
variable {V A : Type} {g g' : Graph V A}

/-- C108.  Triangles: the same ones, once each, whatever the directions and the kinds of the graphs. -/
theorem triangles_turned [DecidableEq V] (h : g.WF) (h' : g'.WF) (s : g.Turned g') :
    (triangles g).err = none ∧ (triangles g').err = none ∧
      ((triangles g).yields.map tripleSet).Perm ((triangles g').yields.map tripleSet) := by
  obtain ⟨h1, h2, h3⟩ := triangles_exact h
  obtain ⟨h1', h2', h3'⟩ := triangles_exact h'
  refine ⟨h1, h1', (List.perm_ext_iff_of_nodup h2 h2').2 fun t => ?_⟩
  rw [h3, h3', s.triangle h h']

/-- C108.  Triangular strength: the same number for every pair, whatever the directions and the kinds of the graphs. -/
theorem triangularStrength_turned [LinearOrder V] [PyOrd V] (ho : OrderedKeys V) (h : g.WF) (h' : g'.WF) (s : g.Turned g')
    (full : Bool) :
    ∃ d d', triangularStrength g full = .ok d ∧ triangularStrength g' full = .ok d' ∧ ∀ k, d.get? k = d'.get? k := by
  obtain ⟨d, h1, _, h2⟩ := triangularStrength_exact ho h full
  obtain ⟨d', h1', _, h2'⟩ := triangularStrength_exact ho h' full
  refine ⟨d, d', h1, h1', ?_⟩
  rintro ⟨u, v⟩
  apply Option.ext
  intro n
  have hst : g.strength u v = g'.strength u v := by
    unfold Graph.strength
    simp only [s.triangle h h']
  rw [h2, h2', s.adjacent h h', hst]

end

/-! ### Components -/

section
variable {V A : Type} [DecidableEq V] {g g' : Graph V A}

theorem Graph.Turned.linked (s : g.Turned g') (x y : V) : Linked g.edges x y ↔ Linked g'.edges x y := by
  rw [edges_eq_map, edges_eq_map]
  exact s.edges.linked x y

/-- Components with the same members, listed in another order. -/
def SameMembers (c c' : List V) : Prop := c.length = c'.length ∧ ∀ x, x ∈ c ↔ x ∈ c'

theorem largestLoop_members {cs cs' : List (List V)} (hc : List.Forall₂ SameMembers cs cs') :
    ∀ (l l' : Option (List V)) (n : Int), Option.Rel SameMembers l l' →
      Option.Rel SameMembers (largestLoop cs l n) (largestLoop cs' l' n) := by
  induction hc with
  | nil => intro l l' n hl; exact hl
  | @cons c c' cs cs' h _ ih =>
    have key : ∀ (L L' : List V) (n : Int), SameMembers L L' → Option.Rel SameMembers
        (if (L.length : Int) > n - L.length then some L else largestLoop cs (some L) (n - L.length))
        (if (L'.length : Int) > n - L'.length then some L' else largestLoop cs' (some L') (n - L'.length)) := by
      intro L L' n hL
      rw [hL.1]
      split
      · exact .some hL
      · exact ih _ _ _ (.some hL)
    intro l l' n hl
    cases hl with
    | none => exact key c c' n h
    | @some a b hab =>
      unfold largestLoop
      simp only
      rw [hab.1, h.1]
      split
      · exact key c c' n h
      · exact key _ _ n hab

/-- C108.  The largest connected component: the same set of nodes. -/
theorem largestConnectedComponent_turned (h : g.WF) (h' : g'.WF) (s : g.Turned g') :
    ∃ r r', largestConnectedComponent g = .ok r ∧ largestConnectedComponent g' = .ok r' ∧ Option.Rel SameMembers r r' := by
  obtain ⟨cs, hcs, hfor⟩ := nxComponents_ok h
  obtain ⟨cs', hcs', hfor'⟩ := nxComponents_ok h'
  have hfirst : firstNodes g.nodes g.edges = firstNodes g'.nodes g'.edges := by
    unfold firstNodes
    rw [s.nodes]
    refine List.filter_congr fun n _ => ?_
    rw [decide_eq_decide]
    simp only [s.linked]
  have hcomp : ∀ n, componentOf g.nodes g.edges n = componentOf g'.nodes g'.edges n := by
    intro n
    unfold componentOf
    simp only [s.nodes, s.linked]
  have hrel : List.Forall₂ SameMembers cs cs' := by
    rw [← hfirst] at hfor'
    generalize firstNodes g.nodes g.edges = fs at hfor hfor'
    clear hcs hcs'
    induction hfor generalizing cs' with
    | nil => cases hfor'; exact .nil
    | @cons c n cs fs h1 _ ih =>
      cases hfor' with
      | @cons c' _ cs' _ h2 h3 =>
        refine .cons ⟨?_, ?_⟩ (ih _ h3)
        · refine ((List.perm_ext_iff_of_nodup h1.1 h2.1).2 fun x => ?_).length_eq
          rw [h1.2, h2.2, hcomp]
        · intro x; rw [h1.2, h2.2, hcomp]
  unfold largestConnectedComponent
  rw [hcs, hcs', ← s.order]
  exact ⟨_, _, rfl, rfl, largestLoop_members hrel none none _ .none⟩

/-- Keeping the same nodes and the edges between them leaves graphs which differ by the direction of their edges. -/
theorem Graph.Turned.of_filter {b b' : Graph V A} (s : g.Turned g') {p : V × Attrs A → Bool} {q : V → Bool}
    (hn : b.node = g.node.filter p) (hn' : b'.node = g'.node.filter p)
    (he : b.edgesKeys = g.edgesKeys.filter (fun e => q e.1 && q e.2.1))
    (he' : b'.edgesKeys = g'.edgesKeys.filter (fun e => q e.1 && q e.2.1)) : b.Turned b' := by
  have hd : ∀ {b g : Graph V A}, b.edgesKeys = g.edgesKeys.filter (fun e => q e.1 && q e.2.1) →
      b.edgesData = g.edgesData.filter (fun e => q e.1 && q e.2.1) := by
    intro b g h
    unfold Graph.edgesData
    rw [h, List.filter_map]
    rfl
  refine ⟨by rw [hn, hn', s.node], ?_⟩
  rw [hd he, hd he']
  refine s.edges.filter ?_
  intro e _ e' _ hs _
  rcases samePair_iff.1 hs with ⟨h1, h2⟩ | ⟨_, h1, h2⟩
  · rw [h1, h2]
  · rw [h1, h2, Bool.and_comm]

/-- C108.  Cropping to the largest component: the graphs left differ by the direction of their edges only. -/
theorem cropToLargest_turned (h : g.WF) (h' : g'.WF) (s : g.Turned g') :
    ∃ b b', cropToLargest g = (b, .ok ()) ∧ cropToLargest g' = (b', .ok ()) ∧ b.WF ∧ b'.WF ∧ b.Turned b' := by
  obtain ⟨r, b, h1, h2, h3, -, -, -, h4, h5⟩ := cropToLargest_exact h
  obtain ⟨r', b', h1', h2', h3', -, -, -, h4', h5'⟩ := cropToLargest_exact h'
  obtain ⟨t, t', k1, k2, hrel⟩ := largestConnectedComponent_turned h h' s
  rw [h1] at k1; cases k1
  rw [h1'] at k2; cases k2
  refine ⟨b, b', h2, h2', h3, h3', ?_⟩
  cases hrel with
  | none => rw [h4 rfl, h4' rfl]; exact s
  | @some c c' hc =>
    obtain ⟨n1, e1, e2⟩ := h5 c rfl
    obtain ⟨n1', e1', e2'⟩ := h5' c' rfl
    simp only [← hc.2] at n1' e1' e2'
    have both : ∀ {b g : Graph V A}, b.edgesKeys = g.edgesKeys.filter (fun e => decide (e.1 ∈ c)) →
        b.edgesKeys = g.edgesKeys.filter (fun e => decide (e.2.1 ∈ c)) →
        b.edgesKeys = g.edgesKeys.filter (fun e => decide (e.1 ∈ c) && decide (e.2.1 ∈ c)) := by
      intro b g h1 h2
      rw [← List.filter_filter, ← h2]
      symm
      rw [List.filter_eq_self, h1]
      intro e he
      exact (List.mem_filter.1 he).2
    exact s.of_filter (q := fun n => decide (n ∈ c)) n1 n1' (both e1 e2) (both e1' e2')

/-! ### Nodes -/

/-- C108.  `remove_nodes`: the graphs left differ by the direction of their edges only. -/
theorem removeNodes_turned (h : g.WF) (h' : g'.WF) (s : g.Turned g') {pred : NodePred V A} {p : V → Attrs A → Bool}
    (hp : NodeAnswers g pred p) :
    ∃ b b', removeNodes g pred = (b, .ok ()) ∧ removeNodes g' pred = (b', .ok ()) ∧ b.WF ∧ b'.WF ∧ b.Turned b' := by
  have hp' : NodeAnswers g' pred p := by
    unfold NodeAnswers at hp ⊢
    rw [← s.node]; exact hp
  obtain ⟨b, h1, h2, -, -, -, h3, h4⟩ := removeNodes_exact h hp
  obtain ⟨b', h1', h2', -, -, -, h3', h4'⟩ := removeNodes_exact h' hp'
  have hn : b.nodes = b'.nodes := by
    unfold Graph.nodes
    rw [h3, h3', s.node]
  rw [← hn] at h4'
  exact ⟨b, b', h1, h1', h2, h2', s.of_filter (q := fun n => decide (n ∈ b.nodes)) h3 h3' h4 h4'⟩

theorem Graph.Turned.degree (s : g.Turned g') (h : g.WF) (h' : g'.WF) (n : V) : g.degree n = g'.degree n := by
  rw [Graph.degree_eq h, Graph.degree_eq h', edges_eq_map, edges_eq_map, List.map_map, List.map_map]
  refine (s.edges.map_perm ?_).sum_eq
  rintro e _ e' _ hs _
  rcases samePair_iff.1 hs with ⟨h1, h2⟩ | ⟨_, h1, h2⟩ <;> simp only [Function.comp, h1, h2]
  exact Nat.add_comm _ _

/-- C108.  `remove_leaves`, called any number of times. -/
theorem removeLeaves_turned (h : g.WF) (h' : g'.WF) (s : g.Turned g') (k : Nat) :
    ∃ b b', removeLeavesTimes k g = (b, .ok ()) ∧ removeLeavesTimes k g' = (b', .ok ()) ∧ b.WF ∧ b'.WF ∧ b.Turned b' := by
  induction k generalizing g g' with
  | zero => exact ⟨g, g', rfl, rfl, h, h', s⟩
  | succ k ih =>
    have hd : (fun n (_ : Attrs A) => (.ok (decide (g.degree n ≠ 1)) : Py Bool)) =
        fun n _ => .ok (decide (g'.degree n ≠ 1)) := by
      funext n _
      rw [s.degree h h']
    obtain ⟨b, b', h1, h1', h2, h2', h3⟩ := removeNodes_turned h h' s
      (pred := fun n _ => .ok (decide (g.degree n ≠ 1))) (p := fun n _ => decide (g.degree n ≠ 1)) (fun _ _ => rfl)
    obtain ⟨c, c', h4, h4', h5⟩ := ih h2 h2' h3
    have e1 : removeLeaves g = (b, .ok ()) := h1
    have e1' : removeLeaves g' = (b', .ok ()) := by
      unfold removeLeaves
      rw [← hd]; exact h1'
    refine ⟨c, c', ?_, ?_, h5⟩
    · simp only [removeLeavesTimes, e1, h4]
    · simp only [removeLeavesTimes, e1', h4']

/-! ### Edges -/

/-- C108.  `filter_edges`, with a predicate that does not depend on the direction. -/
theorem filterEdges_turned [AttrVal A] (h : g.WF) (h' : g'.WF) (s : g.Turned g') {pred : EdgePred V A}
    {p : V → V → Attrs A → Bool} (hp : EdgeAnswers g pred p) (hp' : EdgeAnswers g' pred p)
    (hsym : ∀ e ∈ g.edgesData, p e.1 e.2.1 e.2.2 = p e.2.1 e.1 e.2.2)
    (hkw : ∀ e ∈ g.edgesData, Graph.EdgeKwSafe g.multi e.2.2) (hkw' : ∀ e ∈ g'.edgesData, Graph.EdgeKwSafe g'.multi e.2.2) :
    ∃ b b', filterEdges g pred = .ok b ∧ filterEdges g' pred = .ok b' ∧ b.WF ∧ b'.WF ∧ b.Turned b' := by
  obtain ⟨b, h1, h2, -, -, -, h3, h4⟩ := filterEdges_exact h hp (fun e he _ => hkw e he)
  obtain ⟨b', h1', h2', -, -, -, h3', h4'⟩ := filterEdges_exact h' hp' (fun e he _ => hkw' e he)
  refine ⟨b, b', h1, h1', h2, h2', by rw [h3, h3', s.node], ?_⟩
  rw [h4, h4']
  refine s.edges.filter ?_
  intro e he e' _ hs hd
  rcases samePair_iff.1 hs with ⟨k1, k2⟩ | ⟨_, k1, k2⟩
  · rw [k1, k2, hd]
  · rw [hsym e he, k1, k2, hd]

/-- C108.  `remove_edges` on graphs without parallel edges, with a predicate that does not depend on the direction. -/
theorem removeEdges_turned (h : g.WF) (h' : g'.WF) (s : g.Turned g') (hm : g.multi = false) (hm' : g'.multi = false)
    {pred : EdgePred V A} {p : V → V → Attrs A → Bool} (hp : EdgeAnswers g pred p) (hp' : EdgeAnswers g' pred p)
    (hsym : ∀ e ∈ g.edgesData, p e.1 e.2.1 e.2.2 = p e.2.1 e.1 e.2.2) :
    ∃ b b', removeEdges g pred = (b, .ok ()) ∧ removeEdges g' pred = (b', .ok ()) ∧ b.WF ∧ b'.WF ∧ b.Turned b' := by
  obtain ⟨b, h1, h2, -, -, -, h3, h4⟩ := removeEdges_simple h hm hp
  obtain ⟨b', h1', h2', -, -, -, h3', h4'⟩ := removeEdges_simple h' hm' hp'
  refine ⟨b, b', h1, h1', h2, h2', by rw [h3, h3', s.node], ?_⟩
  have hd : ∀ {b g : Graph V A}, b.edgesKeys = g.edgesKeys.filter (fun e => p e.1 e.2.1 e.2.2.2) →
      b.edgesData = g.edgesData.filter (fun e => p e.1 e.2.1 e.2.2) := by
    intro b g h
    unfold Graph.edgesData
    rw [h, List.filter_map]
    rfl
  rw [hd h4, hd h4']
  refine s.edges.filter ?_
  intro e he e' _ hs hd
  rcases samePair_iff.1 hs with ⟨k1, k2⟩ | ⟨_, k1, k2⟩
  · rw [k1, k2, hd]
  · rw [hsym e he, k1, k2, hd]

theorem Graph.Reversed.turned (r : g.Reversed g') : g.Turned g' := by
  refine ⟨r.node, ?_⟩
  refine SameEdges.of_perm (List.Perm.refl _) ⟨_, List.Perm.refl _, ?_⟩ r.edges.symm
  rw [List.forall₂_map_right_iff, List.forall₂_same]
  intro e _
  exact ⟨samePair_iff.2 (.inr ⟨rfl, rfl, rfl⟩), rfl⟩

end

section
variable {V K : Type} [DecidableEq V] [Field K] [LinearOrder K] [IsStrictOrderedRing K] {g g' : Graph V (Val K)}

/-- C108.  Maximum spanning trees: same error, if any, and same edges but for their direction, near ties included. -/
theorem unionOfMaximumSpanningTrees_turned {ulongMax : Nat} (hu : 2^32 - 1 ≤ ulongMax) (h : g.WF) (h' : g'.WF)
    (s : g.Turned g') {attr : String} (hw : ∀ e ∈ g.edgesData, ∃ w, HasWeight attr e.2.2 w) (hcap : g.order ≤ 2^64) :
    (unionOfMaximumSpanningTrees ulongMax g attr).err = (unionOfMaximumSpanningTrees ulongMax g' attr).err ∧
      ((unionOfMaximumSpanningTrees ulongMax g attr).err = none →
        SameEdges false (unionOfMaximumSpanningTrees ulongMax g attr).yields
          (unionOfMaximumSpanningTrees ulongMax g' attr).yields) := by
  obtain ⟨σ, hσ⟩ := s.edges.reindex
  obtain ⟨h1, h2⟩ := unionOfMaximumSpanningTrees_reindex hu h h' σ hσ (fun n => by rw [s.nodes]) s.order hw hcap
  refine ⟨h1, fun hok => ?_⟩
  obtain ⟨is, h3, h4⟩ := h2 hok
  rw [h3]
  refine SameEdges.of_perm (List.Perm.refl _) ⟨_, List.Perm.refl _, ?_⟩ h4
  rw [List.forall₂_map_left_iff, List.forall₂_map_right_iff, List.forall₂_same]
  exact fun i _ => hσ i

/-- C108.  Maximum spanning trees of a graph whose edges all go the other way: the same edges, the other way. -/
theorem unionOfMaximumSpanningTrees_reversed {ulongMax : Nat} (hu : 2^32 - 1 ≤ ulongMax) (h : g.WF) (h' : g'.WF)
    (r : g.Reversed g') {attr : String} (hw : ∀ e ∈ g.edgesData, ∃ w, HasWeight attr e.2.2 w) (hcap : g.order ≤ 2^64) :
    (unionOfMaximumSpanningTrees ulongMax g attr).err = (unionOfMaximumSpanningTrees ulongMax g' attr).err ∧
      ((unionOfMaximumSpanningTrees ulongMax g attr).err = none →
        ((unionOfMaximumSpanningTrees ulongMax g attr).yields.map (fun e => (e.2.1, e.1, e.2.2))).Perm
          (unionOfMaximumSpanningTrees ulongMax g' attr).yields) := by
  obtain ⟨σ, hσ⟩ := perm_reindex r.edges
  have hl : g.edgesData.length = (g.edgesData.map (fun e => (e.2.1, e.1, e.2.2))).length := by simp
  have hσ' : ∀ i : Fin g.edgesData.length, g'.edgesData[((finCongr hl).trans σ) i] =
      (g.edgesData[i].2.1, g.edgesData[i].1, g.edgesData[i].2.2) := by
    intro i
    have := hσ (finCongr hl i)
    simpa using this.symm
  obtain ⟨h1, h2⟩ := unionOfMaximumSpanningTrees_reindex (d := false) hu h h' ((finCongr hl).trans σ)
    (fun i => by rw [hσ' i]; exact ⟨samePair_iff.2 (.inr ⟨rfl, rfl, rfl⟩), rfl⟩)
    (fun n => by rw [r.turned.nodes]) r.turned.order hw hcap
  refine ⟨h1, fun hok => ?_⟩
  obtain ⟨is, h3, h4⟩ := h2 hok
  rw [h3, List.map_map]
  refine (h4.trans (List.Perm.of_eq ?_)).symm
  exact List.map_congr_left fun i _ => hσ' i

/-- C108.  Global threshold sparsification without `keep_connected`. -/
theorem globalThreshold_turned [PyOrd V] [AttrVal (Val K)] (ulongMax : Nat) (h : g.WF) (h' : g'.WF) (s : g.Turned g')
    {attr : String} (t : K) (reverse : Bool) (hn : ∀ e ∈ g.edgesData, ∃ w, HasNumber attr e.2.2 w)
    (hkw : ∀ e ∈ g.edgesData, Graph.EdgeKwSafe g.multi e.2.2) (hkw' : ∀ e ∈ g'.edgesData, Graph.EdgeKwSafe g'.multi e.2.2) :
    ∃ b b', globalThresholdSparsification ulongMax g t attr reverse false = .ok b ∧
      globalThresholdSparsification ulongMax g' t attr reverse false = .ok b' ∧ b.WF ∧ b'.WF ∧ b.Turned b' := by
  obtain ⟨b, h1, h2, -, -, -, h3, h4⟩ := globalThreshold_exact ulongMax h t reverse false hn (by simp) hkw
  obtain ⟨b', h1', h2', -, -, -, h3', h4'⟩ := globalThreshold_exact ulongMax h' t reverse false
    (s.attrsAll (P := fun a => ∃ w, HasNumber attr a w) hn) (by simp) hkw'
  refine ⟨b, b', h1, h1', h2, h2', by rw [h3, h3', s.node], ?_⟩
  rw [h4, h4']
  refine s.edges.filter ?_
  intro e _ e' _ _ hd
  rw [decide_eq_decide, hd]
  simp

/-- C108.  Global threshold sparsification of a graph whose edges all go the other way, with `keep_connected` too. -/
theorem globalThreshold_reversed [PyOrd V] [AttrVal (Val K)] {ulongMax : Nat} (hu : 2^32 - 1 ≤ ulongMax) (h : g.WF)
    (h' : g'.WF) (r : g.Reversed g') {attr : String} (t : K) (reverse keepConnected : Bool)
    (hn : ∀ e ∈ g.edgesData, ∃ w, HasNumber attr e.2.2 w)
    (hw : keepConnected = true → (∀ e ∈ g.edgesData, ∃ w, HasWeight "weight" e.2.2 w) ∧ g.order ≤ 2^64 ∧
      (unionOfMaximumSpanningTrees ulongMax g "weight").err = none)
    (hkw : ∀ e ∈ g.edgesData, Graph.EdgeKwSafe g.multi e.2.2) (hkw' : ∀ e ∈ g'.edgesData, Graph.EdgeKwSafe g'.multi e.2.2) :
    ∃ b b', globalThresholdSparsification ulongMax g t attr reverse keepConnected = .ok b ∧
      globalThresholdSparsification ulongMax g' t attr reverse keepConnected = .ok b' ∧ b.WF ∧ b'.WF ∧ b.Reversed b' := by
  have s := r.turned
  obtain ⟨b, h1, h2, d, -, -, h3, h4⟩ := globalThreshold_exact ulongMax h t reverse keepConnected hn
    (fun hk => (hw hk).2.2) hkw
  obtain ⟨b', h1', h2', d', -, -, h3', h4'⟩ := globalThreshold_exact ulongMax h' t reverse keepConnected
    (s.attrsAll (P := fun a => ∃ w, HasNumber attr a w) hn)
    (fun hk => by
      obtain ⟨k1, k2, k3⟩ := hw hk
      rw [← (unionOfMaximumSpanningTrees_reversed hu h h' r k1 k2).1]; exact k3) hkw'
  refine ⟨b, b', h1, h1', h2, h2', by rw [h3, h3', s.node], by rw [d, r.from_directed], by rw [d', r.to_directed], ?_⟩
  rw [h4, h4']
  refine List.Perm.trans (List.Perm.of_eq ?_) (r.edges.filter _)
  rw [List.filter_map]
  congr 1
  refine List.filter_congr fun e _ => ?_
  simp only [Function.comp]
  rw [decide_eq_decide]
  refine or_congr_right (and_congr_right fun hk => ?_)
  obtain ⟨k1, k2, k3⟩ := hw hk
  have hp := (unionOfMaximumSpanningTrees_reversed hu h h' r k1 k2).2 k3
  constructor
  · rintro ⟨c, hc⟩
    exact ⟨c, hp.mem_iff.1 (List.mem_map.2 ⟨_, hc, rfl⟩)⟩
  · rintro ⟨c, hc⟩
    obtain ⟨y, hy, heq⟩ := List.mem_map.1 (hp.mem_iff.2 hc)
    obtain ⟨y1, y2, y3⟩ := y
    simp only [Prod.mk.injEq] at heq
    obtain ⟨e1, e2, e3⟩ := heq
    subst e1 e2 e3
    exact ⟨_, hy⟩

end

/-! ### Cases -/

/-- A triangle with a pendant edge, and an isolated pair: a directed graph. -/
def turnSample : Graph Int (Val ℚ) :=
  ⟨true, false, [], [(0, []), (1, []), (2, []), (3, []), (4, []), (5, [])],
    [⟨0, 1, [(.int 0, [(.str "weight", .num 5)])]⟩, ⟨2, 1, [(.int 0, [(.str "weight", .num 4)])]⟩,
     ⟨0, 2, [(.int 0, [(.str "weight", .num 3)])]⟩, ⟨3, 2, [(.int 0, [(.str "weight", .num 2)])]⟩,
     ⟨5, 4, [(.int 0, [(.str "weight", .num 1)])]⟩]⟩

/-- The same with every edge the other way, added in another order. -/
def turnSampleReversed : Graph Int (Val ℚ) :=
  ⟨true, false, [], [(0, []), (1, []), (2, []), (3, []), (4, []), (5, [])],
    [⟨4, 5, [(.int 0, [(.str "weight", .num 1)])]⟩, ⟨1, 0, [(.int 0, [(.str "weight", .num 5)])]⟩,
     ⟨1, 2, [(.int 0, [(.str "weight", .num 4)])]⟩, ⟨2, 0, [(.int 0, [(.str "weight", .num 3)])]⟩,
     ⟨2, 3, [(.int 0, [(.str "weight", .num 2)])]⟩]⟩

/-- The same without directions. -/
def turnSampleUndirected : Graph Int (Val ℚ) := { turnSample with directed := false }

set_option synthInstance.maxSize 2000 in
theorem turnSample_wf : turnSample.WF ∧ turnSampleReversed.WF ∧ turnSampleUndirected.WF := by
  refine ⟨?_, ?_, ?_⟩ <;> constructor <;> decide +kernel

set_option synthInstance.maxSize 2000 in
theorem turnSample_reversed : turnSample.Reversed turnSampleReversed :=
  ⟨rfl, rfl, rfl, by decide +kernel⟩

set_option synthInstance.maxSize 2000 in
theorem turnSample_turned : turnSample.Turned turnSampleUndirected := by
  refine ⟨rfl, _, List.Perm.refl _, ?_⟩
  decide +kernel

example : (triangles turnSample).yields.map tripleSet = [{0, 1, 2}] ∧
    largestConnectedComponent turnSample = .ok (some [0, 1, 2, 3]) := by
  decide +kernel

/-- C108 is false for the sizes of components, which follow the edges in their direction: a graph and the one whose edges go
the other way have other sizes. -/
theorem connectedComponentOrders_reversed_wrong :
    ∃ g g' : Graph Int Int, g.WF ∧ g'.WF ∧ g.Reversed g' ∧ (connectedComponentOrders g none).yields = [2] ∧
      (connectedComponentOrders g' none).yields = [1, 1] ∧ largestComponentOrder g = .ok (some 2) ∧
      largestComponentOrder g' = .ok (some 1) := by
  refine ⟨⟨true, false, [], [(0, []), (1, [])], [⟨0, 1, [(.int 0, [])]⟩]⟩,
    ⟨true, false, [], [(0, []), (1, [])], [⟨1, 0, [(.int 0, [])]⟩]⟩, ?_, ?_, ⟨rfl, rfl, rfl, ?_⟩, ?_, ?_, ?_, ?_⟩
  · constructor <;> decide
  · constructor <;> decide
  all_goals decide +kernel

set_option synthInstance.maxSize 2000 in
/-- C108 is false for `keep_connected` when some edges only are turned: two edges between two nodes are one pair when they go
the same way, and both are kept, but two pairs when they do not, and the heavier one only is kept. -/
theorem keepConnected_turned_wrong :
    ∃ g g' : Graph Int (Val ℚ), g.WF ∧ g'.WF ∧ g.Turned g' ∧
      edgesOk (globalThresholdSparsification (2^64 - 1) g 10 "weight" false true) = some [(0, 1)] ∧
      edgesOk (globalThresholdSparsification (2^64 - 1) g' 10 "weight" false true) = some [(0, 1), (0, 1)] := by
  let g : Graph Int (Val ℚ) := ⟨true, true, [], [(0, []), (1, [])],
    [⟨0, 1, [(.int 0, [(.str "weight", .num 5)])]⟩, ⟨1, 0, [(.int 0, [(.str "weight", .num 1)])]⟩]⟩
  let g' : Graph Int (Val ℚ) := ⟨true, true, [], [(0, []), (1, [])],
    [⟨0, 1, [(.int 0, [(.str "weight", .num 5)]), (.int 1, [(.str "weight", .num 1)])]⟩]⟩
  have h : g.WF := by constructor <;> decide +kernel
  have h' : g'.WF := by constructor <;> decide +kernel
  have hs : g.Turned g' := ⟨rfl, _, List.Perm.refl _, by decide +kernel⟩
  exact ⟨g, g', h, h', hs, by decide +kernel, by decide +kernel⟩

end Pelote
