import Verif.Lemmas.Reorder
import Verif.Props.Components
import Verif.Props.Learn
import Verif.Props.Triangles
import Verif.Props.Disparity
import Verif.Props.Sparsification
import Verif.Props.SpanningTreesNear
import Verif.Props.Projection
import Verif.Props.SelfSimilarity

/-! Property C74: the order in which nodes and edges have been added. -/
namespace Pelote

/-! ### Components -/

section
variable {V A B : Type} [DecidableEq V] {g g' : Graph V A}

theorem SameEdges.linked {d : Bool} {l l' : List (V × V × B)} (h : SameEdges d l l') (x y : V) :
    Linked (l.map (fun e => (e.1, e.2.1))) x y ↔ Linked (l'.map (fun e => (e.1, e.2.1))) x y := by
  have key : ∀ {l l' : List (V × V × B)}, SameEdges d l l' → Linked (l.map (fun e => (e.1, e.2.1))) x y →
      Linked (l'.map (fun e => (e.1, e.2.1))) x y := by
    intro l l' h
    refine Linked.bind (fun a b hab => ?_)
    obtain ⟨e, he, heq⟩ := List.mem_map.1 hab
    obtain ⟨e', he', hs, _⟩ := h.exists he
    cases heq
    have hm : (e'.1, e'.2.1) ∈ l'.map (fun e => (e.1, e.2.1)) := List.mem_map.2 ⟨e', he', rfl⟩
    rcases samePair_iff.1 hs with ⟨h1, h2⟩ | ⟨_, h1, h2⟩
    · rw [h1, h2]; exact .of_mem hm
    · rw [h1, h2]; exact (Linked.of_mem hm).symm
  exact ⟨key h, key h.symm⟩

/-- The sizes of the components do not depend on the order of the nodes, but for their own order. -/
theorem componentOrders_perm {nodes nodes' : List V} {pairs pairs' : List (V × V)} (hn : nodes.Nodup) (hn' : nodes'.Nodup)
    (hm : ∀ n, n ∈ nodes ↔ n ∈ nodes') (hl : ∀ x y, Linked pairs x y ↔ Linked pairs' x y) :
    (componentOrders nodes pairs).Perm (componentOrders nodes' pairs') := by
  have hc : ∀ n, componentOf nodes pairs n = componentOf nodes' pairs' n := by
    intro n; ext x; simp only [componentOf, Set.mem_setOf_eq, hm, hl]
  have hmem : ∀ {nodes : List V} {pairs : List (V × V)} {r : V}, r ∈ firstNodes nodes pairs → r ∈ nodes :=
    fun hr => List.mem_of_mem_filter hr
  have hnd : ∀ {nodes : List V} (pairs : List (V × V)), nodes.Nodup →
      ((firstNodes nodes pairs).map (componentOf nodes pairs)).Nodup := by
    intro nodes pairs hn
    refine List.Nodup.map_on ?_ (hn.filter _)
    intro x hx y hy hxy
    have hy' : y ∈ componentOf nodes pairs x := by rw [hxy]; exact ⟨hmem hy, .refl _ _⟩
    obtain ⟨r, _, hu⟩ := firstNodes_partition pairs y (hmem hy)
    rw [hu x ⟨hx, hy'.2⟩, hu y ⟨hy, .refl _ _⟩]
  have hset : ∀ {nodes : List V} (pairs : List (V × V)) (S : Set V),
      S ∈ (firstNodes nodes pairs).map (componentOf nodes pairs) ↔ ∃ n ∈ nodes, componentOf nodes pairs n = S := by
    intro nodes pairs S
    rw [List.mem_map]
    constructor
    · rintro ⟨r, hr, rfl⟩; exact ⟨r, hmem hr, rfl⟩
    · rintro ⟨n, hn, rfl⟩
      obtain ⟨r, ⟨hr, hrn⟩, _⟩ := firstNodes_partition pairs n hn
      refine ⟨r, hr, ?_⟩
      ext x
      simp only [componentOf, Set.mem_setOf_eq]
      exact and_congr_right fun _ => ⟨fun h => hrn.symm.trans h, fun h => hrn.trans h⟩
  have hp : ((firstNodes nodes pairs).map (componentOf nodes pairs)).Perm
      ((firstNodes nodes' pairs').map (componentOf nodes' pairs')) := by
    rw [List.perm_ext_iff_of_nodup (hnd _ hn) (hnd _ hn')]
    intro S
    rw [hset, hset]
    exact ⟨fun ⟨n, h1, h2⟩ => ⟨n, (hm n).1 h1, (hc n) ▸ h2⟩, fun ⟨n, h1, h2⟩ => ⟨n, (hm n).2 h1, (hc n).symm ▸ h2⟩⟩
  have := hp.map Set.ncard
  rwa [List.map_map, List.map_map] at this

theorem Graph.Same.linked_edges (s : g.Same g') (h : g.WF) (h' : g'.WF) (x y : V) :
    Linked g.edges x y ↔ Linked g'.edges x y := by
  have := (s.sameEdges h h').linked x y
  rwa [← edges_eq_map, ← edges_eq_map] at this

/-- C74.  The sizes of the connected components, but for their own order. -/
theorem connectedComponentOrders_reorder (h : g.WF) (h' : g'.WF) (s : g.Same g') (hd : g.directed = false) :
    (connectedComponentOrders g none).err = none ∧ (connectedComponentOrders g' none).err = none ∧
      (connectedComponentOrders g none).yields.Perm (connectedComponentOrders g' none).yields := by
  rw [connectedComponentOrders_exact h hd, connectedComponentOrders_exact h' (s.directed ▸ hd)]
  exact ⟨rfl, rfl, componentOrders_perm h.nodup h'.nodup s.mem_nodes (s.linked_edges h h')⟩

/-- C74.  The order of the largest component. -/
theorem largestComponentOrder_reorder (h : g.WF) (h' : g'.WF) (s : g.Same g') (hd : g.directed = false) :
    largestComponentOrder g = largestComponentOrder g' := by
  obtain ⟨r, h1, h2, h3⟩ := largestComponentOrder_exact h hd
  obtain ⟨r', h1', h2', h3'⟩ := largestComponentOrder_exact h' (s.directed ▸ hd)
  have hp := componentOrders_perm h.nodup h'.nodup s.mem_nodes (s.linked_edges h h')
  have hnil : g.nodes = [] ↔ g'.nodes = [] := by
    rw [← List.length_eq_zero_iff, ← List.length_eq_zero_iff, (s.nodes_perm h h').length_eq]
  rw [h1, h1']
  congr 1
  cases r with
  | none => exact (h2'.2 (hnil.1 (h2.1 rfl))).symm
  | some m =>
    cases r' with
    | none => exact absurd (h2.2 (hnil.2 (h2'.1 rfl))) (by simp)
    | some m' =>
      obtain ⟨a1, a2⟩ := h3 m rfl
      obtain ⟨b1, b2⟩ := h3' m' rfl
      rw [le_antisymm (b2 m (hp.mem_iff.1 a1)) (a2 m' (hp.mem_iff.2 b1))]

theorem IsSecondLargest.unique {sizes sizes' : List Nat} (hp : sizes.Perm sizes') {r r' : Nat}
    (h : IsSecondLargest sizes r) (h' : IsSecondLargest sizes' r') : r = r' := by
  have key : ∀ {sizes sizes' : List Nat} {r r' : Nat}, sizes.Perm sizes' → IsSecondLargest sizes r →
      IsSecondLargest sizes' r' → r ≤ r' := by
    rintro sizes sizes' r r' hp ⟨a, t, p1, p2, p3⟩ ⟨a', t', q1, q2, q3⟩
    by_contra hlt
    push Not at hlt
    have c1 : sizes.countP (fun x => decide (r ≤ x)) ≥ 2 := by
      rw [p1.countP_eq]
      simp [List.countP_cons, p2]
    have c2 : sizes.countP (fun x => decide (r ≤ x)) ≤ 1 := by
      rw [(hp.trans q1).countP_eq]
      have : t'.countP (fun x => decide (r ≤ x)) = 0 := by
        rw [List.countP_eq_zero]
        intro x hx
        have := q3 x hx
        simp only [decide_eq_true_eq, not_le]
        omega
      rw [List.countP_cons, List.countP_cons, this]
      have : ¬ r ≤ r' := by omega
      by_cases ha : r ≤ a' <;> simp [this, ha]
    omega
  exact le_antisymm (key hp h h') (key hp.symm h' h)

/-- C74.  The order of the second largest component left by a filter which looks at the attributes only. -/
theorem secondLargestComponentOrder_reorder (h : g.WF) (h' : g'.WF) (s : g.Same g') (hd : g.directed = false)
    {f : EdgePred V A} {p : Attrs A → Bool} (hf : ∀ u v a, (∃ e ∈ g.edgesData, e.2.2 = a) → f u v a = .ok (p a)) :
    secondLargestComponentOrder g (some f) = secondLargestComponentOrder g' (some f) := by
  have hE := s.sameEdges h h'
  have hf' : ∀ u v a, (∃ e ∈ g'.edgesData, e.2.2 = a) → f u v a = .ok (p a) := by
    rintro u v a ⟨e', he', rfl⟩
    obtain ⟨e, he, _, h2⟩ := hE.symm.exists he'
    exact hf u v _ ⟨e, he, h2.symm⟩
  obtain ⟨r, h1, h2, h3⟩ := secondLargestComponentOrder_filter h hd (f := f) (p := fun _ _ a => p a)
    (fun e he => ⟨hf _ _ _ ⟨e, he, rfl⟩, hf _ _ _ ⟨e, he, rfl⟩⟩)
  obtain ⟨r', h1', h2', h3'⟩ := secondLargestComponentOrder_filter h' (s.directed ▸ hd) (f := f) (p := fun _ _ a => p a)
    (fun e he => ⟨hf' _ _ _ ⟨e, he, rfl⟩, hf' _ _ _ ⟨e, he, rfl⟩⟩)
  have hF := hE.filter (p := fun e => p e.2.2) (p' := fun e => p e.2.2) (fun e _ e' _ _ hs => by simp only [hs])
  have hp := componentOrders_perm h.nodup h'.nodup s.mem_nodes hF.linked
  rw [h1, h1']
  congr 1
  cases r with
  | none => exact (h2'.2 (hp.length_eq ▸ h2.1 rfl)).symm
  | some m =>
    cases r' with
    | none => exact absurd (h2.2 (hp.length_eq.symm ▸ h2'.1 rfl)) (by simp)
    | some m' => rw [IsSecondLargest.unique hp (h3 m rfl) (h3' m' rfl)]

end

/-! ### The threshold learner -/

section
variable {V K : Type} [DecidableEq V] [Field K] [LinearOrder K] {g g' : Graph V (Val K)}

/-- C74.  The threshold learner: same threshold, same calls of `on_epoch`, whatever the rounding of the sums. -/
theorem floatsam_reorder (rnd : K → K) (h : g.WF) (h' : g'.WF) (s : g.Same g') (hd : g.directed = false) {attr : String}
    (hw : Weighted g attr) (start rate : K) (given : Option K) (o : OnEpoch K) (fuel : Nat) :
    floatsamR rnd g start rate given attr o fuel = floatsamR rnd g' start rate given attr o fuel := by
  have hE := s.sameEdges h h'
  have hsize : g.size = g'.size := by
    rw [Graph.size_eq h, Graph.size_eq h', edges_eq_map, edges_eq_map, List.length_map, List.length_map]
    simpa using (hE.map_perm (f := fun _ => ()) (f' := fun _ => ()) (fun _ _ _ _ _ _ => rfl)).length_eq
  have hmax : maxDrifterOrder g given = maxDrifterOrder g' given := by
    unfold maxDrifterOrder
    rw [largestComponentOrder_reorder h h' s hd]
  have hsecond : ∀ t : K, secondLargestComponentOrder g (some (floatsamFilter attr t)) =
      secondLargestComponentOrder g' (some (floatsamFilter attr t)) := by
    intro t
    refine secondLargestComponentOrder_reorder h h' s hd
      (p := fun a => (numWeight attr a).any (fun w => decide (t ≤ w))) ?_
    rintro u v a ⟨e, he, rfl⟩
    obtain ⟨w, hw⟩ := hw e he
    unfold numWeight at hw ⊢
    unfold floatsamFilter Dict.getItem
    cases hx : e.2.2.get? (.str attr) with
    | none => rw [hx] at hw; cases hw
    | some x =>
      rw [hx] at hw
      cases x with
      | num y => simp [Val.toNum]
      | bool b => cases b <;> simp [Val.toNum]
      | str _ => cases hw
      | none => cases hw
      | obj _ => cases hw
  have hloop : ∀ (o : OnEpoch K) (m : K) (fuel n : Nat) (t : K), floatsamLoopR rnd g rate m attr o fuel n t =
      floatsamLoopR rnd g' rate m attr o fuel n t := by
    intro o m fuel
    induction fuel with
    | zero => intro n t; rfl
    | succ fuel ih =>
      intro n t
      unfold floatsamLoopR
      simp only [hsecond, ih]
  unfold floatsamR
  cases o <;> simp only [hsize, hmax, hloop]

end

/-! ### Metrics -/

section
variable {V A : Type} [DecidableEq V] {g g' : Graph V A}

theorem Graph.Same.adjacent (s : g.Same g') (h : g.WF) (h' : g'.WF) (u v : V) : g.Adjacent u v ↔ g'.Adjacent u v := by
  unfold Graph.Adjacent
  rw [s.hasEdge h h', s.hasEdge h h']

theorem Graph.Same.strength (s : g.Same g') (h : g.WF) (h' : g'.WF) (u v : V) : g.strength u v = g'.strength u v := by
  unfold Graph.strength Graph.IsTriangle
  simp only [s.adjacent h h']

theorem Graph.Same.attrsAll (s : g.Same g') (h : g.WF) (h' : g'.WF) {P : Attrs A → Prop}
    (hP : ∀ e ∈ g.edgesData, P e.2.2) : ∀ e ∈ g'.edgesData, P e.2.2 := by
  intro e' he'
  obtain ⟨e, he, _, hd⟩ := (s.sameEdges h h').symm.exists he'
  rw [hd]; exact hP e he

theorem Graph.Same.degree (s : g.Same g') (h : g.WF) (h' : g'.WF) (n : V) : g.degree n = g'.degree n := by
  rw [Graph.degree_eq h, Graph.degree_eq h', edges_eq_map, edges_eq_map, List.map_map, List.map_map]
  refine ((s.sameEdges h h').map_perm ?_).sum_eq
  rintro e _ e' _ hs _
  rcases samePair_iff.1 hs with ⟨h1, h2⟩ | ⟨_, h1, h2⟩ <;> simp only [Function.comp, h1, h2]
  exact Nat.add_comm _ _

end

section
variable {V K : Type} [LinearOrder V] [Field K] [LinearOrder K] {g g' : Graph V (Val K)}

/-- C74.  Triangular strength. -/
theorem triangularStrength_reorder {A : Type} {g g' : Graph V A} [PyOrd V] (ho : OrderedKeys V) (h : g.WF) (h' : g'.WF)
    (s : g.Same g') (full : Bool) :
    ∃ d d', triangularStrength g full = .ok d ∧ triangularStrength g' full = .ok d' ∧ ∀ k, d.get? k = d'.get? k := by
  obtain ⟨d, h1, _, h2⟩ := triangularStrength_exact ho h full
  obtain ⟨d', h1', _, h2'⟩ := triangularStrength_exact ho h' full
  refine ⟨d, d', h1, h1', ?_⟩
  rintro ⟨u, v⟩
  apply Option.ext
  intro n
  rw [h2, h2', s.adjacent h h', s.strength h h']

theorem Graph.Same.nodeStrength (s : g.Same g') (h : g.WF) (h' : g'.WF) {w : V → V → K} (hsym : ∀ u v, w u v = w v u)
    (n : V) : g.nodeStrength w n = g'.nodeStrength w n := by
  unfold Graph.nodeStrength
  rw [edges_eq_map, edges_eq_map, List.map_map, List.map_map]
  refine ((s.sameEdges h h').map_perm ?_).sum_eq
  rintro e _ e' _ hs _
  rcases samePair_iff.1 hs with ⟨h1, h2⟩ | ⟨_, h1, h2⟩ <;> simp only [Function.comp, h1, h2]
  rw [hsym e'.2.1 e'.1, add_comm]

theorem Graph.Same.disparity (s : g.Same g') (h : g.WF) (h' : g'.WF) {w : V → V → K} (hsym : ∀ u v, w u v = w v u)
    (u v : V) : g.disparity w u v = g'.disparity w u v := by
  unfold Graph.disparity
  rw [s.nodeStrength h h' hsym, s.nodeStrength h h' hsym, s.degree h h', s.degree h h']

omit [LinearOrder K] in
theorem Graph.Same.weighted (s : g.Same g') (h : g.WF) (h' : g'.WF) {attr : String} {w : V → V → K}
    (hsym : ∀ u v, w u v = w v u) (hw : g.Weighted attr w) : g'.Weighted attr w := by
  intro e' he'
  obtain ⟨e, he, hs, hd⟩ := (s.sameEdges h h').symm.exists he'
  obtain ⟨x, h1, h2⟩ := hw e he
  refine ⟨x, by rw [hd]; exact h1, ?_⟩
  rcases samePair_iff.1 hs with ⟨e1, e2⟩ | ⟨_, e1, e2⟩
  · rw [e1, e2]; exact h2
  · rw [e1, e2, hsym]; exact h2

/-- C74.  Edge disparity. -/
theorem edgeDisparity_reorder [IsStrictOrderedRing K] [PyOrd V] (ho : OrderedKeys V) (h : g.WF) (h' : g'.WF)
    (s : g.Same g') (hd : g.directed = false) (hm : g.multi = false) {attr : String} {w : V → V → K}
    (hsym : ∀ u v, w u v = w v u) (hw : g.Weighted attr w)
    (hS : ∀ u v, g.hasEdge u v = true → g.nodeStrength w u ≠ 0) (reverse : Bool) :
    ∃ d d', edgeDisparity g attr reverse = .ok d ∧ edgeDisparity g' attr reverse = .ok d' ∧ ∀ k, d.get? k = d'.get? k := by
  obtain ⟨d, h1, _, h2⟩ := edgeDisparity_exact ho h hd hm hsym hw hS reverse
  obtain ⟨d', h1', _, h2'⟩ := edgeDisparity_exact ho h' (s.directed ▸ hd) (s.multi ▸ hm) hsym (s.weighted h h' hsym hw)
    (fun u v hu => by rw [← s.nodeStrength h h' hsym]; exact hS u v (by rw [s.hasEdge h h']; exact hu)) reverse
  refine ⟨d, d', h1, h1', ?_⟩
  rintro ⟨u, v⟩
  apply Option.ext
  intro n
  rw [h2, h2', s.hasEdge h h', s.disparity h h' hsym]

end

end Pelote
