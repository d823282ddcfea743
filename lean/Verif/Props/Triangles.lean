import Verif.Lemmas.Strength

/-! C27, C28, C29: triangles and triangular strength. -/
namespace Pelote
variable {V A : Type}

/-! ### C27: triangle enumeration -/

/-- C27.  For a graph of any kind, `triangles` raises nothing, never yields one triangle twice (as a set of
nodes), and yields exactly the sets of three different mutually adjacent nodes. -/
theorem triangles_exact [DecidableEq V] {g : Graph V A} (h : g.WF) :
    (triangles g).err = none ∧
    ((triangles g).yields.map tripleSet).Nodup ∧
    ∀ s, s ∈ (triangles g).yields.map tripleSet ↔ g.IsTriangle s :=
  trianglesOf_spec (Graph.undirectedView_spec h)

/-- C27, independence from what networkx leaves unspecified: whatever the order in which the neighbors of
a node are listed, and however a degree is counted, provided that a node with two different neighbors has
a degree of 2 or more, the same triangles are yielded, once each. -/
theorem triangles_any_order [DecidableEq V] {g : Graph V A} (h : g.WF) (w : View V)
    (hnodes : w.nodes.Perm g.nodes) (hnd : ∀ n, (w.neighbors n).Nodup)
    (hnbrs : ∀ n m, m ∈ w.neighbors n ↔ g.Adjacent n m)
    (hdeg : ∀ n a b, g.Adjacent n a → g.Adjacent n b → a ≠ b → 2 ≤ w.degree n) :
    (trianglesOf w).err = none ∧ ((trianglesOf w).yields.map tripleSet).Nodup ∧
    ∀ s, s ∈ (trianglesOf w).yields.map tripleSet ↔ g.IsTriangle s :=
  trianglesOf_spec (E := g.Adjacent)
    { nodup := hnodes.nodup_iff.2 h.nodup
      nbrs := hnd
      mem := hnbrs
      symm := fun _ _ => Graph.adjacent_comm.1
      node := fun n m ha => hnodes.mem_iff.2 ((Graph.undirectedView_spec h).node n m ha)
      degree := hdeg }

/-- The nodes of each yielded triple are all different. -/
theorem triangles_distinct [DecidableEq V] {g : Graph V A} (h : g.WF) :
    ∀ t ∈ (triangles g).yields, t.1 ≠ t.2.1 ∧ t.1 ≠ t.2.2 ∧ t.2.1 ≠ t.2.2 := by
  intro t ht
  obtain ⟨a, b, c, hab, hbc, hac, _, _, _, he⟩ :=
    ((triangles_exact h).2.2 _).1 (List.mem_map_of_mem ht)
  have hc : (tripleSet t).card = 3 := by
    rw [he]; exact Finset.card_eq_three.2 ⟨a, b, c, hab, hac, hbc, rfl⟩
  unfold tripleSet at hc
  refine ⟨?_, ?_, ?_⟩
  · intro e
    rw [e, Finset.insert_eq_of_mem (by simp)] at hc
    have := Finset.card_le_two (a := t.2.1) (b := t.2.2)
    omega
  · intro e
    rw [e, Finset.insert_eq_of_mem (by simp)] at hc
    have := Finset.card_le_two (a := t.2.1) (b := t.2.2)
    omega
  · intro e
    rw [e, Finset.pair_eq_singleton] at hc
    have := Finset.card_le_two (a := t.1) (b := t.2.2)
    omega

/-- Four nodes all adjacent, with a self loop, a reciprocal edge and a leaf: four triangles. -/
def k4 (directed multi : Bool) : Graph Int Int :=
  ⟨directed, multi, [], [(1, []), (2, []), (3, []), (4, []), (5, [])],
    [⟨1, 2, [(.int 0, [])]⟩, ⟨2, 3, [(.int 0, [])]⟩, ⟨3, 1, [(.int 0, [])]⟩, ⟨1, 4, [(.int 0, [])]⟩,
     ⟨4, 2, [(.int 0, [])]⟩, ⟨4, 3, [(.int 0, [])]⟩, ⟨4, 5, [(.int 0, [])]⟩, ⟨2, 2, [(.int 0, [])]⟩]⟩

theorem k4_wf (d m : Bool) : (k4 d m).WF := by
  constructor <;> cases d <;> cases m <;> decide

/-- Non-triviality. -/
example : (triangles (k4 true false)).yields = [(2, 4, 3), (2, 4, 1), (2, 1, 3), (4, 1, 3)] ∧
    (triangles (k4 false true)).yields.length = 4 := by decide +kernel

/-! ### C28: triangular strength -/

/-- C28.  With comparable nodes, `triangular_strength` has, for every `u ≤ v`, an entry `(u, v)` exactly when
`u` and `v` are adjacent and either `full` is set or some triangle contains both, and the entry is
the number of triangles that contain the edge.  It has no entry `(u, v)` with `v < u`. -/
theorem triangularStrength_exact [LinearOrder V] [PyOrd V] (ho : OrderedKeys V) {g : Graph V A} (h : g.WF)
    (full : Bool) :
    ∃ d, triangularStrength g full = .ok d ∧ d.keys.Nodup ∧
      ∀ u v n, d.get? (u, v) = some n ↔
        u ≤ v ∧ ((full = true ∧ g.Adjacent u v) ∨ 0 < g.strength u v) ∧ n = g.strength u v := by
  have hcount : ∀ x y, ((triangles g).yields.flatMap pairs3).count (x, y) =
      if x ≤ y then g.strength x y else 0 := by
    intro x y
    rw [count_flatMap_pairs3 _ (triangles_distinct h)]
    by_cases hxy : x < y
    · rw [if_pos hxy, if_pos hxy.le, Graph.strength_eq h hxy.ne]
    · rw [if_neg hxy]
      by_cases hle : x ≤ y
      · have : x = y := le_antisymm hle (not_lt.1 hxy)
        rw [if_pos hle, this, Graph.strength_self]
      · rw [if_neg hle]
  have hmem : ∀ x y, (x, y) ∈ (triangles g).yields.flatMap pairs3 ↔ x ≤ y ∧ 0 < g.strength x y := by
    intro x y
    rw [← List.count_pos_iff, hcount]
    by_cases hle : x ≤ y <;> simp [hle]
  obtain ⟨d0, hd0, hnd0, hget0⟩ : ∃ d0, (if full then zeroStrengths g.edges [] else .ok []) = .ok d0 ∧
      d0.keys.Nodup ∧ ∀ x y, d0.get? (x, y) = if full = true ∧ x ≤ y ∧ g.Adjacent x y then some 0 else none := by
    classical
    cases full with
    | false => exact ⟨[], rfl, by simp [Dict.keys], by intro x y; simp [Dict.get?]⟩
    | true =>
      obtain ⟨d', h1, h2, h3⟩ := zeroStrengths_eq ho g.edges [] (by simp [Dict.keys])
      refine ⟨d', h1, h2, ?_⟩
      intro x y
      rw [h3]
      simp only [Graph.mem_edges_adjacent h, true_and]
      rfl
  refine ⟨((triangles g).yields.flatMap pairs3).foldl counterIncr d0, ?_, nodup_counterIncr _ _ hnd0, ?_⟩
  · unfold triangularStrength triangularStrengthOf
    rw [hd0]
    have he : (trianglesOf g.undirectedView).err = none := (triangles_exact h).1
    simp only [countTriangles_eq ho, he]
    rfl
  · intro u v n
    rw [get?_counterIncr]
    simp only [hmem, hcount, hget0]
    by_cases hle : u ≤ v
    · by_cases hs : 0 < g.strength u v
      · have hz : ((if full = true ∧ u ≤ v ∧ g.Adjacent u v then some 0 else none : Option Nat)).getD 0 = 0 := by
          split <;> rfl
        simp only [hle, hs, and_self, if_true, Option.some.injEq, or_true, true_and] at hz ⊢
        rw [hz, Nat.zero_add, eq_comm]
      · have h0 : g.strength u v = 0 := by omega
        simp only [hle, hs, and_false, if_false, or_false, true_and]
        by_cases hf : full = true ∧ g.Adjacent u v
        · simp [hf, h0, eq_comm]
        · simp only [hf, if_false, false_and, reduceCtorEq]
    · simp [hle]

/-- An edge that is part of a triangle is an edge: with `full`, nothing but the edges is listed. -/
theorem strength_pos_adjacent [DecidableEq V] {g : Graph V A} {u v : V} (hs : 0 < g.strength u v) :
    u ≠ v ∧ g.Adjacent u v := by
  unfold Graph.strength at hs
  rw [Set.ncard_pos (Set.finite_of_ncard_pos hs)] at hs
  obtain ⟨s, ⟨a, b, c, hab, hbc, hac, k1, k2, k3, rfl⟩, hne, hu, hv⟩ := hs
  refine ⟨hne, ?_⟩
  simp only [Finset.mem_insert, Finset.mem_singleton] at hu hv
  rcases hu with rfl | rfl | rfl <;> rcases hv with rfl | rfl | rfl <;>
    first
      | exact absurd rfl hne
      | assumption
      | exact Graph.adjacent_comm.1 (by assumption)

/-- Non-triviality: integer nodes are ordered, and the strengths of the sample graph. -/
example : OrderedKeys Int := fun _ _ => rfl
example : triangularStrength (k4 false false) true =
    .ok [((1, 2), 2), ((1, 3), 2), ((1, 4), 2), ((2, 3), 2), ((2, 4), 2), ((2, 2), 0), ((3, 4), 2), ((4, 5), 0)] ∧
    triangularStrength (k4 true false) false =
    .ok [((2, 4), 2), ((2, 3), 2), ((3, 4), 2), ((1, 2), 2), ((1, 4), 2), ((1, 3), 2)] := by decide +kernel

/-- Nodes that cannot be compared make the call raise as soon as an edge or a triangle joins them. -/
example : triangularStrength (A := Int) ⟨false, false, [], [(PyKey.int 1, []), (.str "a", [])],
    [⟨.int 1, .str "a", [(.int 0, [])]⟩]⟩ true = .error (.typeError "'>' not supported") := by decide +kernel

/-! ### C29: the naive version -/

/-- The number of neighbors of a node other than itself. -/
noncomputable def Graph.others (g : Graph V A) [DecidableEq V] (u : V) : Nat :=
  Set.ncard {w : V | w ≠ u ∧ g.Adjacent u w}

/-- What `naive_triangular_strength` really computes, for every graph with comparable nodes and both values
of `full`: adjacent pairs of nodes that both have two other neighbors get their strength (a self loop gets
the number of other neighbors), other adjacent pairs get 0 when `full` is set. -/
theorem naiveTriangularStrength_exact [LinearOrder V] [PyOrd V] (ho : OrderedKeys V) {g : Graph V A}
    (h : g.WF) (full : Bool) :
    ∃ d, naiveTriangularStrength g full = .ok d ∧ d.keys.Nodup ∧
      ∀ u v n, d.get? (u, v) = some n ↔ u ≤ v ∧ g.Adjacent u v ∧
        ((2 ≤ g.others u ∧ 2 ≤ g.others v ∧ n = if u = v then g.others u else g.strength u v) ∨
         (¬ (2 ≤ g.others u ∧ 2 ≤ g.others v) ∧ full = true ∧ n = 0)) := by
  have hv := Graph.undirectedView_spec h
  have hmem : ∀ n m, m ∈ g.undirectedView.others n ↔ m ≠ n ∧ g.Adjacent n m := by
    intro n m
    unfold View.others
    simp only [List.mem_filter, hv.mem, Bool.not_eq_true', decide_eq_false_iff_not]
    rw [and_comm, eq_comm]
  have hnd : ∀ n, (g.undirectedView.others n).Nodup := fun n => (hv.nbrs n).filter _
  have hlen : ∀ n, (g.undirectedView.others n).length = g.others n := by
    intro n
    unfold Graph.others
    rw [← List.toFinset_card_of_nodup (hnd n), ← Set.ncard_coe_finset]
    congr 1
    ext m
    simp [hmem]
  have hnbh : ∀ x, (neighborhoodsOf g.undirectedView).get? x =
      if x ∈ g.nodes ∧ 1 < (g.undirectedView.others x).length
        then some (g.undirectedView.others x) else none := by
    intro x
    unfold neighborhoodsOf
    rw [get?_neighborhoods _ hv.nbrs]
    rfl
  obtain ⟨d, h1, h2, h3⟩ := naiveLoop_eq ho full (neighborhoodsOf g.undirectedView) g.undirectedView.edges []
    (by simp [Dict.keys])
  refine ⟨d, h1, h2, ?_⟩
  intro u v n
  have hkey : (u, v) ∈ g.undirectedView.edges.map (fun e => ordPair e.1 e.2) ↔ u ≤ v ∧ g.Adjacent u v := by
    have := mem_viewEdges hv [] g.undirectedView.nodes (by simp) hv.nodup u v
    simp only [List.not_mem_nil, not_false_eq_true, and_true] at this
    rw [← this]
    simp only [List.mem_map, Prod.exists, ordPair_eq]
    constructor
    · rintro ⟨x, y, he, hle, ⟨rfl, rfl⟩ | ⟨rfl, rfl⟩⟩
      · exact ⟨hle, .inl he⟩
      · exact ⟨hle, .inr he⟩
    · rintro ⟨hle, he | he⟩
      · exact ⟨_, _, he, hle, .inl ⟨rfl, rfl⟩⟩
      · exact ⟨_, _, he, hle, .inr ⟨rfl, rfl⟩⟩
  rw [h3]
  simp only [hkey, Dict.get?]
  by_cases hk : u ≤ v ∧ g.Adjacent u v
  · obtain ⟨hle, ha⟩ := hk
    have hu : u ∈ g.nodes := hv.node u v ha
    have hv' : v ∈ g.nodes := hv.node v u (hv.symm _ _ ha)
    have hval : naiveValue full (neighborhoodsOf g.undirectedView) (u, v) =
        if 2 ≤ g.others u ∧ 2 ≤ g.others v then some (if u = v then g.others u else g.strength u v)
        else if full then some 0 else none := by
      unfold naiveValue
      simp only [hnbh, hu, hv', true_and, hlen]
      by_cases k1 : 2 ≤ g.others u
      · by_cases k2 : 2 ≤ g.others v
        · have k1' : 1 < g.others u := k1
          have k2' : 1 < g.others v := k2
          simp only [k1, k2, k1', k2', and_self, if_true]
          rw [fastIntersectionSize_eq _ _ _ (hnd u) (hnd v)
            (fun e => by rw [of_decide_eq_true e])]
          by_cases e : u = v
          · subst e
            rw [if_pos rfl, Finset.inter_self, List.toFinset_card_of_nodup (hnd u), hlen]
          · rw [if_neg e, strength_common e ha]
            intro w
            rw [Finset.mem_inter, List.mem_toFinset, List.mem_toFinset, hmem, hmem]
        · have k2' : ¬ 1 < g.others v := k2
          simp only [k2, k2', and_false, if_false]
          cases (if 1 < g.others u then some (g.undirectedView.others u) else none) <;> rfl
      · have k1' : ¬ 1 < g.others u := k1
        simp only [k1, k1', false_and, if_false]
    simp only [hle, ha, true_and, hval]
    by_cases hc : 2 ≤ g.others u ∧ 2 ≤ g.others v
    · simp [hc, eq_comm]
    · have hc2 : ¬ (2 ≤ g.others u ∧ 2 ≤ g.others v ∧ n = if u = v then g.others u else g.strength u v) :=
        fun hh => hc ⟨hh.1, hh.2.1⟩
      simp only [hc, hc2, if_false, false_or, not_false_eq_true, true_and]
      cases full <;> simp [eq_comm]
  · have hk' : ∀ P : Prop, ¬ (u ≤ v ∧ g.Adjacent u v ∧ P) := fun P hh => hk ⟨hh.1, hh.2.1⟩
    simp only [hk, false_and, if_false, reduceCtorEq, false_iff]
    exact hk' _

theorem strength_le_others [DecidableEq V] {g : Graph V A} (h : g.WF) {u v : V} (hs : 0 < g.strength u v) :
    2 ≤ g.others u ∧ 2 ≤ g.others v := by
  have key : ∀ {x y : V}, 0 < g.strength x y → 2 ≤ g.others x := by
    intro x y hs
    obtain ⟨hne, ha⟩ := strength_pos_adjacent hs
    unfold Graph.strength at hs
    rw [Set.ncard_pos (Set.finite_of_ncard_pos hs)] at hs
    obtain ⟨s, ⟨a, b, c, hab, hbc, hac, k1, k2, k3, rfl⟩, _, hx, _⟩ := hs
    have hfin : {w : V | w ≠ x ∧ g.Adjacent x w}.Finite := by
      refine (List.finite_toSet g.nodes).subset ?_
      rintro w ⟨_, hw⟩
      exact (Graph.undirectedView_spec h).node w x (Graph.adjacent_comm.1 hw)
    unfold Graph.others
    have two : ∀ p q, p ≠ q → p ≠ x → q ≠ x → g.Adjacent x p → g.Adjacent x q →
        2 ≤ Set.ncard {w : V | w ≠ x ∧ g.Adjacent x w} := by
      intro p q hpq hp hq hp' hq'
      rw [← Set.ncard_pair hpq]
      refine Set.ncard_le_ncard ?_ hfin
      rintro w (rfl | rfl)
      · exact ⟨hp, hp'⟩
      · exact ⟨hq, hq'⟩
    simp only [Finset.mem_insert, Finset.mem_singleton] at hx
    rcases hx with rfl | rfl | rfl
    · exact two b c hbc hab.symm hac.symm k1 k3
    · exact two a c hac hab hbc.symm (Graph.adjacent_comm.1 k1) k2
    · exact two a b hab hac hbc (Graph.adjacent_comm.1 k3) (Graph.adjacent_comm.1 k2)
  refine ⟨key hs, key (x := v) (y := u) ?_⟩
  unfold Graph.strength at hs ⊢
  have : {s : Finset V | g.IsTriangle s ∧ v ≠ u ∧ v ∈ s ∧ u ∈ s} =
      {s : Finset V | g.IsTriangle s ∧ u ≠ v ∧ u ∈ s ∧ v ∈ s} := by
    ext s
    simp only [Set.mem_ofPred_eq]
    constructor <;> rintro ⟨h1, h2, h3, h4⟩ <;> exact ⟨h1, h2.symm, h4, h3⟩
  rw [this]
  exact hs

/-- C29 for `full=True`, when no node with a self loop has two other neighbors: both functions return the
same mapping.  Missing for the full claim: `full=False` and such self loops (both refuted below). -/
theorem naiveTriangularStrength_partial [LinearOrder V] [PyOrd V] (ho : OrderedKeys V) {g : Graph V A}
    (h : g.WF) (hloop : ∀ u, g.hasEdge u u = true → g.others u < 2) :
    ∃ d d', triangularStrength g true = .ok d ∧ naiveTriangularStrength g true = .ok d' ∧
      ∀ k, d.get? k = d'.get? k := by
  obtain ⟨d, h1, _, h2⟩ := triangularStrength_exact ho h true
  obtain ⟨d', h1', _, h2'⟩ := naiveTriangularStrength_exact ho h true
  refine ⟨d, d', h1, h1', ?_⟩
  rintro ⟨u, v⟩
  apply Option.ext
  intro n
  rw [h2, h2']
  constructor
  · rintro ⟨hle, ha, rfl⟩
    have ha : g.Adjacent u v := by
      rcases ha with ⟨_, ha⟩ | hs
      · exact ha
      · exact (strength_pos_adjacent hs).2
    refine ⟨hle, ha, ?_⟩
    by_cases hc : 2 ≤ g.others u ∧ 2 ≤ g.others v
    · refine .inl ⟨hc.1, hc.2, ?_⟩
      by_cases e : u = v
      · subst e
        have := hloop u (by rcases ha with ha | ha <;> exact ha)
        omega
      · rw [if_neg e]
    · refine .inr ⟨hc, rfl, ?_⟩
      by_contra hs
      exact hc (strength_le_others h (Nat.pos_of_ne_zero hs))
  · rintro ⟨hle, ha, ⟨k1, k2, rfl⟩ | ⟨hc, _, rfl⟩⟩
    · refine ⟨hle, .inl ⟨rfl, ha⟩, ?_⟩
      by_cases e : u = v
      · subst e
        have := hloop u (by rcases ha with ha | ha <;> exact ha)
        omega
      · rw [if_neg e]
    · refine ⟨hle, .inl ⟨rfl, ha⟩, ?_⟩
      by_contra hs
      exact hc (strength_le_others h (Nat.pos_of_ne_zero (fun e => hs e.symm)))

/-- C29 for `full=False` without self loops: both functions give the same non-zero strengths. -/
theorem naiveTriangularStrength_nonzero_partial [LinearOrder V] [PyOrd V] (ho : OrderedKeys V) {g : Graph V A}
    (h : g.WF) (hloop : ∀ u, g.hasEdge u u = true → g.others u < 2) :
    ∃ d d', triangularStrength g false = .ok d ∧ naiveTriangularStrength g false = .ok d' ∧
      ∀ k n, 0 < n → (d.get? k = some n ↔ d'.get? k = some n) := by
  obtain ⟨d, h1, _, h2⟩ := triangularStrength_exact ho h false
  obtain ⟨d', h1', _, h2'⟩ := naiveTriangularStrength_exact ho h false
  refine ⟨d, d', h1, h1', ?_⟩
  rintro ⟨u, v⟩ n hn
  rw [h2, h2']
  constructor
  · rintro ⟨hle, ha, rfl⟩
    obtain ⟨hne, ha⟩ := strength_pos_adjacent hn
    obtain ⟨k1, k2⟩ := strength_le_others h hn
    exact ⟨hle, ha, .inl ⟨k1, k2, by rw [if_neg hne]⟩⟩
  · rintro ⟨hle, ha, ⟨k1, k2, rfl⟩ | ⟨_, hf, _⟩⟩
    · by_cases e : u = v
      · subst e
        have := hloop u (by rcases ha with ha | ha <;> exact ha)
        omega
      · rw [if_neg e] at hn ⊢
        exact ⟨hle, .inr hn, rfl⟩
    · simp at hf

/-- A square: four edges, no triangle. -/
def squareGraph : Graph Int Int :=
  ⟨false, false, [], [(1, []), (2, []), (3, []), (4, [])],
    [⟨1, 2, [(.int 0, [])]⟩, ⟨2, 3, [(.int 0, [])]⟩, ⟨3, 4, [(.int 0, [])]⟩, ⟨4, 1, [(.int 0, [])]⟩]⟩

/-- C29 is false with `full=False`: on a square, the naive function lists four edges of strength 0. -/
theorem naiveTriangularStrength_lists_zeros :
    triangularStrength squareGraph false = .ok [] ∧
    naiveTriangularStrength squareGraph false = .ok [((1, 2), 0), ((1, 4), 0), ((2, 3), 0), ((3, 4), 0)] := by
  decide +kernel

/-- C29 is false with a self loop, even with `full=True`: the naive function gives the self loop of a node
the number of its other neighbors. -/
theorem naiveTriangularStrength_self_loop :
    (triangularStrength (k4 false false) true).map (fun d => d.get? (2, 2)) = .ok (some 0) ∧
    (naiveTriangularStrength (k4 false false) true).map (fun d => d.get? (2, 2)) = .ok (some 3) := by
  decide +kernel

/-- Non-triviality of the hypothesis about self loops. -/
example : ∀ u, squareGraph.hasEdge u u = true → squareGraph.others u < 2 := by
  intro u hu
  obtain ⟨l, hl, hs⟩ := Graph.hasEdge_iff.1 hu
  simp only [squareGraph, List.mem_cons, List.not_mem_nil, or_false] at hl
  rcases hl with rfl | rfl | rfl | rfl <;> simp [samePair] at hs <;> omega

end Pelote
