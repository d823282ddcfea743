import Verif.Lemmas.SelfSimilarity

/-! C43 and C44: breadth first search from a node, self similarity projection. -/
set_option linter.unusedSectionVars false
namespace Pelote
variable {V K A : Type} [DecidableEq V] [Field K] [LinearOrder K] [IsStrictOrderedRing K]

/-- C43.  On a directed graph, the search started at a node does not raise, and yields exactly the nodes at
distance 1 to `limit` (along the edges, or against them when `reverse`), with their distance, each once, the
closest first. -/
theorem bfsFromNode_exact {g : Graph V A} (hwf : g.WF) (hdir : g.directed = true) {source : V}
    (hs : source ∈ g.nodes) (reverse : Bool) (limit : Int) :
    (bfsFromNode g source reverse limit).err = none ∧
      (∀ v d, (v, d) ∈ (bfsFromNode g source reverse limit).yields ↔
        1 ≤ d ∧ (d : Int) ≤ limit ∧ IsDist (g.Step reverse) source v d) ∧
      ((bfsFromNode g source reverse limit).yields.map Prod.fst).Nodup ∧
      ((bfsFromNode g source reverse limit).yields.map Prod.snd).Pairwise (· ≤ ·) :=
  bfsFromNode_spec hwf hdir hs reverse limit

/-- A source which is not in the graph raises, unless the limit is not positive. -/
theorem bfsFromNode_absent {g : Graph V A} (hdir : g.directed = true) {source : V}
    (hs : source ∉ g.nodes) (reverse : Bool) {limit : Int} (hl : 0 < limit) :
    bfsFromNode g source reverse limit = ⟨[], some .networkxError⟩ := by
  have hn : g.node.has source = false := by
    rw [← Bool.not_eq_true, Dict.has_iff]; exact hs
  unfold bfsFromNode searchLoop
  simp [Traversal.init, Traversal.append, Traversal.len, Traversal.popleft, bfsNeighbors, hdir,
    Graph.hasNode, hn, Int.not_le.2 hl]

theorem Graph.reach_bounds (g : Graph V A) (reverse : Bool) (n : V) (depth : Int) :
    g.reach reverse n depth ≤ depth ∧ (1 ≤ depth → 1 ≤ g.reach reverse n depth) := by
  classical
  unfold Graph.reach
  split
  · rename_i he
    obtain ⟨d, x, h1, h2, hx⟩ := he
    have hle := Nat.findGreatest_le (P := fun d => ∃ x, IsDist (g.Step reverse) n x d) depth.toNat
    have hge := Nat.le_findGreatest (P := fun d => ∃ x, IsDist (g.Step reverse) n x d)
      (m := d) (n := depth.toNat) (by omega) ⟨x, hx⟩
    exact ⟨by omega, fun _ => by omega⟩
  · exact ⟨le_rfl, id⟩

/-- C44, at any depth, with the neighborhoods that are really compared, the scores being rounded by `rnd`.  On a
directed graph (simple or not) the projection raises nothing, in particular no division by zero; it is a simple undirected graph with the same nodes and attributes; two distinct nodes are
linked exactly when their neighborhoods have a common member at the same distance in the same direction, and
the weight is the Jaccard index of these neighborhoods, without the links between the two nodes.  The
neighborhood of a node is explored up to the distances `radii`, which depend on the nodes visited before and are
not always `depth` (see `selfSimilarity_depth_not_honoured`). -/
theorem selfSimilarityR_radii [AttrVal (Val K)] (rnd : K → K) {g : Graph V (Val K)} (hwf : g.WF) (hdir : g.directed = true)
    (hkw : ∀ n a, g.node.get? n = some a → Graph.NodeKwSafe a) (depth : Int) :
    ∃ m : Graph V (Val K), ∃ T : V → Finset (Tag V), selfSimilarityProjectionR rnd g depth = .ok m ∧ m.WF ∧
      m.directed = false ∧ m.multi = false ∧ m.attrs = [] ∧ m.node = g.node ∧
      (∀ n ∈ g.nodes, Neighborhood g n (radii g g.nodes depth n).1 (radii g g.nodes depth n).2 (T n)) ∧
      ∀ u v a, m.edge? u v (.int 0) = some a ↔ u ≠ v ∧ u ∈ g.nodes ∧ v ∈ g.nodes ∧ (T u ∩ T v).Nonempty ∧
        a = [(.str "weight", .num (rnd (tagSimilarity T u v)))] := by
  unfold selfSimilarityProjectionR
  rw [if_neg (by simp [hdir])]
  by_cases h0 : g.order = 0
  · have hnode : g.node = [] := List.length_eq_zero_iff.1 h0
    have hnodes : g.nodes = [] := by unfold Graph.nodes; rw [hnode]; rfl
    rw [if_pos h0]
    refine ⟨_, fun _ => ∅, rfl, by constructor <;> simp [Graph.empty, Graph.nodes, Dict.keys], rfl, rfl, rfl, hnode.symm, ?_, ?_⟩
    · intro n hn; rw [hnodes] at hn; cases hn
    · intro u v a
      simp [Graph.edge?, Graph.keydict?, Graph.empty, hnodes]
  · rw [if_neg h0]
    have hinit : SimInv rnd g depth (radii g g.nodes depth) [] (fun _ => []) [] [] (Graph.empty false false [] : Graph V (Val K)) := by
      refine ⟨?_, ?_, by constructor <;> simp [Graph.empty, Graph.nodes, Dict.keys], rfl, rfl, rfl, rfl, ?_, ?_, ?_, ?_⟩
      · intro k; rfl
      · intro m hm; cases hm
      · intro m hm; cases hm
      · intro m hm; cases hm
      · intro m hm; cases hm
      · intro u v d; simp [Graph.keydict?, Graph.empty, Dict.keys]
    obtain ⟨T, N, I, m, e, inv⟩ := selfSimilarityLoop_ok rnd hwf hdir g.node [] (fun _ => []) depth [] [] _ hwf.nodup
      (fun n hn => hn) (fun p hp => hkw p.1 p.2 (Dict.get?_of_mem hwf.nodup hp))
      (fun p hp => hwf.nodeAttrs p hp) ⟨le_refl _, id⟩ (fun _ _ => rfl) hinit
    rw [List.nil_append] at inv
    refine ⟨m, tagSets T, e, inv.wf, inv.directed, inv.multi, inv.attrs, inv.node, inv.radius, ?_⟩
    intro u v a
    unfold Graph.edge?
    rw [Option.bind_eq_some_iff]
    constructor
    · rintro ⟨d, hd, ha⟩
      obtain ⟨⟨h1, h2, h3, h4⟩, rfl⟩ := (inv.links u v d).1 hd
      refine ⟨h1, h2, h3, h4, ?_⟩
      simp [weightDict, Dict.get?_cons] at ha
      exact ha.symm
    · rintro ⟨h1, h2, h3, h4, rfl⟩
      exact ⟨_, (inv.links u v _).2 ⟨⟨h1, h2, h3, h4⟩, rfl⟩, by simp [weightDict, Dict.get?_cons]⟩

/-- C44, at any depth, with the neighborhoods that are really compared.  On a directed graph (simple or not)
the projection raises nothing, in particular no division by zero; it is a simple undirected graph with the same nodes and attributes; two distinct nodes are
linked exactly when their neighborhoods have a common member at the same distance in the same direction, and
the weight is the Jaccard index of these neighborhoods, without the links between the two nodes.  The
neighborhood of a node is explored up to the distances `radii`, which depend on the nodes visited before and are
not always `depth` (see `selfSimilarity_depth_not_honoured`). -/
theorem selfSimilarity_radii [AttrVal (Val K)] {g : Graph V (Val K)} (hwf : g.WF) (hdir : g.directed = true)
    (hkw : ∀ n a, g.node.get? n = some a → Graph.NodeKwSafe a) (depth : Int) :
    ∃ m : Graph V (Val K), ∃ T : V → Finset (Tag V), selfSimilarityProjection g depth = .ok m ∧ m.WF ∧
      m.directed = false ∧ m.multi = false ∧ m.attrs = [] ∧ m.node = g.node ∧
      (∀ n ∈ g.nodes, Neighborhood g n (radii g g.nodes depth n).1 (radii g g.nodes depth n).2 (T n)) ∧
      ∀ u v a, m.edge? u v (.int 0) = some a ↔ u ≠ v ∧ u ∈ g.nodes ∧ v ∈ g.nodes ∧ (T u ∩ T v).Nonempty ∧
        a = [(.str "weight", .num (tagSimilarity T u v))] :=
  selfSimilarityR_radii id hwf hdir hkw depth

/-- The distances really explored are at most the depth asked for, and at least 1. -/
theorem radii_bounds (g : Graph V A) (ns : List V) (depth : Int) (n : V) :
    (radii g ns depth n).2 ≤ (radii g ns depth n).1 ∧ (radii g ns depth n).1 ≤ depth ∧
      (1 ≤ depth → 1 ≤ (radii g ns depth n).2) := by
  induction ns generalizing depth with
  | nil => exact ⟨le_rfl, le_rfl, id⟩
  | cons m ns ih =>
    have h1 := Graph.reach_bounds g false m depth
    have h2 := Graph.reach_bounds g true m (g.reach false m depth)
    unfold radii
    split
    · exact ⟨h1.1, le_rfl, h1.2⟩
    · obtain ⟨i1, i2, i3⟩ := ih (g.reach true m (g.reach false m depth))
      exact ⟨i1, i2.trans (h2.1.trans h1.1), fun h => i3 (h2.2 (h1.2 h))⟩

/-- C44, at any depth, weaker form: the neighborhoods that are compared reach some distances at most `depth`. -/
theorem selfSimilarity_exact [AttrVal (Val K)] {g : Graph V (Val K)} (hwf : g.WF) (hdir : g.directed = true)
    (hkw : ∀ n a, g.node.get? n = some a → Graph.NodeKwSafe a) (depth : Int) :
    ∃ m : Graph V (Val K), ∃ T : V → Finset (Tag V), selfSimilarityProjection g depth = .ok m ∧ m.WF ∧
      m.directed = false ∧ m.multi = false ∧ m.attrs = [] ∧ m.node = g.node ∧
      (∀ n ∈ g.nodes, ∃ lo li, li ≤ lo ∧ lo ≤ depth ∧ (1 ≤ depth → 1 ≤ li) ∧ Neighborhood g n lo li (T n)) ∧
      ∀ u v a, m.edge? u v (.int 0) = some a ↔ u ≠ v ∧ u ∈ g.nodes ∧ v ∈ g.nodes ∧ (T u ∩ T v).Nonempty ∧
        a = [(.str "weight", .num (tagSimilarity T u v))] := by
  obtain ⟨m, T, h1, h2, h3, h4, h5, h6, h7, h8⟩ := selfSimilarity_radii hwf hdir hkw depth
  refine ⟨m, T, h1, h2, h3, h4, h5, h6, fun n hn => ?_, h8⟩
  obtain ⟨b1, b2, b3⟩ := radii_bounds g g.nodes depth n
  exact ⟨_, _, b1, b2, b3, h7 n hn⟩

/-- The depth asked for is the one explored around every node, in the two directions, as soon as every node has
no neighbor at all in a direction or a node at distance `depth`. -/
theorem radii_full {g : Graph V A} {depth : Int} (ns : List V)
    (h : ∀ n ∈ ns, ∀ reverse, (∃ x, IsDist (g.Step reverse) n x depth.toNat) ∨ ∀ x d, 1 ≤ d → ¬ IsDist (g.Step reverse) n x d)
    (hd : 1 ≤ depth) (n : V) : radii g ns depth n = (depth, depth) := by
  have hr : ∀ m ∈ ns, ∀ reverse, g.reach reverse m depth = depth := by
    intro m hm reverse
    classical
    unfold Graph.reach
    split
    · rename_i he
      rcases h m hm reverse with hf | hf
      · have : Nat.findGreatest (fun d => ∃ x, IsDist (g.Step reverse) m x d) depth.toNat = depth.toNat :=
          Nat.findGreatest_eq_iff.2 ⟨le_rfl, fun _ => hf, fun k hk hk' => by omega⟩
        rw [this]; omega
      · obtain ⟨d, x, hd1, _, hx⟩ := he
        exact absurd hx (hf x d hd1)
    · rfl
  clear h
  induction ns with
  | nil => rfl
  | cons m ns ih =>
    unfold radii
    rw [hr m List.mem_cons_self, hr m List.mem_cons_self]
    split
    · rfl
    · exact ih (fun m hm => hr m (List.mem_cons_of_mem _ hm))

/-- C44 at any depth, when no neighborhood ends before `depth`: the neighborhoods that are compared are those up
to `depth`. -/
theorem selfSimilarity_full [AttrVal (Val K)] {g : Graph V (Val K)} (hwf : g.WF) (hdir : g.directed = true)
    (hkw : ∀ n a, g.node.get? n = some a → Graph.NodeKwSafe a) {depth : Int} (hd : 1 ≤ depth)
    (h : ∀ n ∈ g.nodes, ∀ reverse, (∃ x, IsDist (g.Step reverse) n x depth.toNat) ∨
      ∀ x d, 1 ≤ d → ¬ IsDist (g.Step reverse) n x d) :
    ∃ m : Graph V (Val K), ∃ T : V → Finset (Tag V), selfSimilarityProjection g depth = .ok m ∧
      (∀ n ∈ g.nodes, Neighborhood g n depth depth (T n)) ∧
      ∀ u v a, m.edge? u v (.int 0) = some a ↔ u ≠ v ∧ u ∈ g.nodes ∧ v ∈ g.nodes ∧ (T u ∩ T v).Nonempty ∧
        a = [(.str "weight", .num (tagSimilarity T u v))] := by
  obtain ⟨m, T, h1, _, _, _, _, _, h7, h8⟩ := selfSimilarity_radii hwf hdir hkw depth
  refine ⟨m, T, h1, fun n hn => ?_, h8⟩
  have := h7 n hn
  rwa [radii_full g.nodes h hd] at this

/-- The tags of a node at depth 1. -/
theorem neighborhood_one {g : Graph V A} (hwf : g.WF) {n : V} {T : Finset (Tag V)} (h : Neighborhood g n 1 1 T) :
    T = (g.outs n).image (fun x => (true, 1, x)) ∪ (g.ins n).image (fun x => (false, 1, x)) := by
  ext ⟨out, d, x⟩
  rw [h, Finset.mem_union, Finset.mem_image, Finset.mem_image]
  simp only [Graph.outs, Graph.ins, List.mem_toFinset, List.mem_filter, Bool.and_eq_true, decide_eq_true_eq,
    Prod.mk.injEq, ite_self]
  have hx : 1 ≤ d ∧ (d : Int) ≤ 1 ↔ d = 1 := by omega
  rw [← and_assoc, hx]
  constructor
  · rintro ⟨rfl, hd⟩
    have hne : x ≠ n := by
      rintro rfl
      exact hd.2 0 (by omega) .nil
    have hs := (isDist_one hne.symm).1 hd
    cases out
    · simp only [Bool.not_false, Graph.Step, if_true] at hs
      exact .inr ⟨x, ⟨(Graph.hasEdge_mem hwf hs).1, hs, by simpa using hne⟩, rfl, rfl, rfl⟩
    · simp only [Bool.not_true, Graph.Step, Bool.false_eq_true, if_false] at hs
      exact .inl ⟨x, ⟨(Graph.hasEdge_mem hwf hs).2, hs, by simpa using hne⟩, rfl, rfl, rfl⟩
  · rintro (⟨y, ⟨_, he, hne⟩, rfl, rfl, rfl⟩ | ⟨y, ⟨_, he, hne⟩, rfl, rfl, rfl⟩)
    · refine ⟨rfl, (isDist_one (by simpa [eq_comm] using hne)).2 ?_⟩
      simpa [Graph.Step] using he
    · refine ⟨rfl, (isDist_one (by simpa [eq_comm] using hne)).2 ?_⟩
      simpa [Graph.Step] using he

theorem image_out_inj : Function.Injective (fun x : V => ((true, 1, x) : Tag V)) := by
  intro x y h; simpa using h

theorem image_in_inj : Function.Injective (fun x : V => ((false, 1, x) : Tag V)) := by
  intro x y h; simpa using h

theorem card_tags (B C : Finset V) :
    (B.image (fun x => ((true, 1, x) : Tag V)) ∪ C.image (fun x => ((false, 1, x) : Tag V))).card =
      B.card + C.card := by
  rw [Finset.card_union_of_disjoint, Finset.card_image_of_injective _ image_out_inj,
    Finset.card_image_of_injective _ image_in_inj]
  rw [Finset.disjoint_left]
  intro k h1 h2
  simp only [Finset.mem_image] at h1 h2
  obtain ⟨x, _, rfl⟩ := h1
  obtain ⟨y, _, h⟩ := h2
  simp at h

/-- C44.  With `depth = 1` the projection links two distinct nodes exactly when they have a common successor or
a common predecessor (other than themselves), with the similarity `linkSimilarity`. -/
theorem selfSimilarity_depth_one [AttrVal (Val K)] {g : Graph V (Val K)} (hwf : g.WF) (hdir : g.directed = true)
    (hkw : ∀ n a, g.node.get? n = some a → Graph.NodeKwSafe a) :
    ∃ m : Graph V (Val K), selfSimilarityProjection g 1 = .ok m ∧ m.WF ∧ m.directed = false ∧ m.multi = false ∧
      m.attrs = [] ∧ m.node = g.node ∧
      ∀ u v a, m.edge? u v (.int 0) = some a ↔ u ≠ v ∧ u ∈ g.nodes ∧ v ∈ g.nodes ∧
        ((g.outs u ∩ g.outs v).Nonempty ∨ (g.ins u ∩ g.ins v).Nonempty) ∧
        a = [(.str "weight", .num (linkSimilarity g u v))] := by
  obtain ⟨m, T, e, h1, h2, h3, h4, h5, h6, h7⟩ := selfSimilarity_exact hwf hdir hkw 1
  refine ⟨m, e, h1, h2, h3, h4, h5, ?_⟩
  have hT : ∀ n ∈ g.nodes, T n = (g.outs n).image (fun x => (true, 1, x)) ∪ (g.ins n).image (fun x => (false, 1, x)) := by
    intro n hn
    obtain ⟨lo, li, a1, a2, a3, a4⟩ := h6 n hn
    have hli : li = 1 := by have := a3 (le_refl _); omega
    have hlo : lo = 1 := by omega
    rw [hli, hlo] at a4
    exact neighborhood_one hwf a4
  have hinter : ∀ u ∈ g.nodes, ∀ v ∈ g.nodes, T u ∩ T v = (g.outs u ∩ g.outs v).image (fun x => (true, 1, x)) ∪
      (g.ins u ∩ g.ins v).image (fun x => (false, 1, x)) := by
    intro u hu v hv
    rw [hT u hu, hT v hv]
    ext ⟨out, d, x⟩
    cases out <;> simp only [Finset.mem_inter, Finset.mem_union, Finset.mem_image, Prod.mk.injEq, Bool.true_eq_false,
      Bool.false_eq_true, false_and, and_false, exists_false, false_or, or_false, true_and]
    · constructor
      · rintro ⟨⟨y, hy, rfl, rfl⟩, ⟨z, hz, _, rfl⟩⟩; exact ⟨_, ⟨hy, hz⟩, rfl, rfl⟩
      · rintro ⟨y, ⟨hy, hz⟩, rfl, rfl⟩; exact ⟨⟨_, hy, rfl, rfl⟩, ⟨_, hz, rfl, rfl⟩⟩
    · constructor
      · rintro ⟨⟨y, hy, rfl, rfl⟩, ⟨z, hz, _, rfl⟩⟩; exact ⟨_, ⟨hy, hz⟩, rfl, rfl⟩
      · rintro ⟨y, ⟨hy, hz⟩, rfl, rfl⟩; exact ⟨⟨_, hy, rfl, rfl⟩, ⟨_, hz, rfl, rfl⟩⟩
  have hunion : ∀ u ∈ g.nodes, ∀ v ∈ g.nodes, unlinked v (T u) ∪ unlinked u (T v) =
      ((g.outs u).erase v ∪ (g.outs v).erase u).image (fun x => (true, 1, x)) ∪
      ((g.ins u).erase v ∪ (g.ins v).erase u).image (fun x => (false, 1, x)) := by
    intro u hu v hv
    unfold unlinked
    rw [hT u hu, hT v hv]
    ext ⟨out, d, x⟩
    cases out <;> simp only [Finset.mem_filter, Finset.mem_union, Finset.mem_image, Finset.mem_erase, Prod.mk.injEq,
      Bool.true_eq_false, Bool.false_eq_true, false_and, and_false, exists_false, false_or, or_false, true_and]
    · constructor
      · rintro (⟨⟨y, hy, rfl, rfl⟩, hn⟩ | ⟨⟨y, hy, rfl, rfl⟩, hn⟩)
        · exact ⟨_, .inl ⟨fun hc => hn ⟨rfl, hc⟩, hy⟩, rfl, rfl⟩
        · exact ⟨_, .inr ⟨fun hc => hn ⟨rfl, hc⟩, hy⟩, rfl, rfl⟩
      · rintro ⟨y, ⟨hn, hy⟩ | ⟨hn, hy⟩, rfl, rfl⟩
        · exact .inl ⟨⟨_, hy, rfl, rfl⟩, fun hc => hn hc.2⟩
        · exact .inr ⟨⟨_, hy, rfl, rfl⟩, fun hc => hn hc.2⟩
    · constructor
      · rintro (⟨⟨y, hy, rfl, rfl⟩, hn⟩ | ⟨⟨y, hy, rfl, rfl⟩, hn⟩)
        · exact ⟨_, .inl ⟨fun hc => hn ⟨rfl, hc⟩, hy⟩, rfl, rfl⟩
        · exact ⟨_, .inr ⟨fun hc => hn ⟨rfl, hc⟩, hy⟩, rfl, rfl⟩
      · rintro ⟨y, ⟨hn, hy⟩ | ⟨hn, hy⟩, rfl, rfl⟩
        · exact .inl ⟨⟨_, hy, rfl, rfl⟩, fun hc => hn hc.2⟩
        · exact .inr ⟨⟨_, hy, rfl, rfl⟩, fun hc => hn hc.2⟩
  intro u v a
  rw [h7]
  refine and_congr_right fun _ => and_congr_right fun hu => and_congr_right fun hv => and_congr ?_ ?_
  · rw [hinter u hu v hv, Finset.union_nonempty, Finset.image_nonempty, Finset.image_nonempty]
  · unfold tagSimilarity linkSimilarity
    rw [hinter u hu v hv, hunion u hu v hv, card_tags, card_tags]

/-- C44: every weight of the projection is in (0, 1], at any depth. -/
theorem selfSimilarity_range [AttrVal (Val K)] {g : Graph V (Val K)} (hwf : g.WF) (hdir : g.directed = true)
    (hkw : ∀ n a, g.node.get? n = some a → Graph.NodeKwSafe a) (depth : Int) {m : Graph V (Val K)}
    (hm : selfSimilarityProjection g depth = .ok m) {u v : V} {k : PyKey} {a : Attrs (Val K)}
    (he : m.edge? u v k = some a) : ∃ x : K, a = [(.str "weight", .num x)] ∧ 0 < x ∧ x ≤ 1 := by
  obtain ⟨m', T, e, h1, h2, h3, h4, h5, h6, h7⟩ := selfSimilarity_exact hwf hdir hkw depth
  rw [e] at hm
  cases hm
  have hk : k = .int 0 := by
    unfold Graph.edge? at he
    obtain ⟨d, hd, ha⟩ := Option.bind_eq_some_iff.1 he
    obtain ⟨l, hl, hs, rfl⟩ := (Graph.keydict?_eq_some h1).1 hd
    have := Dict.mem_keys_of_mem (Dict.mem_of_get? ha)
    rw [h1.simple h3 l hl] at this
    simpa using this
  subst hk
  obtain ⟨_, hu, hv, hne, rfl⟩ := (h7 u v a).1 he
  obtain ⟨_, _, _, _, _, hTu⟩ := h6 u hu
  obtain ⟨_, _, _, _, _, hTv⟩ := h6 v hv
  obtain ⟨p1, p2⟩ := union_pos hTu hTv hne
  refine ⟨_, rfl, ?_⟩
  unfold tagSimilarity
  have q1 : (0 : K) < ((T u ∩ T v).card : K) := by exact_mod_cast p2
  have q2 : (0 : K) < ((unlinked v (T u) ∪ unlinked u (T v)).card : K) := by exact_mod_cast (by omega : 0 < (unlinked v (T u) ∪ unlinked u (T v)).card)
  refine ⟨div_pos q1 q2, (div_le_one q2).2 ?_⟩
  exact_mod_cast p1

/-- An undirected graph is refused. -/
theorem selfSimilarity_undirected [AttrVal (Val K)] {g : Graph V (Val K)} (h : g.directed = false) (depth : Int) :
    selfSimilarityProjection g depth = .error .notImplementedError := by
  unfold selfSimilarityProjection selfSimilarityProjectionR
  simp [h]

/-- A chain `1 → 2`, and two chains which meet: `3 → 4 → 7`, `5 → 6 → 7`. -/
def chains : Graph Nat (Val ℚ) :=
  ⟨true, false, [], [(1, [(.str "label", .str "a")]), (2, []), (3, []), (4, []), (5, []), (6, []), (7, [])],
    [⟨1, 2, [(.int 0, [])]⟩, ⟨3, 4, [(.int 0, [])]⟩, ⟨4, 7, [(.int 0, [])]⟩, ⟨5, 6, [(.int 0, [])]⟩,
      ⟨6, 7, [(.int 0, [])]⟩]⟩

/-- The same graph, the nodes 1 and 2 being last. -/
def chainsLast : Graph Nat (Val ℚ) :=
  ⟨true, false, [], [(3, []), (5, []), (4, []), (6, []), (7, []), (1, [(.str "label", .str "a")]), (2, [])],
    [⟨1, 2, [(.int 0, [])]⟩, ⟨3, 4, [(.int 0, [])]⟩, ⟨4, 7, [(.int 0, [])]⟩, ⟨5, 6, [(.int 0, [])]⟩,
      ⟨6, 7, [(.int 0, [])]⟩]⟩

/-- Non-triviality of `selfSimilarity_depth_one`, `selfSimilarity_radii`, `selfSimilarity_exact` and `bfsFromNode_exact`. -/
theorem chains_ok : chains.WF ∧ chains.directed = true ∧ 3 ∈ chains.nodes ∧
    ∀ n a, chains.node.get? n = some a → Graph.NodeKwSafe a := by
  refine ⟨by constructor <;> decide, rfl, by decide, ?_⟩
  intro n a h
  have := Dict.mem_of_get? h
  simp only [chains, List.mem_cons, Prod.mk.injEq, List.not_mem_nil, or_false] at this
  rcases this with ⟨_, rfl⟩ | ⟨_, rfl⟩ | ⟨_, rfl⟩ | ⟨_, rfl⟩ | ⟨_, rfl⟩ | ⟨_, rfl⟩ | ⟨_, rfl⟩ <;>
    simp [Graph.NodeKwSafe, Dict.keys]

/-- C44 is false with `depth = 2`: nodes 3 and 5 are both at distance 2 of node 7, and are not linked; they are
when the nodes of the graph come in another order.  The search from node 1 has overwritten the depth. -/
theorem selfSimilarity_depth_not_honoured :
    IsDist (chains.Step false) 3 7 2 ∧ IsDist (chains.Step false) 5 7 2 ∧
    (selfSimilarityProjection chains 2).map (·.hasEdge 3 5) = .ok false ∧
    (selfSimilarityProjection chainsLast 2).map (·.hasEdge 3 5) = .ok true := by
  have h := fun s hs => (bfsFromNode_exact chains_ok.1 chains_ok.2.1 (source := s) hs false 2).2.1 7 2
  refine ⟨((h 3 (by decide)).1 (by decide +kernel)).2.2, ((h 5 (by decide)).1 (by decide +kernel)).2.2, ?_⟩
  decide +kernel

/-- The projection of `chains` at depth 1: 4 and 6 have the successor 7 in common. -/
example : (selfSimilarityProjection chains 1).map (·.edges) = .ok [(4, 6)] ∧
    (selfSimilarityProjection chains 1).map (·.edge? 4 6 (.int 0)) = .ok (some [(.str "weight", .num (1 / 3))]) := by
  decide +kernel

/-- A cycle, where every node has another one at distance 2 in both directions, and node 7 linked as node 0. -/
def cycleTwin : Graph Nat (Val ℚ) :=
  ⟨true, false, [], [(0, []), (1, []), (2, []), (3, []), (4, []), (7, [])],
    [⟨0, 1, [(.int 0, [])]⟩, ⟨1, 2, [(.int 0, [])]⟩, ⟨2, 3, [(.int 0, [])]⟩, ⟨3, 4, [(.int 0, [])]⟩,
      ⟨4, 0, [(.int 0, [])]⟩, ⟨7, 1, [(.int 0, [])]⟩, ⟨4, 7, [(.int 0, [])]⟩]⟩

/-- Non-triviality of `selfSimilarity_full` and `radii_full`. -/
theorem cycleTwin_full : cycleTwin.WF ∧ ∀ n ∈ cycleTwin.nodes, ∀ reverse,
    (∃ x, IsDist (cycleTwin.Step reverse) n x (2 : Int).toNat) ∨
      ∀ x d, 1 ≤ d → ¬ IsDist (cycleTwin.Step reverse) n x d := by
  have hwf : cycleTwin.WF := by constructor <;> decide
  refine ⟨hwf, fun n hn reverse => .inl ?_⟩
  have h := fun x => (bfsFromNode_exact hwf rfl hn reverse 2).2.1 x 2
  have hx : ∀ n ∈ cycleTwin.nodes, ∀ reverse : Bool, ∃ x ∈ cycleTwin.nodes,
      (x, 2) ∈ (bfsFromNode cycleTwin n reverse 2).yields := by decide +kernel
  obtain ⟨x, _, hx⟩ := hx n hn reverse
  exact ⟨x, ((h x).1 hx).2.2⟩

example : (selfSimilarityProjection cycleTwin 2).map (·.edge? 0 7 (.int 0)) =
    .ok (some [(.str "weight", .num 1)]) := by
  decide +kernel

/-- Links in both directions between two similar nodes are left aside, a loop too: 1 and 2 link each other, and
both link 3. -/
def pair : Graph Nat (Val ℚ) :=
  ⟨true, false, [], [(1, []), (2, []), (3, [])],
    [⟨1, 2, [(.int 0, [])]⟩, ⟨2, 1, [(.int 0, [])]⟩, ⟨1, 3, [(.int 0, [])]⟩, ⟨2, 3, [(.int 0, [])]⟩, ⟨1, 1, [(.int 0, [])]⟩]⟩

example : (selfSimilarityProjection pair 1).map (·.edge? 1 2 (.int 0)) = .ok (some [(.str "weight", .num 1)]) := by
  decide +kernel

end Pelote
