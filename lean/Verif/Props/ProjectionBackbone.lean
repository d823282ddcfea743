import Verif.Props.Pmi
import Verif.Props.BackboneSize

/-! C117: the multiscale backbone of a projection, in terms of the bipartite graph. -/
set_option linter.unusedSectionVars false
namespace Pelote

section
variable {V : Type} [LinearOrder V] [PyOrd V] [AttrVal (Val ℝ)] {g : Graph V (Val ℝ)} {part : Part V ℝ}
  {partAttr weightAttr : String} {check : Bool} {w : V → V → ℝ}

/-- The other nodes with which a node shares a neighbor. -/
def Graph.coNeighbors {A : Type} (g : Graph V A) (n : V) : Finset V := ((g.nbhd n).biUnion g.nbhd).erase n

/-- The probability, under the null hypothesis of the disparity filter, that one of the links of `u` to the nodes with which it shares
a neighbor is worth what the link to `v` is worth. -/
noncomputable def coDisparity (kind : Metric) (g : Graph V (Val ℝ)) (w : V → V → ℝ) (u v : V) : ℝ :=
  (1 - similarity kind (g.nbhd u) (g.nbhd v) (w u) (w v) /
    ∑ z ∈ g.coNeighbors u, similarity kind (g.nbhd u) (g.nbhd z) (w u) (w z)) ^ ((g.coNeighbors u).card - 1)

omit [PyOrd V] [AttrVal (Val ℝ)] in
/-- The strength of a node of a simple graph. -/
theorem nodeStrength_simple {m : Graph V (Val ℝ)} (h : m.WF) (hd : m.directed = false) (hm : m.multi = false) {s : V → V → ℝ}
    (hs : ∀ u v, s u v = s v u) {n : V} (hn : m.hasEdge n n = false) : m.nodeStrength s n = ∑ v ∈ m.nbhd n, s n v := by
  unfold Graph.nodeStrength
  rw [← sum_edgesOf h hd s hs n]
  have hone : ∀ p ∈ m.adj n, p.2.length = 1 := by
    intro q hq
    unfold Graph.adj at hq
    obtain ⟨l, hl, hq⟩ := List.mem_filterMap.1 hq
    have hlen := congrArg List.length (h.simple hm l hl)
    have : q.2 = l.data := by
      unfold Graph.Link.from? at hq
      split at hq
      · cases hq; rfl
      · split at hq
        · cases hq; rfl
        · cases hq
    rw [this]
    simpa [Dict.keys] using hlen
  have hends : (m.edgesOf n).map (fun e => e.2.1) = m.neighbors n := by
    unfold Graph.edgesOf Graph.neighbors
    generalize m.adj n = l at *
    induction l with
    | nil => rfl
    | cons p l ih =>
      rw [List.flatMap_cons, List.map_append, ih fun q hq => hone q (List.mem_cons_of_mem _ hq), List.map_cons]
      obtain ⟨x, hx⟩ := List.length_eq_one_iff.1 (hone p List.mem_cons_self)
      rw [hx]
      rfl
  have hfil : (m.edgesOf n).filter (fun e => decide (e.2.1 = n)) = [] := by
    refine List.filter_eq_nil_iff.2 fun e he => ?_
    simp only [decide_eq_true_eq]
    intro hen
    have : n ∈ m.neighbors n := by rw [← hends]; exact List.mem_map.2 ⟨e, he, hen⟩
    rw [Graph.mem_neighbors, hn] at this
    cases this
  rw [hfil, List.map_nil, List.sum_nil, add_zero, nbhd_eq h, List.sum_toFinset _ (Graph.neighbors_nodup h n), ← hends, List.map_map]
  rfl

omit [PyOrd V] [AttrVal (Val ℝ)] in
theorem degree_simple {m : Graph V (Val ℝ)} (h : m.WF) (hd : m.directed = false) (hm : m.multi = false) {n : V}
    (hn : m.hasEdge n n = false) : m.degree n = (m.nbhd n).card := by
  have h1 := nodeStrength_uniform h (w := fun _ _ => 1) (c := 1) (fun _ _ => rfl) n
  rw [nodeStrength_simple h hd hm (fun _ _ => rfl) hn] at h1
  simp only [Finset.sum_const, nsmul_eq_mul, mul_one, one_mul] at h1
  exact_mod_cast h1.symm

/-- The similarities are above 0 between nodes sharing a neighbor, except by pointwise mutual information; for those using the weights
when these are. -/
theorem similarity_positive {kind : Metric} (hp : kind ≠ .pmi) {A B : Finset V} (h : (A ∩ B).Nonempty) {a b : V → ℝ}
    (hw : kind = .cosine ∨ kind = .dotProduct → (∀ t ∈ A, 0 < a t) ∧ ∀ t ∈ B, 0 < b t) : 0 < similarity kind A B a b := by
  cases kind with
  | pmi => exact absurd rfl hp
  | intersection => simp only [similarity]; exact_mod_cast Finset.card_pos.2 h
  | jaccard => exact (jaccard_range A B a b h).1
  | overlap => exact (overlap_range A B a b h).1
  | dice => exact (dice_range A B a b h).1
  | binaryCosine => exact (binaryCosine_range A B a b h).1
  | cosine => exact (cosine_range A B a b h (hw (.inl rfl)).1 (hw (.inl rfl)).2).1
  | dotProduct =>
    obtain ⟨h1, h2⟩ := hw (.inr rfl)
    exact Finset.sum_pos (fun t ht => mul_pos (h1 t (Finset.mem_inter.1 ht).1) (h2 t (Finset.mem_inter.1 ht).2)) h

/-- C117.  The multiscale backbone of a projection always exists, and links two nodes of the part exactly when they share a neighbor
and their similarity is significant for one of them among the nodes with which it shares a neighbor. -/
theorem projection_backbone (ulongMax : Nat) (ho : OrderedKeys V) {kind : Metric} (hp : kind ≠ .pmi)
    (h : Projectable g part partAttr weightAttr kind check w)
    (hw : kind = .cosine ∨ kind = .dotProduct → ∀ u v, g.hasEdge u v = true → 0 < w u v)
    {metric : Option String} (hn : (metric, kind) ∈ metricNames) (alpha : ℝ) :
    ∃ m b, monopartiteProjection g part partAttr weightAttr metric check none = .ok m ∧
      multiscaleBackbone ulongMax m alpha "weight" false = .ok b ∧ b.node = m.node ∧ b.edgesData.Sublist m.edgesData ∧
      (∀ n, n ∈ b.nodes ↔ InPart g partAttr part n) ∧
      ∀ u v, b.hasEdge u v = true ↔ u ≠ v ∧ InPart g partAttr part u ∧ InPart g partAttr part v ∧ (g.nbhd u ∩ g.nbhd v).Nonempty ∧
        (coDisparity kind g w u v ≤ alpha ∨ coDisparity kind g w v u ≤ alpha) := by
  obtain ⟨m, h1, h2, h3⟩ := projection_exact_real h hn (threshold := none) (by simp)
  obtain ⟨hd, hm, -⟩ := projection_nodes_partial _ _ _ _ _ _ _ h.wf h.notFrozen h1
  have hE : ∀ u v, m.hasEdge u v = true ↔
      u ≠ v ∧ InPart g partAttr part u ∧ InPart g partAttr part v ∧ (g.nbhd u ∩ g.nbhd v).Nonempty := by
    intro u v
    constructor
    · intro he
      obtain ⟨a, ha⟩ := edge_exists h2 hm he
      obtain ⟨c1, c2, c3, c4, -⟩ := (h3 u v a).1 ha
      exact ⟨c1, c2, c3, c4⟩
    · rintro ⟨c1, c2, c3, c4⟩
      exact hasEdge_of_edge? ((h3 u v _).2 ⟨c1, c2, c3, c4, reaches_none _, rfl⟩)
  obtain ⟨s, hs⟩ : ∃ s : V → V → ℝ, ∀ u v, s u v = similarity kind (g.nbhd u) (g.nbhd v) (w u) (w v) := ⟨_, fun _ _ => rfl⟩
  have hsym : ∀ u v, s u v = s v u := by
    intro u v
    rw [hs, hs]
    cases kind <;> simp [similarity, Finset.inter_comm, Finset.union_comm, mul_comm, min_comm, add_comm]
  have hed : ∀ u v a, m.edge? u v (.int 0) = some a → a = [(.str "weight", .num (s u v))] := fun u v a ha => by
    rw [hs]; exact ((h3 u v a).1 ha).2.2.2.2.2
  have hwt : m.Weighted "weight" s := weighted_links h2 hm hed
  have hpos : ∀ u v, m.hasEdge u v = true → 0 < s u v := by
    intro u v he
    rw [hs]
    exact similarity_positive hp ((hE u v).1 he).2.2.2 fun hc =>
      ⟨fun t ht => hw hc u t ((mem_nbhd h.wf).1 ht), fun t ht => hw hc v t ((mem_nbhd h.wf).1 ht)⟩
  have hkw : ∀ e ∈ m.edgesData, Graph.EdgeKwSafe m.multi e.2.2 := by
    rintro ⟨u, v, a⟩ he k hk
    rw [hed u v a (simple_edgesData h2 hm he)] at hk
    rw [hm]
    exact ⟨"weight", by simpa [Dict.keys] using hk, by simp⟩
  have hloop : ∀ n, m.hasEdge n n = false := by
    intro n
    cases he : m.hasEdge n n with
    | false => rfl
    | true => exact absurd rfl ((hE n n).1 he).1
  have hco : ∀ u, InPart g partAttr part u → m.nbhd u = g.coNeighbors u := by
    intro u hu
    ext v
    unfold Graph.coNeighbors
    rw [mem_nbhd h2, hE, Finset.mem_erase, Finset.mem_biUnion]
    constructor
    · rintro ⟨c1, -, -, t, ht⟩
      rw [Finset.mem_inter] at ht
      refine ⟨c1.symm, t, ht.1, ?_⟩
      rw [mem_nbhd h.wf, Graph.hasEdge_comm h.undirected]
      exact (mem_nbhd h.wf).1 ht.2
    · rintro ⟨c1, t, ht, hv⟩
      rw [mem_nbhd h.wf] at ht hv
      refine ⟨c1.symm, hu, ?_, t, Finset.mem_inter.2 ⟨(mem_nbhd h.wf).2 ht, ?_⟩⟩
      · have e1 := h.bipartite u t ht
        have e2 := h.bipartite t v hv
        tauto
      · rw [mem_nbhd h.wf, Graph.hasEdge_comm h.undirected]
        exact hv
  have hdis : ∀ u v, InPart g partAttr part u →
      (1 - s u v / m.nodeStrength s u) ^ (m.degree u - 1) = coDisparity kind g w u v := by
    intro u v hu
    rw [nodeStrength_simple h2 hd hm hsym (hloop u), degree_simple h2 hd hm (hloop u), hco u hu]
    unfold coDisparity
    simp only [hs]
  obtain ⟨b, b1, b2, b3, b4, -, b6, b7⟩ := multiscaleBackbone_exact ulongMax ho h2 hd hm hsym hwt hpos alpha false (by simp) hkw
  refine ⟨m, b, h1, b1, b6, b7 ▸ List.filter_sublist, fun n => ?_, fun u v => ?_⟩
  · have : b.nodes = m.nodes := by unfold Graph.nodes; rw [b6]
    rw [this]
    exact projection_part h.wf h.notFrozen h1 n
  · have hbE : ∀ x y, (x, y) ∈ b.edges ↔ (x, y) ∈ m.edges ∧ m.disparity s x y ≤ alpha := by
      intro x y
      rw [mem_edges, mem_edges, b7]
      simp only [List.mem_filter, Bool.false_eq_true, false_and, or_false, decide_eq_true_eq]
      exact exists_and_right
    have hds : ∀ x y, m.disparity s x y = m.disparity s y x := by
      intro x y
      unfold Graph.disparity
      rw [hsym y x, min_comm]
    have : b.hasEdge u v = true ↔ m.hasEdge u v = true ∧ m.disparity s u v ≤ alpha := by
      rw [hasEdge_listed b2, hasEdge_listed h2, hbE, hbE, b3, hds v u]
      tauto
    rw [this, hE]
    constructor
    · rintro ⟨⟨c1, c2, c3, c4⟩, c5⟩
      refine ⟨c1, c2, c3, c4, ?_⟩
      unfold Graph.disparity at c5
      rw [min_le_iff, hdis u v c2, hsym u v, hdis v u c3] at c5
      exact c5
    · rintro ⟨c1, c2, c3, c4, c5⟩
      refine ⟨⟨c1, c2, c3, c4⟩, ?_⟩
      unfold Graph.disparity
      rw [min_le_iff, hdis u v c2, hsym u v, hdis v u c3]
      exact c5

/-- C117.  Without a metric, the score of a link of `u` is given by the number of shared neighbors, the degrees of the neighbors of `u`
and the number of nodes with which it shares some. -/
theorem coDisparity_counts (h : g.WF) (hd : g.directed = false) (u v : V) :
    coDisparity .intersection g w u v =
      (1 - ((g.nbhd u ∩ g.nbhd v).card : ℝ) / ∑ t ∈ g.nbhd u, (((g.nbhd t).card - 1 : ℕ) : ℝ)) ^ ((g.coNeighbors u).card - 1) := by
  have hcomm : ∀ a b, a ∈ g.nbhd b ↔ b ∈ g.nbhd a := by
    intro a b
    rw [mem_nbhd h, mem_nbhd h, Graph.hasEdge_comm hd]
  have : ∑ z ∈ g.coNeighbors u, ((g.nbhd u ∩ g.nbhd z).card : ℝ) = ∑ t ∈ g.nbhd u, (((g.nbhd t).card - 1 : ℕ) : ℝ) := by
    have h1 : ∑ z ∈ g.coNeighbors u, ∑ t ∈ g.nbhd u ∩ g.nbhd z, (1 : ℝ) = ∑ t ∈ g.nbhd u, ∑ z ∈ (g.nbhd t).erase u, (1 : ℝ) := by
      refine Finset.sum_comm' fun z t => ?_
      unfold Graph.coNeighbors
      rw [Finset.mem_erase, Finset.mem_biUnion, Finset.mem_inter, Finset.mem_erase, hcomm z t]
      constructor
      · rintro ⟨⟨c1, -⟩, c2, c3⟩
        exact ⟨⟨c1, c3⟩, c2⟩
      · rintro ⟨⟨c1, c3⟩, c2⟩
        exact ⟨⟨c1, t, c2, (hcomm _ _).1 c3⟩, c2, c3⟩
    simp only [Finset.sum_const, nsmul_eq_mul, mul_one] at h1
    rw [h1]
    refine Finset.sum_congr rfl fun t ht => ?_
    rw [Finset.card_erase_of_mem ((hcomm _ _).1 ht)]
  unfold coDisparity
  simp only [similarity]
  rw [this]

/-- C117.  If no two nodes of the part share more than one neighbor, the backbone of the projection without metric has no edge at all
as soon as `alpha` is at most `1 / e`. -/
theorem projection_backbone_once (ulongMax : Nat) (ho : OrderedKeys V) (h : Projectable g part partAttr weightAttr .intersection check w)
    (hone : ∀ u v, u ≠ v → InPart g partAttr part u → InPart g partAttr part v → (g.nbhd u ∩ g.nbhd v).card ≤ 1)
    {alpha : ℝ} (ha : alpha ≤ Real.exp (-1)) :
    ∃ m b, monopartiteProjection g part partAttr weightAttr none check none = .ok m ∧
      multiscaleBackbone ulongMax m alpha "weight" false = .ok b ∧ (∀ n, n ∈ b.nodes ↔ InPart g partAttr part n) ∧
      ∀ u v, b.hasEdge u v = false := by
  obtain ⟨m, b, h1, h2, -, -, h3, h4⟩ := projection_backbone ulongMax ho (by simp) h (by simp) (metric := none) (by simp [metricNames]) alpha
  refine ⟨m, b, h1, h2, h3, fun u v => ?_⟩
  have key : ∀ u v, u ≠ v → InPart g partAttr part u → InPart g partAttr part v → (g.nbhd u ∩ g.nbhd v).Nonempty →
      alpha < coDisparity .intersection g w u v := by
    intro u v hne hu hv hs
    refine ha.trans_lt (lt_of_lt_of_eq (equalScore_gt (g.coNeighbors u).card) ?_)
    have hval : ∀ z, z ≠ u → InPart g partAttr part z → (g.nbhd u ∩ g.nbhd z).Nonempty →
        similarity .intersection (g.nbhd u) (g.nbhd z) (w u) (w z) = 1 := by
      intro z hz pz hsz
      have e1 := hone u z hz.symm hu pz
      have e2 := Finset.card_pos.2 hsz
      have : (g.nbhd u ∩ g.nbhd z).card = 1 := by omega
      simp only [similarity, this, Nat.cast_one]
    have hsum : ∑ z ∈ g.coNeighbors u, similarity .intersection (g.nbhd u) (g.nbhd z) (w u) (w z) = (g.coNeighbors u).card := by
      rw [Finset.sum_congr rfl fun z hz => ?_, Finset.sum_const, nsmul_eq_mul, mul_one]
      unfold Graph.coNeighbors at hz
      rw [Finset.mem_erase, Finset.mem_biUnion] at hz
      obtain ⟨c1, t, c2, c3⟩ := hz
      rw [mem_nbhd h.wf] at c2 c3
      refine hval z c1 ?_ ⟨t, Finset.mem_inter.2 ⟨(mem_nbhd h.wf).2 c2, (mem_nbhd h.wf).2 (by rwa [Graph.hasEdge_comm h.undirected])⟩⟩
      have e1 := h.bipartite u t c2
      have e2 := h.bipartite t z c3
      tauto
    unfold coDisparity equalScore
    rw [hsum, hval v hne.symm hv hs]
  cases he : b.hasEdge u v with
  | false => rfl
  | true =>
    obtain ⟨c1, c2, c3, c4, c5⟩ := (h4 u v).1 he
    rcases c5 with c5 | c5
    · exact absurd c5 (not_le.2 (key u v c1 c2 c3 c4))
    · exact absurd c5 (not_le.2 (key v u c1.symm c3 c2 (by rwa [Finset.inter_comm])))

end

/-- Account 1 shares pages 10 to 12 with account 2 and page 13 with account 3. -/
def unevenPages : Graph Int (Val ℝ) :=
  ⟨false, false, [], [(1, []), (2, []), (3, []), (10, []), (11, []), (12, []), (13, [])],
    [⟨1, 10, [(.int 0, [])]⟩, ⟨1, 11, [(.int 0, [])]⟩, ⟨1, 12, [(.int 0, [])]⟩, ⟨1, 13, [(.int 0, [])]⟩,
     ⟨2, 10, [(.int 0, [])]⟩, ⟨2, 11, [(.int 0, [])]⟩, ⟨2, 12, [(.int 0, [])]⟩, ⟨3, 13, [(.int 0, [])]⟩]⟩

theorem unevenPages_projectable (check : Bool) :
    Projectable unevenPages (.collection [1, 2, 3]) "part" "weight" .intersection check (fun _ _ => 1) := by
  have hwf : unevenPages.WF := by constructor <;> decide
  refine ⟨hwf, rfl, rfl, by simp, ⟨1, by decide, by decide⟩, ?_, fun _ _ _ _ => rfl, ?_, by simp, by simp, by simp⟩
  · intro u v he
    obtain ⟨d, hd⟩ := Option.isSome_iff_exists.1 he
    obtain ⟨l, hl, hs, rfl⟩ := (Graph.keydict?_eq_some hwf).1 hd
    have hs := samePair_iff.1 hs
    simp only [InPart, unevenPages, Graph.nodes, Dict.keys, List.map_cons, List.map_nil, List.mem_cons,
      List.not_mem_nil, or_false] at hl ⊢
    rcases hl with rfl | rfl | rfl | rfl | rfl | rfl | rfl | rfl <;> rcases hs with ⟨rfl, rfl⟩ | ⟨_, rfl, rfl⟩ <;> simp
  · intro n a ha _
    have : a = [] := by
      have := Dict.mem_of_get? ha
      simp only [unevenPages, List.mem_cons, Prod.mk.injEq, List.not_mem_nil, or_false] at this
      rcases this with h | h | h | h | h | h | h <;> exact h.2
    subst this
    intro k hk
    simp [Dict.erase, Dict.keys] at hk

/-- C117.  A case: the backbone of the projection with `alpha = 1 / 3` links accounts 1 and 2 but not 1 and 3. -/
theorem projection_backbone_sample [AttrVal (Val ℝ)] (ulongMax : Nat) :
    ∃ m b, monopartiteProjection unevenPages (.collection [1, 2, 3]) "part" "weight" none true none = .ok m ∧
      multiscaleBackbone ulongMax m (1 / 3) "weight" false = .ok b ∧ b.hasEdge 1 2 = true ∧ m.hasEdge 1 3 = true ∧
      b.hasEdge 1 3 = false := by
  have hp := unevenPages_projectable true
  obtain ⟨m, b, h1, h2, -, -, -, h4⟩ := projection_backbone ulongMax (fun _ _ => rfl) (by simp) hp (by simp) (metric := none)
    (by simp [metricNames]) (1 / 3)
  obtain ⟨m', h1', -, h3, -⟩ := projection_linkWeight sqrt_pos_real (fun _ h => h) hp (metric := none) (by simp [metricNames])
  rw [h1] at h1'
  cases h1'
  have n1 : unevenPages.nbhd 1 = {10, 11, 12, 13} := by decide
  have n3 : unevenPages.nbhd 3 = {13} := by decide
  have c1 : (unevenPages.coNeighbors 1).card = 2 := by decide
  have c3 : (unevenPages.coNeighbors 3).card = 1 := by decide
  have d10 : (unevenPages.nbhd 10).card = 2 := by decide
  have d11 : (unevenPages.nbhd 11).card = 2 := by decide
  have d12 : (unevenPages.nbhd 12).card = 2 := by decide
  have d13 : (unevenPages.nbhd 13).card = 2 := by decide
  have s12 : (unevenPages.nbhd 1 ∩ unevenPages.nbhd 2).card = 3 := by decide
  have s13 : (unevenPages.nbhd 1 ∩ unevenPages.nbhd 3).card = 1 := by decide
  have t1 : ∑ t ∈ unevenPages.nbhd 1, (((unevenPages.nbhd t).card - 1 : ℕ) : ℝ) = 4 := by
    rw [n1, Finset.sum_insert (by decide), Finset.sum_insert (by decide), Finset.sum_insert (by decide), Finset.sum_singleton,
      d10, d11, d12, d13]
    norm_num
  have e12 : coDisparity .intersection unevenPages (fun _ _ => 1) 1 2 = 1 / 4 := by
    rw [coDisparity_counts hp.wf rfl, t1, c1, s12]; norm_num
  have e13 : coDisparity .intersection unevenPages (fun _ _ => 1) 1 3 = 3 / 4 := by
    rw [coDisparity_counts hp.wf rfl, t1, c1, s13]; norm_num
  have e31 : coDisparity .intersection unevenPages (fun _ _ => 1) 3 1 = 1 := by
    rw [coDisparity_counts hp.wf rfl, c3]; norm_num
  refine ⟨m, b, h1, h2, (h4 1 2).2 ⟨by decide, ⟨by decide, by decide⟩, ⟨by decide, by decide⟩, by decide, .inl ?_⟩,
    (h3 1 3).2 ⟨by decide, ⟨by decide, by decide⟩, ⟨by decide, by decide⟩, by decide⟩, ?_⟩
  · rw [e12]; norm_num
  · cases he : b.hasEdge 1 3 with
    | false => rfl
    | true =>
      obtain ⟨-, -, -, -, hc⟩ := (h4 1 3).1 he
      rw [e13, e31] at hc
      norm_num at hc

/-- Non-triviality: two accounts sharing a single page are not linked in the backbone. -/
example [AttrVal (Val ℝ)] (ulongMax : Nat) :
    ∃ m b, monopartiteProjection sharedPage (.collection [1, 2]) "part" "weight" none true none = .ok m ∧
      multiscaleBackbone ulongMax m (1 / 20) "weight" false = .ok b ∧
      (∀ n, n ∈ b.nodes ↔ InPart sharedPage "part" (.collection [1, 2]) n) ∧ ∀ u v, b.hasEdge u v = false := by
  have hp : Projectable sharedPage (.collection [1, 2]) "part" "weight" .intersection true (fun _ _ => 1) :=
    { sharedPage_projectable true with weights := by simp, cosine := by simp }
  refine projection_backbone_once ulongMax (fun _ _ => rfl) hp ?_ ?_
  · rintro u v - ⟨-, hu⟩ ⟨-, hv⟩
    simp only [List.mem_cons, List.not_mem_nil, or_false] at hu hv
    rcases hu with rfl | rfl <;> rcases hv with rfl | rfl <;> decide
  · have := Real.add_one_le_exp (-1 : ℝ)
    have h2 := Real.exp_one_lt_d9
    rw [Real.exp_neg, div_le_iff₀ (by norm_num)]
    have := Real.exp_pos 1
    rw [inv_mul_eq_div, le_div_iff₀ this]
    linarith

end Pelote
