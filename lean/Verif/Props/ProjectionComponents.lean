import Verif.Props.ProjectionBackbone
import Verif.Props.Components

/-! C118: the connected components of a projection are those of the bipartite graph. -/
set_option linter.unusedSectionVars false
namespace Pelote

section
variable {V K : Type} [LinearOrder V] [PyOrd V] [Field K] [LinearOrder K] [IsStrictOrderedRing K] [PyMath K] [AttrVal (Val K)]
  {g : Graph V (Val K)} {part : Part V K} {partAttr weightAttr : String} {kind : Metric} {check : Bool} {w : V → V → K}

/-- Nodes of the part linked through the bipartite graph are linked through those sharing a neighbor. -/
theorem linked_links {m : Graph V (Val K)} (h : Projectable g part partAttr weightAttr kind check w) (hwf : m.WF)
    (hE : ∀ u v, m.hasEdge u v = true ↔ u ≠ v ∧ InPart g partAttr part u ∧ InPart g partAttr part v ∧
      (g.nbhd u ∩ g.nbhd v).Nonempty) {u v : V} (hu : InPart g partAttr part u) (hv : InPart g partAttr part v) :
    Linked m.edges u v ↔ Linked g.edges u v := by
  classical
  have hgl : ∀ {x y}, g.hasEdge x y = true → Linked g.edges x y := by
    intro x y he
    rcases (hasEdge_listed h.wf).1 he with hl | ⟨-, hl⟩
    · exact .of_mem hl
    · exact (Linked.of_mem hl).symm
  have hml : ∀ {x y}, m.hasEdge x y = true → Linked m.edges x y := by
    intro x y he
    rcases (hasEdge_listed hwf).1 he with hl | ⟨-, hl⟩
    · exact .of_mem hl
    · exact (Linked.of_mem hl).symm
  constructor
  · intro hl
    refine hl.bind fun x y hxy => ?_
    obtain ⟨-, -, -, t, ht⟩ := (hE x y).1 ((hasEdge_listed hwf).2 (.inl hxy))
    rw [Finset.mem_inter, mem_nbhd h.wf, mem_nbhd h.wf] at ht
    exact (hgl ht.1).trans (hgl ht.2).symm
  · intro hl
    -- the nodes of the part at a node: itself, or its neighbors
    let f : V → Finset V := fun x => if InPart g partAttr part x then {x} else g.nbhd x
    have key : ∀ x y, Linked g.edges x y →
        x = y ∨ (f x).Nonempty ∧ (f y).Nonempty ∧ ∀ a ∈ f x, ∀ b ∈ f y, Linked m.edges a b := by
      intro x y hxy
      unfold Linked at hxy
      induction hxy with
      | rel x y hxy =>
        right
        have he : g.hasEdge x y = true := (hasEdge_listed h.wf).2 (.inl hxy)
        have one : ∀ {x y}, g.hasEdge x y = true → InPart g partAttr part x →
            (f x).Nonempty ∧ (f y).Nonempty ∧ ∀ a ∈ f x, ∀ b ∈ f y, Linked m.edges a b := by
          intro x y he px
          have py : ¬ InPart g partAttr part y := (h.bipartite x y he).1 px
          have e1 : f x = {x} := if_pos px
          have e2 : f y = g.nbhd y := if_neg py
          have hyx : g.hasEdge y x = true := by rwa [Graph.hasEdge_comm h.undirected]
          rw [e1, e2]
          refine ⟨Finset.singleton_nonempty _, ⟨x, (mem_nbhd h.wf).2 hyx⟩, ?_⟩
          intro a ha b hb
          rw [Finset.mem_singleton.1 ha]
          rw [mem_nbhd h.wf] at hb
          by_cases hab : x = b
          · rw [hab]; exact .refl _ _
          · refine hml ((hE x b).2 ⟨hab, px, ?_, y, Finset.mem_inter.2 ⟨(mem_nbhd h.wf).2 he, (mem_nbhd h.wf).2 ?_⟩⟩)
            · have := h.bipartite y b hb
              tauto
            · rwa [Graph.hasEdge_comm h.undirected]
        by_cases px : InPart g partAttr part x
        · exact one he px
        · have py : InPart g partAttr part y := by
            have := h.bipartite x y he
            tauto
          obtain ⟨c1, c2, c3⟩ := one (by rwa [Graph.hasEdge_comm h.undirected] : g.hasEdge y x = true) py
          exact ⟨c2, c1, fun a ha b hb => (c3 b hb a ha).symm⟩
      | refl x => exact .inl rfl
      | symm x y _ ih =>
        rcases ih with rfl | ⟨c1, c2, c3⟩
        · exact .inl rfl
        · exact .inr ⟨c2, c1, fun a ha b hb => (c3 b hb a ha).symm⟩
      | trans x y z _ _ ih1 ih2 =>
        rcases ih1 with rfl | ⟨c1, ⟨t, ht⟩, c3⟩
        · exact ih2
        · rcases ih2 with rfl | ⟨d1, d2, d3⟩
          · exact .inr ⟨c1, ⟨t, ht⟩, c3⟩
          · exact .inr ⟨c1, d2, fun a ha b hb => (c3 a ha t ht).trans (d3 t ht b hb)⟩
    rcases key u v hl with rfl | ⟨-, -, h3⟩
    · exact .refl _ _
    · exact h3 u (by simp [f, hu]) v (by simp [f, hv])

theorem componentOrders_among {nodes : List V} {P Q : List (V × V)} (h : ∀ x ∈ nodes, ∀ y ∈ nodes, (Linked P x y ↔ Linked Q x y)) :
    componentOrders nodes P = componentOrders nodes Q := by
  classical
  have h1 : firstNodes nodes P = firstNodes nodes Q := by
    unfold firstNodes
    refine List.filter_congr fun n hn => ?_
    rw [decide_eq_decide]
    exact forall_congr' fun m => forall_congr' fun hm => by rw [h m hm n hn]
  unfold componentOrders
  rw [h1]
  refine List.map_congr_left fun n hn => ?_
  have hn' : n ∈ nodes := List.mem_of_mem_filter hn
  congr 1
  ext x
  simp only [componentOf, Set.mem_ofPred_eq]
  exact and_congr_right fun hx => h n hn' x hx

/-- C118.  Two nodes of the part are in the same connected component of the projection without threshold, whatever the metric, exactly
when they are in the bipartite graph: the orders of the components are the numbers of nodes of the part in those of the bipartite
graph. -/
theorem projection_components (hsqrt : ∀ x : K, 0 < x → 0 < PyMath.sqrt x) (hrnd : ∀ x : K, 0 < x → 0 < PyMath.rnd x)
    (h : Projectable g part partAttr weightAttr kind check w) {metric : Option String} (hk : (metric, kind) ∈ metricNames) :
    ∃ m, monopartiteProjection g part partAttr weightAttr metric check none = .ok m ∧
      (∀ n, n ∈ m.nodes ↔ InPart g partAttr part n) ∧
      (∀ u ∈ m.nodes, ∀ v ∈ m.nodes, (Linked m.edges u v ↔ Linked g.edges u v)) ∧
      connectedComponentOrders m none = ⟨componentOrders m.nodes g.edges, none⟩ := by
  obtain ⟨m, h1, h2, h3, -⟩ := projection_linkWeight hsqrt hrnd h hk
  have hin := projection_part h.wf h.notFrozen h1
  have hl : ∀ u ∈ m.nodes, ∀ v ∈ m.nodes, (Linked m.edges u v ↔ Linked g.edges u v) := fun u hu v hv =>
    linked_links h h2 h3 ((hin u).1 hu) ((hin v).1 hv)
  refine ⟨m, h1, hin, hl, ?_⟩
  rw [connectedComponentOrders_exact h2 (projection_nodes_partial _ _ _ _ _ _ _ h.wf h.notFrozen h1).1, componentOrders_among hl]

omit [LinearOrder V] [PyOrd V] in
theorem firstNodes_le [DecidableEq V] {N N' : List V} {E : List (V × V)} (hn : N.Nodup) (hn' : N'.Nodup)
    (h : ∀ n ∈ N, ∃ n' ∈ N', Linked E n n') : (firstNodes N E).length ≤ (firstNodes N' E).length := by
  classical
  have hmem : ∀ {M : List V} {r}, r ∈ firstNodes M E → r ∈ M := fun hr => List.mem_of_mem_filter hr
  have hex : ∀ r ∈ firstNodes N E, ∃ r' ∈ firstNodes N' E, Linked E r' r := by
    intro r hr
    obtain ⟨n', hn', hl⟩ := h r (hmem hr)
    obtain ⟨r', ⟨c1, c2⟩, -⟩ := firstNodes_partition E n' hn'
    exact ⟨r', c1, c2.trans hl.symm⟩
  have d1 : (firstNodes N E).Nodup := hn.filter _
  have d2 : (firstNodes N' E).Nodup := hn'.filter _
  rw [← List.toFinset_card_of_nodup d1, ← List.toFinset_card_of_nodup d2]
  choose! f hf using hex
  refine Finset.card_le_card_of_injOn f (fun r hr => ?_) ?_
  · exact List.mem_toFinset.2 (hf r (List.mem_toFinset.1 hr)).1
  · intro r hr s hs hrs
    have hr := List.mem_toFinset.1 hr
    have hs := List.mem_toFinset.1 hs
    have hl : Linked E s r := ((hf s hs).2.symm.trans (hrs ▸ (hf r hr).2))
    obtain ⟨x, -, hx⟩ := firstNodes_partition E r (hmem hr)
    exact (hx r ⟨hr, .refl _ _⟩).trans (hx s ⟨hs, hl⟩).symm

/-- C118.  If no node is isolated, both projections of a bipartite graph have as many connected components. -/
theorem projection_components_both (hsqrt : ∀ x : K, 0 < x → 0 < PyMath.sqrt x) (hrnd : ∀ x : K, 0 < x → 0 < PyMath.rnd x)
    {part' : Part V K} {kind' : Metric} {check' : Bool} {w' : V → V → K}
    (h : Projectable g part partAttr weightAttr kind check w) (h' : Projectable g part' partAttr weightAttr kind' check' w')
    (hother : ∀ n ∈ g.nodes, InPart g partAttr part' n ↔ ¬ InPart g partAttr part n)
    (hiso : ∀ n ∈ g.nodes, (g.nbhd n).Nonempty)
    {metric metric' : Option String} (hk : (metric, kind) ∈ metricNames) (hk' : (metric', kind') ∈ metricNames) :
    ∃ m m', monopartiteProjection g part partAttr weightAttr metric check none = .ok m ∧
      monopartiteProjection g part' partAttr weightAttr metric' check' none = .ok m' ∧
      (connectedComponentOrders m none).yields.length = (connectedComponentOrders m' none).yields.length := by
  obtain ⟨m, h1, h2, -, h4⟩ := projection_components hsqrt hrnd h hk
  obtain ⟨m', h1', h2', -, h4'⟩ := projection_components hsqrt hrnd h' hk'
  refine ⟨m, m', h1, h1', ?_⟩
  rw [h4, h4']
  simp only [componentOrders, List.length_map]
  have hnd : m.nodes.Nodup := (projection_nodes_partial _ _ _ _ _ _ _ h.wf h.notFrozen h1).2.2.2.2.nodup h.wf.nodup
  have hnd' : m'.nodes.Nodup := (projection_nodes_partial _ _ _ _ _ _ _ h'.wf h'.notFrozen h1').2.2.2.2.nodup h.wf.nodup
  have hgl : ∀ {x y}, g.hasEdge x y = true → Linked g.edges x y := by
    intro x y he
    rcases (hasEdge_listed h.wf).1 he with hl | ⟨-, hl⟩
    · exact .of_mem hl
    · exact (Linked.of_mem hl).symm
  refine le_antisymm (firstNodes_le hnd hnd' fun n hn => ?_) (firstNodes_le hnd' hnd fun n hn => ?_)
  · rw [h2] at hn
    obtain ⟨t, ht⟩ := hiso n (inPart_mem hn)
    have he := (mem_nbhd h.wf).1 ht
    refine ⟨t, (h2' t).2 ((hother t (Graph.hasEdge_mem h.wf he).2).2 ((h.bipartite n t he).1 hn)), hgl he⟩
  · rw [h2'] at hn
    obtain ⟨t, ht⟩ := hiso n (inPart_mem hn)
    have he := (mem_nbhd h.wf).1 ht
    refine ⟨t, (h2 t).2 ?_, hgl he⟩
    have e1 := h.bipartite n t he
    have e2 := hother n (inPart_mem hn)
    tauto

end

section
variable {V : Type} [LinearOrder V] [PyOrd V] [AttrVal (Val ℝ)]
  {g : Graph V (Val ℝ)} {part : Part V ℝ} {partAttr weightAttr : String} {kind : Metric} {check : Bool} {w : V → V → ℝ}

/-- C118.  With `keep_connected` the multiscale backbone of a projection links two nodes of the part exactly when the bipartite graph
does, whatever `alpha`. -/
theorem projection_backbone_connected {ulongMax : Nat} (hu : 2^32 - 1 ≤ ulongMax) (ho : OrderedKeys V) (hp : kind ≠ .pmi)
    (h : Projectable g part partAttr weightAttr kind check w)
    (hw : kind = .cosine ∨ kind = .dotProduct → ∀ u v, g.hasEdge u v = true → 0 < w u v)
    (hord : SafeOrder ulongMax {n | InPart g partAttr part n}.ncard)
    {metric : Option String} (hn : (metric, kind) ∈ metricNames) (alpha : ℝ) :
    ∃ m b, monopartiteProjection g part partAttr weightAttr metric check none = .ok m ∧
      multiscaleBackbone ulongMax m alpha "weight" true = .ok b ∧ b.node = m.node ∧
      (∀ u v, InPart g partAttr part u → InPart g partAttr part v → (Linked b.edges u v ↔ Linked g.edges u v)) := by
  obtain ⟨m, h1, h2, h3⟩ := projection_exact_real h hn (threshold := none) (by simp)
  obtain ⟨hd, hm, -⟩ := projection_nodes_partial _ _ _ _ _ _ _ h.wf h.notFrozen h1
  have hin := projection_part h.wf h.notFrozen h1
  have hE : ∀ u v, m.hasEdge u v = true ↔
      u ≠ v ∧ InPart g partAttr part u ∧ InPart g partAttr part v ∧ (g.nbhd u ∩ g.nbhd v).Nonempty := by
    intro u v
    constructor
    · intro he
      obtain ⟨a, ha⟩ := edge_exists h2 hm he
      obtain ⟨c1, c2, c3, c4, -⟩ := (h3 u v a).1 ha
      exact ⟨c1, c2, c3, c4⟩
    · rintro ⟨c1, c2, c3, c4⟩
      exact hasEdge_of_edge? ((h3 u v _).2 ⟨c1, c2, c3, c4, reaches_none _, rfl⟩)
  obtain ⟨s, hs⟩ : ∃ s : V → V → ℝ, ∀ u v, s u v = similarity kind (g.nbhd u) (g.nbhd v) (w u) (w v) := ⟨_, fun _ _ => rfl⟩
  have hsym : ∀ u v, s u v = s v u := by
    intro u v
    rw [hs, hs]
    cases kind <;> simp [similarity, Finset.inter_comm, Finset.union_comm, mul_comm, min_comm, add_comm]
  have hed : ∀ u v a, m.edge? u v (.int 0) = some a → a = [(.str "weight", .num (s u v))] := fun u v a ha => by
    rw [hs]; exact ((h3 u v a).1 ha).2.2.2.2.2
  have hwt : m.Weighted "weight" s := weighted_links h2 hm hed
  have hpos : ∀ u v, m.hasEdge u v = true → 0 < s u v := by
    intro u v he
    rw [hs]
    exact similarity_positive hp ((hE u v).1 he).2.2.2 fun hc =>
      ⟨fun t ht => hw hc u t ((mem_nbhd h.wf).1 ht), fun t ht => hw hc v t ((mem_nbhd h.wf).1 ht)⟩
  have hkw : ∀ e ∈ m.edgesData, Graph.EdgeKwSafe m.multi e.2.2 := by
    rintro ⟨u, v, a⟩ he k hk
    rw [hed u v a (simple_edgesData h2 hm he)] at hk
    rw [hm]
    exact ⟨"weight", by simpa [Dict.keys] using hk, by simp⟩
  have hw' : ∀ e ∈ m.edgesData, ∃ x, HasWeight "weight" e.2.2 x := by
    rintro ⟨u, v, a⟩ he
    rw [hed u v a (simple_edgesData h2 hm he)]
    exact ⟨s u v, .inr (.inl (by simp [Dict.get?]))⟩
  have horder : m.order = {n | InPart g partAttr part n}.ncard := by
    have e : {n | InPart g partAttr part n} = (m.nodes.toFinset : Set V) := by
      ext n
      simp [hin]
    rw [e, Set.ncard_coe_finset, List.toFinset_card_of_nodup h2.nodup]
    simp [Graph.order, Graph.nodes, Dict.keys]
  have hmake : multiscaleBackboneSparsifier (V := V) ulongMax alpha "weight" true = Sparsifier.make ulongMax
      (some (backboneFactory alpha "weight")) none none true := rfl
  obtain ⟨sp, hsp⟩ : ∃ sp, multiscaleBackboneSparsifier (V := V) ulongMax alpha "weight" true = .ok sp := ⟨_, rfl⟩
  obtain ⟨b, b1, b2, b3, -⟩ := keepConnected_partial hu (hmake ▸ hsp) h2 (disparity_answers ho h2 hd hm hsym hwt hpos alpha) hw'
    (horder ▸ hord) hkw
  refine ⟨m, b, h1, ?_, b2, fun u v hu hv => (b3 u v).trans (linked_links h h2 hE hu hv)⟩
  unfold multiscaleBackbone
  rw [hsp]
  exact b1

end

/-- C118.  A case: accounts 2 and 3 share no page, but are in one component of the projection, as account 1 shares pages with both;
not with a threshold of 2 shared pages. -/
theorem projection_components_sample [AttrVal (Val ℝ)] :
    unevenPages.nbhd 2 ∩ unevenPages.nbhd 3 = ∅ ∧
    (∃ m, monopartiteProjection unevenPages (.collection [1, 2, 3]) "part" "weight" none true none = .ok m ∧ Linked m.edges 2 3) ∧
    ∃ m, monopartiteProjection unevenPages (.collection [1, 2, 3]) "part" "weight" none true (some (.num 2)) = .ok m ∧
      ¬ Linked m.edges 2 3 := by
  have hp := unevenPages_projectable true
  have hi : ∀ n ∈ [1, 2, 3], InPart unevenPages "part" (.collection [1, 2, 3]) n := by
    intro n hn
    simp only [List.mem_cons, List.not_mem_nil, or_false] at hn
    rcases hn with rfl | rfl | rfl <;> exact ⟨by decide, by decide⟩
  refine ⟨by decide, ?_, ?_⟩
  · obtain ⟨m, h1, h2, h3, -⟩ := projection_components sqrt_pos_real (fun _ h => h) hp (metric := none) (by simp [metricNames])
    refine ⟨m, h1, (h3 2 ((h2 2).2 (hi 2 (by decide))) 3 ((h2 3).2 (hi 3 (by decide)))).2 ?_⟩
    have e : ∀ x y, (x, y) ∈ unevenPages.edges → Linked unevenPages.edges x y := fun x y h => .of_mem h
    exact ((e 2 10 (by decide)).trans (e 1 10 (by decide)).symm).trans ((e 1 13 (by decide)).trans (e 3 13 (by decide)).symm)
  · obtain ⟨m, h1, h2, h3⟩ := projection_exact_real hp (metric := none) (by simp [metricNames]) (threshold := some (.num 2))
      (by rintro v ⟨⟩; exact ⟨2, rfl, by norm_num⟩)
    refine ⟨m, h1, fun hl => ?_⟩
    have hm := (projection_nodes_partial _ _ _ _ _ _ _ hp.wf hp.notFrozen h1).2.1
    have hno : ∀ x y, (x, y) ∈ m.edges → (x = 3 ↔ y = 3) := by
      intro x y hxy
      obtain ⟨a, ha⟩ := edge_exists h2 hm ((hasEdge_listed h2).2 (.inl hxy))
      obtain ⟨c1, c2, c3, -, c5, -⟩ := (h3 x y a).1 ha
      have c5 : (2 : ℝ) ≤ similarity .intersection (unevenPages.nbhd x) (unevenPages.nbhd y) (fun _ => 1) (fun _ => 1) :=
        c5 _ _ rfl rfl
      have c5 : 2 ≤ (unevenPages.nbhd x ∩ unevenPages.nbhd y).card := by
        simp only [similarity] at c5
        exact_mod_cast c5
      have px : x ∈ [1, 2, 3] := c2.2
      have py : y ∈ [1, 2, 3] := c3.2
      simp only [List.mem_cons, List.not_mem_nil, or_false] at px py
      rcases px with rfl | rfl | rfl <;> rcases py with rfl | rfl | rfl <;>
        first | exact absurd rfl c1 | (exfalso; revert c5; decide) | decide
    have : ∀ x y, Linked m.edges x y → (x = 3 ↔ y = 3) := by
      intro x y hxy
      unfold Linked at hxy
      induction hxy with
      | rel x y h => exact hno x y h
      | refl => rfl
      | symm _ _ _ ih => exact ih.symm
      | trans _ _ _ _ _ h h' => exact h.trans h'
    exact absurd ((this 2 3 hl).2 rfl) (by decide)

/-- The hypotheses of `projection_backbone_connected` hold of these pages. -/
example [AttrVal (Val ℝ)] : ∃ m b, monopartiteProjection unevenPages (.collection [1, 2, 3]) "part" "weight" none true none = .ok m ∧
    multiscaleBackbone (2^64 - 1) m 0 "weight" true = .ok b ∧ Linked b.edges 2 3 := by
  have hp := unevenPages_projectable true
  have hi : ∀ n ∈ [1, 2, 3], InPart unevenPages "part" (.collection [1, 2, 3]) n := by
    intro n hn
    simp only [List.mem_cons, List.not_mem_nil, or_false] at hn
    rcases hn with rfl | rfl | rfl <;> exact ⟨by decide, by decide⟩
  have hc : {n | InPart unevenPages "part" (.collection [1, 2, 3]) n} = (([1, 2, 3] : List Int).toFinset : Set Int) := by
    ext n
    constructor
    · rintro ⟨-, h⟩; simpa using h
    · intro h; exact hi n (by simpa using h)
  obtain ⟨m, b, h1, h2, -, h3⟩ := projection_backbone_connected (ulongMax := 2^64 - 1) (by norm_num) (fun _ _ => rfl) (by simp) hp
    (by simp) (by rw [hc, Set.ncard_coe_finset]; unfold SafeOrder; decide) (metric := none) (by simp [metricNames]) 0
  refine ⟨m, b, h1, h2, (h3 2 3 (hi 2 (by decide)) (hi 3 (by decide))).2 ?_⟩
  have e : ∀ x y, (x, y) ∈ unevenPages.edges → Linked unevenPages.edges x y := fun x y h => .of_mem h
  exact ((e 2 10 (by decide)).trans (e 1 10 (by decide)).symm).trans ((e 1 13 (by decide)).trans (e 3 13 (by decide)).symm)

theorem unevenPages_projectable_pages (check : Bool) :
    Projectable unevenPages (.collection [10, 11, 12, 13]) "part" "weight" .intersection check (fun _ _ => 1) := by
  have hp := unevenPages_projectable check
  refine ⟨hp.wf, rfl, rfl, by simp, ⟨10, by decide, by decide⟩, ?_, fun _ _ _ _ => rfl, ?_, by simp, by simp, by simp⟩
  · intro u v he
    obtain ⟨d, hd⟩ := Option.isSome_iff_exists.1 he
    obtain ⟨l, hl, hs, rfl⟩ := (Graph.keydict?_eq_some hp.wf).1 hd
    have hs := samePair_iff.1 hs
    simp only [InPart, unevenPages, Graph.nodes, Dict.keys, List.map_cons, List.map_nil, List.mem_cons,
      List.not_mem_nil, or_false] at hl ⊢
    rcases hl with rfl | rfl | rfl | rfl | rfl | rfl | rfl | rfl <;> rcases hs with ⟨rfl, rfl⟩ | ⟨_, rfl, rfl⟩ <;> simp
  · intro n a ha _
    have : a = [] := by
      have := Dict.mem_of_get? ha
      simp only [unevenPages, List.mem_cons, Prod.mk.injEq, List.not_mem_nil, or_false] at this
      rcases this with h | h | h | h | h | h | h <;> exact h.2
    subst this
    intro k hk
    simp [Dict.erase, Dict.keys] at hk

/-- The hypotheses of `projection_components_both` hold of these pages. -/
example [AttrVal (Val ℝ)] : ∃ m m', monopartiteProjection unevenPages (.collection [1, 2, 3]) "part" "weight" none true none = .ok m ∧
    monopartiteProjection unevenPages (.collection [10, 11, 12, 13]) "part" "weight" none true none = .ok m' ∧
    (connectedComponentOrders m none).yields.length = (connectedComponentOrders m' none).yields.length := by
  refine projection_components_both sqrt_pos_real (fun _ h => h) (unevenPages_projectable true) (unevenPages_projectable_pages true)
    ?_ ?_ (by simp [metricNames]) (by simp [metricNames])
  · intro n hn
    have hn' := hn
    simp only [unevenPages, Graph.nodes, Dict.keys, List.map_cons, List.map_nil, List.mem_cons, List.not_mem_nil, or_false] at hn'
    simp only [InPart, hn, true_and]
    rcases hn' with rfl | rfl | rfl | rfl | rfl | rfl | rfl <;> simp
  · decide

end Pelote
