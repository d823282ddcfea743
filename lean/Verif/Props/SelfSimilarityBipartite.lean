import Verif.Props.SelfSimilarity
import Verif.Props.ProjectionRange

/-! C126: `self_similarity_projection` as the projection of a bipartite graph. -/
set_option linter.unusedSectionVars false
namespace Pelote
open Graph

/-- `B` is the bipartite graph of the links of `g`, of which a node is linked to as many tags as it has links with other nodes: `top u`
stands for the node `u`, `tag (true, x)` for a link to `x` and `tag (false, x)` for a link from `x`. -/
structure LinksGraph {V W : Type} [DecidableEq V] [DecidableEq W] (g : Graph V (Val ℝ)) (B : Graph W (Val ℝ)) (part : Part W ℝ)
    (partAttr : String) (top : V → W) (tag : Bool × V → W) : Prop where
  top_inj : ∀ u ∈ g.nodes, ∀ v ∈ g.nodes, top u = top v → u = v
  tag_inj : Function.Injective tag
  part : ∀ n, InPart B partAttr part n ↔ ∃ u ∈ g.nodes, top u = n
  edges : ∀ u ∈ g.nodes, ∀ n, B.hasEdge (top u) n = true ↔
    ∃ x, x ≠ u ∧ ((g.hasEdge u x = true ∧ n = tag (true, x)) ∨ (g.hasEdge x u = true ∧ n = tag (false, x)))

section
variable {V : Type} [DecidableEq V]

/-- The two kinds of tags. -/
def linkTags (X Y : Finset V) : Finset (Bool × V) := X.image (Prod.mk true) ∪ Y.image (Prod.mk false)

theorem mem_linkTags {X Y : Finset V} {b : Bool} {x : V} : (b, x) ∈ linkTags X Y ↔ (b = true ∧ x ∈ X) ∨ (b = false ∧ x ∈ Y) := by
  unfold linkTags
  simp only [Finset.mem_union, Finset.mem_image, Prod.mk.injEq]
  constructor
  · rintro (⟨y, h1, rfl, rfl⟩ | ⟨y, h1, rfl, rfl⟩)
    · exact .inl ⟨rfl, h1⟩
    · exact .inr ⟨rfl, h1⟩
  · rintro (⟨rfl, h⟩ | ⟨rfl, h⟩)
    · exact .inl ⟨x, h, rfl, rfl⟩
    · exact .inr ⟨x, h, rfl, rfl⟩

theorem card_linkTags (X Y : Finset V) : (linkTags X Y).card = X.card + Y.card := by
  unfold linkTags
  rw [Finset.card_union_of_disjoint, Finset.card_image_of_injective _ (Prod.mk_right_injective true),
    Finset.card_image_of_injective _ (Prod.mk_right_injective false)]
  rw [Finset.disjoint_left]
  rintro ⟨b, x⟩ h1 h2
  simp only [Finset.mem_image, Prod.mk.injEq] at h1 h2
  obtain ⟨_, _, rfl, _⟩ := h1
  obtain ⟨_, _, h, _⟩ := h2
  cases h

theorem linkTags_inter (X Y X' Y' : Finset V) : linkTags X Y ∩ linkTags X' Y' = linkTags (X ∩ X') (Y ∩ Y') := by
  ext ⟨b, x⟩
  simp only [Finset.mem_inter, mem_linkTags]
  cases b <;> simp

theorem linkTags_union (X Y X' Y' : Finset V) : linkTags X Y ∪ linkTags X' Y' = linkTags (X ∪ X') (Y ∪ Y') := by
  ext ⟨b, x⟩
  simp only [Finset.mem_union, mem_linkTags]
  cases b <;> simp

/-- A union without the link of one set to the owner of the other. -/
theorem card_erase_union {X Y : Finset V} {u v : V} (huv : u ≠ v) (hu : u ∉ X) (hv : v ∉ Y) :
    (X ∪ Y).card = (X.erase v ∪ Y.erase u).card + ((if v ∈ X then 1 else 0) + (if u ∈ Y then 1 else 0)) := by
  have hdis : X.erase v ∪ Y.erase u = ((X ∪ Y).erase v).erase u := by
    ext z
    simp only [Finset.mem_union, Finset.mem_erase]
    constructor
    · rintro (⟨h1, h2⟩ | ⟨h1, h2⟩)
      · exact ⟨fun h => hu (h ▸ h2), h1, .inl h2⟩
      · exact ⟨h1, fun h => hv (h ▸ h2), .inr h2⟩
    · rintro ⟨h1, h2, h3 | h3⟩
      · exact .inl ⟨h2, h3⟩
      · exact .inr ⟨h1, h3⟩
  rw [hdis]
  have e1 : v ∈ X ∪ Y ↔ v ∈ X := by simp [hv]
  have e2 : u ∈ (X ∪ Y).erase v ↔ u ∈ Y := by simp [hu, huv]
  have c1 := Finset.card_erase_eq_ite (s := X ∪ Y) (a := v)
  have c2 := Finset.card_erase_eq_ite (s := (X ∪ Y).erase v) (a := u)
  simp only [e1] at c1
  simp only [e2] at c2
  have p1 : v ∈ X → 0 < (X ∪ Y).card := fun h => Finset.card_pos.2 ⟨v, e1.2 h⟩
  have p2 : u ∈ Y → 0 < ((X ∪ Y).erase v).card := fun h => Finset.card_pos.2 ⟨u, e2.2 h⟩
  split_ifs at * with h1 h2 h2 <;> simp_all <;> omega

end

section
variable {V W : Type} [DecidableEq V] [LinearOrder W] [PyOrd W] [AttrVal (Val ℝ)] {g : Graph V (Val ℝ)} {B : Graph W (Val ℝ)}
  {part : Part W ℝ} {partAttr weightAttr : String} {top : V → W} {tag : Bool × V → W}

theorem LinksGraph.nbhd (l : LinksGraph g B part partAttr top tag) (h : g.WF) (hB : B.WF) {u : V} (hu : u ∈ g.nodes) :
    B.nbhd (top u) = (linkTags (g.outs u) (g.ins u)).image tag := by
  ext n
  have hm : n ∈ B.nbhd (top u) ↔ B.hasEdge (top u) n = true := by
    unfold Graph.nbhd
    rw [List.mem_toFinset, List.mem_filter]
    exact ⟨fun k => k.2, fun k => ⟨(hasEdge_mem hB k).2, k⟩⟩
  have ho : ∀ x, x ∈ g.outs u ↔ x ≠ u ∧ g.hasEdge u x = true := by
    intro x
    unfold Graph.outs
    rw [List.mem_toFinset, List.mem_filter]
    simp only [Bool.and_eq_true, decide_eq_true_eq, ne_eq, decide_not, Bool.not_eq_true', decide_eq_false_iff_not]
    exact ⟨fun k => ⟨k.2.2, k.2.1⟩, fun k => ⟨(hasEdge_mem h k.2).2, k.2, k.1⟩⟩
  have hi : ∀ x, x ∈ g.ins u ↔ x ≠ u ∧ g.hasEdge x u = true := by
    intro x
    unfold Graph.ins
    rw [List.mem_toFinset, List.mem_filter]
    simp only [Bool.and_eq_true, decide_eq_true_eq, ne_eq, decide_not, Bool.not_eq_true', decide_eq_false_iff_not]
    exact ⟨fun k => ⟨k.2.2, k.2.1⟩, fun k => ⟨(hasEdge_mem h k.2).1, k.2, k.1⟩⟩
  rw [hm, l.edges u hu, Finset.mem_image]
  constructor
  · rintro ⟨x, hx, ⟨h1, rfl⟩ | ⟨h1, rfl⟩⟩
    · exact ⟨_, mem_linkTags.2 (.inl ⟨rfl, (ho x).2 ⟨hx, h1⟩⟩), rfl⟩
    · exact ⟨_, mem_linkTags.2 (.inr ⟨rfl, (hi x).2 ⟨hx, h1⟩⟩), rfl⟩
  · rintro ⟨⟨b, x⟩, hb, rfl⟩
    rcases mem_linkTags.1 hb with ⟨rfl, h1⟩ | ⟨rfl, h1⟩
    · exact ⟨x, ((ho x).1 h1).1, .inl ⟨((ho x).1 h1).2, rfl⟩⟩
    · exact ⟨x, ((hi x).1 h1).1, .inr ⟨((hi x).1 h1).2, rfl⟩⟩

/-- C126.  `self_similarity_projection` of depth 1 links the nodes that the projection by Jaccard similarity of the bipartite graph of
links does.  Two nodes with `i` tags in common out of `n` have the similarity `i / n` in the latter and `i / (n - 2k)` in the former,
where `k` is the number of links between the two: the same one exactly when there is none, a greater one otherwise. -/
theorem selfSimilarity_bipartite (h : g.WF) (hdir : g.directed = true) (hkw : ∀ n a, g.node.get? n = some a → NodeKwSafe a)
    (l : LinksGraph g B part partAttr top tag) {check : Bool} {w : W → W → ℝ}
    (hp : Projectable B part partAttr weightAttr .jaccard check w) :
    ∃ m p, selfSimilarityProjection g 1 = .ok m ∧
      monopartiteProjection B part partAttr weightAttr (some "jaccard") check none = .ok p ∧
      ∀ u ∈ g.nodes, ∀ v ∈ g.nodes,
        (∀ a, p.edge? (top u) (top v) (.int 0) = some a → ∃ b, m.edge? u v (.int 0) = some b) ∧
        ∀ b, m.edge? u v (.int 0) = some b → ∃ x y : ℝ, b = [(.str "weight", .num x)] ∧
          p.edge? (top u) (top v) (.int 0) = some [(.str "weight", .num y)] ∧
          (∃ i n k : ℕ, i = (B.nbhd (top u) ∩ B.nbhd (top v)).card ∧ n = (B.nbhd (top u) ∪ B.nbhd (top v)).card ∧
            k = (if g.hasEdge u v = true then 1 else 0) + (if g.hasEdge v u = true then 1 else 0) ∧ 0 < i ∧ i + 2 * k ≤ n ∧
            y = i / n ∧ x = i / (n - 2 * k)) ∧
          (x = y ↔ ¬ g.Adjacent u v) ∧ (y < x ↔ g.Adjacent u v) := by
  obtain ⟨m, m1, -, -, -, -, -, m2⟩ := selfSimilarity_depth_one h hdir hkw
  obtain ⟨p, p1, -, p2⟩ := projection_exact_real hp (metric := some "jaccard") (by simp [metricNames]) (threshold := none) (by simp)
  refine ⟨m, p, m1, p1, fun u hu v hv => ?_⟩
  have hpu := (l.part (top u)).2 ⟨u, hu, rfl⟩
  have hpv := (l.part (top v)).2 ⟨v, hv, rfl⟩
  have hI : B.nbhd (top u) ∩ B.nbhd (top v) = (linkTags (g.outs u ∩ g.outs v) (g.ins u ∩ g.ins v)).image tag := by
    rw [l.nbhd h hp.wf hu, l.nbhd h hp.wf hv, ← Finset.image_inter _ _ l.tag_inj, linkTags_inter]
  have hU : B.nbhd (top u) ∪ B.nbhd (top v) = (linkTags (g.outs u ∪ g.outs v) (g.ins u ∪ g.ins v)).image tag := by
    rw [l.nbhd h hp.wf hu, l.nbhd h hp.wf hv, ← Finset.image_union, linkTags_union]
  have hcI : (B.nbhd (top u) ∩ B.nbhd (top v)).card = (g.outs u ∩ g.outs v).card + (g.ins u ∩ g.ins v).card := by
    rw [hI, Finset.card_image_of_injective _ l.tag_inj, card_linkTags]
  have hcU : (B.nbhd (top u) ∪ B.nbhd (top v)).card = (g.outs u ∪ g.outs v).card + (g.ins u ∪ g.ins v).card := by
    rw [hU, Finset.card_image_of_injective _ l.tag_inj, card_linkTags]
  have hne : (B.nbhd (top u) ∩ B.nbhd (top v)).Nonempty ↔ (g.outs u ∩ g.outs v).Nonempty ∨ (g.ins u ∩ g.ins v).Nonempty := by
    rw [← Finset.card_pos, ← Finset.card_pos, ← Finset.card_pos, hcI]
    omega
  have htop : top u ≠ top v ↔ u ≠ v := by
    constructor
    · rintro hn rfl
      exact hn rfl
    · exact fun hn hc => hn (l.top_inj u hu v hv hc)
  constructor
  · intro a ha
    obtain ⟨c1, -, -, c4, -⟩ := (p2 _ _ _).1 ha
    exact ⟨_, (m2 u v _).2 ⟨htop.1 c1, hu, hv, hne.1 c4, rfl⟩⟩
  intro b hb
  obtain ⟨c1, -, -, c4, rfl⟩ := (m2 _ _ _).1 hb
  have hpos := Finset.card_pos.2 (hne.2 c4)
  have o1 : u ∉ g.outs u := by simp [Graph.outs]
  have o2 : v ∉ g.outs v := by simp [Graph.outs]
  have o3 : u ∉ g.ins u := by simp [Graph.ins]
  have o4 : v ∉ g.ins v := by simp [Graph.ins]
  have q1 : v ∈ g.outs u ↔ g.hasEdge u v = true := by
    simp only [Graph.outs, List.mem_toFinset, List.mem_filter, Bool.and_eq_true, decide_eq_true_eq]
    exact ⟨fun k => k.2.1, fun k => ⟨hv, k, c1.symm⟩⟩
  have q2 : u ∈ g.outs v ↔ g.hasEdge v u = true := by
    simp only [Graph.outs, List.mem_toFinset, List.mem_filter, Bool.and_eq_true, decide_eq_true_eq]
    exact ⟨fun k => k.2.1, fun k => ⟨hu, k, c1⟩⟩
  have q3 : v ∈ g.ins u ↔ g.hasEdge v u = true := by
    simp only [Graph.ins, List.mem_toFinset, List.mem_filter, Bool.and_eq_true, decide_eq_true_eq]
    exact ⟨fun k => k.2.1, fun k => ⟨hv, k, c1.symm⟩⟩
  have q4 : u ∈ g.ins v ↔ g.hasEdge u v = true := by
    simp only [Graph.ins, List.mem_toFinset, List.mem_filter, Bool.and_eq_true, decide_eq_true_eq]
    exact ⟨fun k => k.2.1, fun k => ⟨hu, k, c1⟩⟩
  have E1 := card_erase_union c1 o1 o2
  have E2 := card_erase_union c1 o3 o4
  simp only [q1, q2] at E1
  simp only [q3, q4] at E2
  obtain ⟨k, hk⟩ : ∃ k : ℕ, k = (if g.hasEdge u v = true then 1 else 0) + (if g.hasEdge v u = true then 1 else 0) := ⟨_, rfl⟩
  have hk0 : k = 0 ↔ ¬ g.Adjacent u v := by
    unfold Graph.Adjacent
    rw [hk]
    split_ifs with h1 h2 h2 <;> simp [h1, h2]
  -- what is in common is in the union without the links between the two
  have s1 : (g.outs u ∩ g.outs v).card ≤ ((g.outs u).erase v ∪ (g.outs v).erase u).card := by
    refine Finset.card_le_card fun z hz => ?_
    rw [Finset.mem_inter] at hz
    rw [Finset.mem_union, Finset.mem_erase]
    exact .inl ⟨fun he => o2 (he ▸ hz.2), hz.1⟩
  have s2 : (g.ins u ∩ g.ins v).card ≤ ((g.ins u).erase v ∪ (g.ins v).erase u).card := by
    refine Finset.card_le_card fun z hz => ?_
    rw [Finset.mem_inter] at hz
    rw [Finset.mem_union, Finset.mem_erase]
    exact .inl ⟨fun he => o4 (he ▸ hz.2), hz.1⟩
  obtain ⟨D, hD⟩ : ∃ D : ℕ, D = ((g.outs u).erase v ∪ (g.outs v).erase u).card + ((g.ins u).erase v ∪ (g.ins v).erase u).card := ⟨_, rfl⟩
  have hn : (B.nbhd (top u) ∪ B.nbhd (top v)).card = D + 2 * k := by omega
  have hle : (B.nbhd (top u) ∩ B.nbhd (top v)).card ≤ D := by omega
  obtain ⟨i, hi⟩ : ∃ i : ℕ, i = (B.nbhd (top u) ∩ B.nbhd (top v)).card := ⟨_, rfl⟩
  rw [← hi] at hle hpos
  have hx : (linkSimilarity g u v : ℝ) = i / D := by
    unfold linkSimilarity
    rw [← hcI, ← hi, ← hD]
  have hD0 : (0 : ℝ) < D := by exact_mod_cast lt_of_lt_of_le hpos hle
  have hi0 : (0 : ℝ) < i := by exact_mod_cast hpos
  have hk' : (0 : ℝ) ≤ k := Nat.cast_nonneg k
  have hsim : similarity .jaccard (B.nbhd (top u)) (B.nbhd (top v)) (w (top u)) (w (top v)) = (i : ℝ) / (D + 2 * k) := by
    simp only [similarity, rnd_real]
    rw [← hi, hn]
    push_cast
    rfl
  have hlt : (i : ℝ) / (D + 2 * k) < i / D ↔ k ≠ 0 := by
    rw [div_lt_div_iff_of_pos_left hi0 (by linarith) hD0]
    constructor
    · rintro hl rfl
      simp at hl
    · intro hne0
      have : (0 : ℝ) < k := by exact_mod_cast Nat.pos_of_ne_zero hne0
      linarith
  have hge : (i : ℝ) / (D + 2 * k) ≤ i / D := div_le_div_of_nonneg_left hi0.le hD0 (by linarith)
  refine ⟨i / D, i / (D + 2 * k), by rw [hx], ?_, ⟨i, D + 2 * k, k, hi, hn.symm, hk, hpos, by omega, by push_cast; rfl, ?_⟩, ?_, ?_⟩
  · rw [p2]
    exact ⟨htop.2 c1, hpu, hpv, hne.2 c4, fun _ _ hc => by simp at hc, by rw [hsim]⟩
  · push_cast
    congr 1
    ring
  · rw [← hk0]
    constructor
    · intro he
      by_contra hc
      exact absurd he (hlt.2 hc).ne'
    · rintro rfl
      simp
  · rw [hlt, ne_eq, hk0, not_not]

end

/-- Links from 1, 2 and 4 to 3, and from 1 to 2. -/
noncomputable def cites : Graph Int (Val ℝ) :=
  ⟨true, false, [], [(1, []), (2, []), (3, []), (4, [])],
    [⟨1, 2, [(.int 0, [])]⟩, ⟨1, 3, [(.int 0, [])]⟩, ⟨2, 3, [(.int 0, [])]⟩, ⟨4, 3, [(.int 0, [])]⟩]⟩

/-- The bipartite graph of these links: `11 + 2x` stands for a link to `x`, `10 + 2x` for a link from `x`. -/
noncomputable def citesLinks : Graph Int (Val ℝ) :=
  ⟨false, false, [], [(1, []), (2, []), (3, []), (4, []), (12, []), (14, []), (15, []), (17, []), (18, [])],
    [⟨1, 15, [(.int 0, [])]⟩, ⟨1, 17, [(.int 0, [])]⟩, ⟨2, 17, [(.int 0, [])]⟩, ⟨2, 12, [(.int 0, [])]⟩,
     ⟨3, 12, [(.int 0, [])]⟩, ⟨3, 14, [(.int 0, [])]⟩, ⟨3, 18, [(.int 0, [])]⟩, ⟨4, 17, [(.int 0, [])]⟩]⟩

/-- The tags. -/
def citesTag (t : Bool × Int) : Int := 10 + 2 * t.2 + if t.1 then 1 else 0

theorem citesLinks_meets (check : Bool) :
    cites.WF ∧ (∀ n a, cites.node.get? n = some a → NodeKwSafe a) ∧
    LinksGraph cites citesLinks (.collection [1, 2, 3, 4]) "part" id citesTag ∧
    Projectable citesLinks (.collection [1, 2, 3, 4]) "part" "weight" .jaccard check (fun _ _ => 1) := by
  have hwf : cites.WF := by constructor <;> simp [cites, Graph.nodes, Dict.keys, samePair]
  have hwfB : citesLinks.WF := by constructor <;> simp [citesLinks, Graph.nodes, Dict.keys, samePair]
  have hE : ∀ a b, cites.hasEdge a b = true ↔ (a, b) ∈ [((1 : Int), (2 : Int)), (1, 3), (2, 3), (4, 3)] := by
    intro a b
    rw [hasEdge_listed hwf]
    have : cites.edges = [((1 : Int), (2 : Int)), (1, 3), (2, 3), (4, 3)] := rfl
    rw [this]
    simp [cites]
  have hEB : ∀ a b, citesLinks.hasEdge a b = true ↔
      (a, b) ∈ [((1 : Int), (15 : Int)), (1, 17), (2, 17), (2, 12), (3, 12), (3, 14), (3, 18), (4, 17)] ∨
      (b, a) ∈ [((1 : Int), (15 : Int)), (1, 17), (2, 17), (2, 12), (3, 12), (3, 14), (3, 18), (4, 17)] := by
    intro a b
    rw [hasEdge_listed hwfB]
    have : citesLinks.edges = [((1 : Int), (15 : Int)), (1, 17), (2, 17), (2, 12), (3, 12), (3, 14), (3, 18), (4, 17)] := rfl
    rw [this]
    simp [citesLinks]
  have hnames : ∀ n a, cites.node.get? n = some a → NodeKwSafe a := by
    intro n a ha
    have := Dict.mem_of_get? ha
    simp only [cites, List.mem_cons, Prod.mk.injEq, List.not_mem_nil, or_false] at this
    rcases this with h | h | h | h <;> rw [h.2] <;> simp [NodeKwSafe, Dict.keys]
  have hpart : ∀ n, InPart citesLinks "part" (.collection [1, 2, 3, 4]) n ↔ n = 1 ∨ n = 2 ∨ n = 3 ∨ n = 4 := by
    intro n
    simp only [InPart, citesLinks, Graph.nodes, Dict.keys, List.map_cons, List.map_nil, List.mem_cons, List.not_mem_nil, or_false]
    omega
  have hnodes : ∀ n, n ∈ cites.nodes ↔ n = 1 ∨ n = 2 ∨ n = 3 ∨ n = 4 := by
    intro n
    simp [cites, Graph.nodes, Dict.keys]
  refine ⟨hwf, hnames, ⟨fun _ _ _ _ he => he, ?_, ?_, ?_⟩, ⟨hwfB, rfl, rfl, by simp, ⟨1, (hpart 1).2 (.inl rfl)⟩, ?_,
    fun _ _ _ _ => rfl, ?_, by simp, by simp, by simp⟩⟩
  · rintro ⟨b, x⟩ ⟨b', x'⟩ he
    simp only [citesTag] at he
    cases b <;> cases b' <;> simp at he ⊢ <;> omega
  · intro n
    rw [hpart]
    simp only [hnodes, id_eq, exists_eq_right]
  · intro u hu n
    rw [id_eq, hEB]
    simp only [hE, citesTag, List.mem_cons, List.not_mem_nil, or_false, Prod.mk.injEq, if_true, Bool.false_eq_true, if_false]
    rcases (hnodes u).1 hu with rfl | rfl | rfl | rfl
    · constructor
      · intro hk
        have : n = 15 ∨ n = 17 := by omega
        rcases this with rfl | rfl
        · exact ⟨2, by omega, .inl ⟨by omega, by omega⟩⟩
        · exact ⟨3, by omega, .inl ⟨by omega, by omega⟩⟩
      · rintro ⟨x, hx, ⟨hk, rfl⟩ | ⟨hk, rfl⟩⟩ <;> rcases hk with hk | hk | hk | hk <;> simp_all
    · constructor
      · intro hk
        have : n = 17 ∨ n = 12 := by omega
        rcases this with rfl | rfl
        · exact ⟨3, by omega, .inl ⟨by omega, by omega⟩⟩
        · exact ⟨1, by omega, .inr ⟨by omega, by omega⟩⟩
      · rintro ⟨x, hx, ⟨hk, rfl⟩ | ⟨hk, rfl⟩⟩ <;> rcases hk with hk | hk | hk | hk <;> simp_all
    · constructor
      · intro hk
        have : n = 12 ∨ n = 14 ∨ n = 18 := by omega
        rcases this with rfl | rfl | rfl
        · exact ⟨1, by omega, .inr ⟨by omega, by omega⟩⟩
        · exact ⟨2, by omega, .inr ⟨by omega, by omega⟩⟩
        · exact ⟨4, by omega, .inr ⟨by omega, by omega⟩⟩
      · rintro ⟨x, hx, ⟨hk, rfl⟩ | ⟨hk, rfl⟩⟩ <;> rcases hk with hk | hk | hk | hk <;> simp_all
    · constructor
      · intro hk
        have : n = 17 := by omega
        subst this
        exact ⟨3, by omega, .inl ⟨by omega, by omega⟩⟩
      · rintro ⟨x, hx, ⟨hk, rfl⟩ | ⟨hk, rfl⟩⟩ <;> rcases hk with hk | hk | hk | hk <;> simp_all
  · intro u v he
    rw [hpart, hpart]
    rw [hEB] at he
    simp only [List.mem_cons, List.not_mem_nil, or_false, Prod.mk.injEq] at he
    omega
  · intro n a ha _
    have : a = [] := by
      have := Dict.mem_of_get? ha
      simp only [citesLinks, List.mem_cons, Prod.mk.injEq, List.not_mem_nil, or_false] at this
      rcases this with h | h | h | h | h | h | h | h | h <;> exact h.2
    subst this
    simp [NodeKwSafe, Dict.keys, Dict.erase]

/-- C126, a case: 1 and 2 both lead to 3, and 1 to 2.  Their similarity is greater than in the projection of the bipartite graph, whereas
that of 1 and 4 is the same. -/
theorem selfSimilarity_bipartite_sample [AttrVal (Val ℝ)] :
    ∃ m p, selfSimilarityProjection cites 1 = .ok m ∧
      monopartiteProjection citesLinks (.collection [1, 2, 3, 4]) "part" "weight" (some "jaccard") true none = .ok p ∧
      (∃ x y : ℝ, m.edge? 1 2 (.int 0) = some [(.str "weight", .num x)] ∧ p.edge? 1 2 (.int 0) = some [(.str "weight", .num y)] ∧ y < x) ∧
      ∃ x : ℝ, m.edge? 1 4 (.int 0) = some [(.str "weight", .num x)] ∧ p.edge? 1 4 (.int 0) = some [(.str "weight", .num x)] := by
  obtain ⟨h1, h2, h3, h4⟩ := citesLinks_meets true
  obtain ⟨m, p, e1, e2, e3⟩ := selfSimilarity_bipartite h1 rfl h2 h3 h4
  obtain ⟨m', f1, -, -, -, -, -, f2⟩ := selfSimilarity_depth_one h1 rfl h2
  rw [e1] at f1
  cases f1
  have n1 : (1 : Int) ∈ cites.nodes := by simp [cites, Graph.nodes, Dict.keys]
  have n2 : (2 : Int) ∈ cites.nodes := by simp [cites, Graph.nodes, Dict.keys]
  have n3 : (3 : Int) ∈ cites.nodes := by simp [cites, Graph.nodes, Dict.keys]
  have n4 : (4 : Int) ∈ cites.nodes := by simp [cites, Graph.nodes, Dict.keys]
  have o : ∀ n, n = 1 ∨ n = 2 ∨ n = 4 → (3 : Int) ∈ cites.outs n := by
    intro n hn
    unfold Graph.outs
    rw [List.mem_toFinset, List.mem_filter]
    refine ⟨n3, ?_⟩
    rcases hn with rfl | rfl | rfl <;> rfl
  have l12 := (f2 1 2 _).2 ⟨by decide, n1, n2, .inl ⟨3, Finset.mem_inter.2 ⟨o 1 (.inl rfl), o 2 (.inr (.inl rfl))⟩⟩, rfl⟩
  have l14 := (f2 1 4 _).2 ⟨by decide, n1, n4, .inl ⟨3, Finset.mem_inter.2 ⟨o 1 (.inl rfl), o 4 (.inr (.inr rfl))⟩⟩, rfl⟩
  refine ⟨m, p, e1, e2, ?_, ?_⟩
  · obtain ⟨x, y, k1, k2, -, -, k3⟩ := (e3 1 n1 2 n2).2 _ l12
    exact ⟨x, y, l12.trans (congrArg some k1), k2, k3.2 (.inl rfl)⟩
  · obtain ⟨x, y, k1, k2, -, k3, -⟩ := (e3 1 n1 4 n4).2 _ l14
    have : x = y := k3.2 (by
      rintro (hc | hc) <;> cases hc)
    subst this
    exact ⟨x, l14.trans (congrArg some k1), k2⟩

end Pelote
