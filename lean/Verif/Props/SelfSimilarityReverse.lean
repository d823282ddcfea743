import Verif.Props.SelfSimilarity
import Verif.Props.Turn

/-! C127: `self_similarity_projection` and the direction of the links. -/
set_option linter.unusedSectionVars false
namespace Pelote
open Graph

section
variable {V K : Type} [DecidableEq V] [Field K] [LinearOrder K] [IsStrictOrderedRing K] [AttrVal (Val K)] {g g' : Graph V (Val K)}

theorem Graph.Reversed.nodes (s : g.Reversed g') : g'.nodes = g.nodes := congrArg Dict.keys s.node.symm

theorem Graph.Reversed.hasEdge (s : g.Reversed g') (h : g.WF) (h' : g'.WF) (u v : V) : g'.hasEdge u v = g.hasEdge v u := by
  rw [Bool.eq_iff_iff, hasEdge_listed h, hasEdge_listed h', s.from_directed, s.to_directed]
  simp only [Bool.true_eq_false, false_and, or_false]
  rw [mem_edges, mem_edges]
  refine exists_congr fun a => ?_
  rw [← s.edges.mem_iff, List.mem_map]
  constructor
  · rintro ⟨⟨x, y, b⟩, he, hb⟩
    simp only [Prod.mk.injEq] at hb
    obtain ⟨rfl, rfl, rfl⟩ := hb
    exact he
  · exact fun he => ⟨_, he, rfl⟩

theorem Graph.Reversed.outs (s : g.Reversed g') (h : g.WF) (h' : g'.WF) (n : V) : g'.outs n = g.ins n := by
  unfold Graph.outs Graph.ins
  simp only [s.nodes, s.hasEdge h h']

theorem Graph.Reversed.ins (s : g.Reversed g') (h : g.WF) (h' : g'.WF) (n : V) : g'.ins n = g.outs n := by
  unfold Graph.outs Graph.ins
  simp only [s.nodes, s.hasEdge h h']

/-- C127, at depth 1 (it is false at depth 2, see `selfSimilarity_reverse_wrong`).  The projection of a graph whose links are turned round
is the same. -/
theorem selfSimilarity_reverse_partial (h : g.WF) (h' : g'.WF) (s : g.Reversed g')
    (hkw : ∀ n a, g.node.get? n = some a → NodeKwSafe a) :
    ∃ m m', selfSimilarityProjection g 1 = .ok m ∧ selfSimilarityProjection g' 1 = .ok m' ∧ m'.node = m.node ∧
      m'.directed = m.directed ∧ m'.multi = m.multi ∧ m'.attrs = m.attrs ∧
      ∀ u v a, m'.edge? u v (.int 0) = some a ↔ m.edge? u v (.int 0) = some a := by
  obtain ⟨m, e1, -, e2, e3, e4, e5, e6⟩ := selfSimilarity_depth_one h s.from_directed hkw
  obtain ⟨m', f1, -, f2, f3, f4, f5, f6⟩ := selfSimilarity_depth_one h' s.to_directed (by rw [← s.node]; exact hkw)
  refine ⟨m, m', e1, f1, by rw [f5, e5, s.node], by rw [f2, e2], by rw [f3, e3], by rw [f4, e4], fun u v a => ?_⟩
  have hsim : (linkSimilarity g' u v : K) = linkSimilarity g u v := by
    unfold linkSimilarity
    simp only [s.outs h h', s.ins h h']
    rw [add_comm, add_comm (((g.ins u).erase v ∪ (g.ins v).erase u).card)]
  rw [e6, f6, hsim, s.nodes, s.outs h h', s.outs h h', s.ins h h', s.ins h h', or_comm (a := (g.ins u ∩ g.ins v).Nonempty)]

/-- A tag, with the other direction. -/
def flipTag (k : Tag V) : Tag V := (!k.1, k.2)

omit [DecidableEq V] in
theorem flipTag_injective : Function.Injective (flipTag : Tag V → Tag V) := by
  rintro ⟨o, k⟩ ⟨o', k'⟩ he
  simp only [flipTag, Prod.mk.injEq, Bool.not_eq_eq_eq_not, Bool.not_not] at he
  rw [he.1, he.2]

theorem unlinked_flip (v : V) (T : Finset (Tag V)) : unlinked v (T.image flipTag) = (unlinked v T).image flipTag := by
  unfold unlinked
  rw [Finset.filter_image]
  rfl

/-- C127, at any depth, when no neighborhood ends before it. -/
theorem selfSimilarity_reverse_full_partial (h : g.WF) (h' : g'.WF) (s : g.Reversed g')
    (hkw : ∀ n a, g.node.get? n = some a → NodeKwSafe a) {depth : Int} (hd : 1 ≤ depth)
    (hfull : ∀ n ∈ g.nodes, ∀ reverse, (∃ x, IsDist (g.Step reverse) n x depth.toNat) ∨
      ∀ x d, 1 ≤ d → ¬ IsDist (g.Step reverse) n x d) :
    ∃ m m', selfSimilarityProjection g depth = .ok m ∧ selfSimilarityProjection g' depth = .ok m' ∧ m'.node = m.node ∧
      m'.directed = m.directed ∧ m'.multi = m.multi ∧ m'.attrs = m.attrs ∧
      ∀ u v a, m'.edge? u v (.int 0) = some a ↔ m.edge? u v (.int 0) = some a := by
  have hstep : ∀ reverse, g'.Step reverse = g.Step (!reverse) := by
    intro reverse
    funext u v
    unfold Graph.Step
    cases reverse <;> simp [s.hasEdge h h']
  obtain ⟨m, T, e1, -, e2, e3, e4, e5, e6, e7⟩ := selfSimilarity_radii h s.from_directed hkw depth
  obtain ⟨m', T', f1, -, f2, f3, f4, f5, f6, f7⟩ := selfSimilarity_radii h' s.to_directed (by rw [← s.node]; exact hkw) depth
  have hfull' : ∀ n ∈ g'.nodes, ∀ reverse, (∃ x, IsDist (g'.Step reverse) n x depth.toNat) ∨
      ∀ x d, 1 ≤ d → ¬ IsDist (g'.Step reverse) n x d := by
    intro n hn reverse
    rw [hstep]
    exact hfull n (s.nodes ▸ hn) (!reverse)
  have hT : ∀ n ∈ g.nodes, T' n = (T n).image flipTag := by
    intro n hn
    have k1 := e6 n hn
    have k2 := f6 n (s.nodes.symm ▸ hn)
    rw [radii_full g.nodes hfull hd] at k1
    rw [radii_full g'.nodes hfull' hd] at k2
    ext ⟨out, d, x⟩
    rw [k2, hstep, Finset.mem_image]
    simp only [ite_self]
    constructor
    · rintro ⟨h1, h2, h3⟩
      exact ⟨(!out, d, x), (k1 _ _ _).2 ⟨h1, by simpa using h2, h3⟩, by simp [flipTag]⟩
    · rintro ⟨⟨o, d', x'⟩, hk, he⟩
      simp only [flipTag, Prod.mk.injEq] at he
      obtain ⟨rfl, rfl, rfl⟩ := he
      obtain ⟨h1, h2, h3⟩ := (k1 _ _ _).1 hk
      exact ⟨h1, by simpa using h2, by rwa [Bool.not_not]⟩
  refine ⟨m, m', e1, f1, by rw [f5, e5, s.node], by rw [f2, e2], by rw [f3, e3], by rw [f4, e4], fun u v a => ?_⟩
  have hsim : ∀ (hu : u ∈ g.nodes) (hv : v ∈ g.nodes), (tagSimilarity T' u v : K) = tagSimilarity T u v := by
    intro hu hv
    unfold tagSimilarity
    rw [hT u hu, hT v hv, unlinked_flip, unlinked_flip, ← Finset.image_inter _ _ flipTag_injective, ← Finset.image_union,
      Finset.card_image_of_injective _ flipTag_injective, Finset.card_image_of_injective _ flipTag_injective]
  have hne : ∀ (hu : u ∈ g.nodes) (hv : v ∈ g.nodes), (T' u ∩ T' v).Nonempty ↔ (T u ∩ T v).Nonempty := by
    intro hu hv
    rw [hT u hu, hT v hv, ← Finset.image_inter _ _ flipTag_injective, Finset.image_nonempty]
  rw [e7, f7, s.nodes]
  constructor
  · rintro ⟨h1, h2, h3, h4, h5⟩
    exact ⟨h1, h2, h3, (hne h2 h3).1 h4, by rw [← hsim h2 h3]; exact h5⟩
  · rintro ⟨h1, h2, h3, h4, h5⟩
    exact ⟨h1, h2, h3, (hne h2 h3).2 h4, by rw [hsim h2 h3]; exact h5⟩

/-- C127.  In the projection, the nodes with a link to a third one are linked two by two, and so are those with a link from it. -/
theorem selfSimilarity_cliques (h : g.WF) (hdir : g.directed = true) (hkw : ∀ n a, g.node.get? n = some a → NodeKwSafe a) :
    ∃ m, selfSimilarityProjection g 1 = .ok m ∧ ∀ u v x, u ≠ v → x ≠ u → x ≠ v →
      (g.hasEdge u x = true ∧ g.hasEdge v x = true ∨ g.hasEdge x u = true ∧ g.hasEdge x v = true) → m.hasEdge u v = true := by
  obtain ⟨m, e1, e2, e3, e4, -, -, e6⟩ := selfSimilarity_depth_one h hdir hkw
  refine ⟨m, e1, fun u v x huv hu hv hl => ?_⟩
  have ho : ∀ {n}, x ≠ n → g.hasEdge n x = true → x ∈ g.outs n := by
    intro n hn he
    unfold Graph.outs
    rw [List.mem_toFinset, List.mem_filter]
    exact ⟨(hasEdge_mem h he).2, by simp [he, hn]⟩
  have hi : ∀ {n}, x ≠ n → g.hasEdge x n = true → x ∈ g.ins n := by
    intro n hn he
    unfold Graph.ins
    rw [List.mem_toFinset, List.mem_filter]
    exact ⟨(hasEdge_mem h he).1, by simp [he, hn]⟩
  have key : m.edge? u v (.int 0) = some [(.str "weight", .num (linkSimilarity g u v))] := by
    rw [e6]
    rcases hl with ⟨h1, h2⟩ | ⟨h1, h2⟩
    · exact ⟨huv, (hasEdge_mem h h1).1, (hasEdge_mem h h2).1, .inl ⟨x, Finset.mem_inter.2 ⟨ho hu h1, ho hv h2⟩⟩, rfl⟩
    · exact ⟨huv, (hasEdge_mem h h1).2, (hasEdge_mem h h2).2, .inr ⟨x, Finset.mem_inter.2 ⟨hi hu h1, hi hv h2⟩⟩, rfl⟩
  unfold Graph.edge? at key
  obtain ⟨d, hd, -⟩ := Option.bind_eq_some_iff.1 key
  unfold Graph.hasEdge
  rw [hd]
  rfl

end

/-- Links `b → a → 1 → 2` and `c → 2`, with 4, 3 and 5 for `b`, `a` and `c`. -/
def longIn : Graph Nat (Val ℚ) :=
  ⟨true, false, [], [(1, []), (2, []), (3, []), (4, []), (5, [])],
    [⟨4, 3, [(.int 0, [])]⟩, ⟨3, 1, [(.int 0, [])]⟩, ⟨1, 2, [(.int 0, [])]⟩, ⟨5, 2, [(.int 0, [])]⟩]⟩

/-- The same links, the other way round. -/
def longOut : Graph Nat (Val ℚ) :=
  ⟨true, false, [], [(1, []), (2, []), (3, []), (4, []), (5, [])],
    [⟨3, 4, [(.int 0, [])]⟩, ⟨1, 3, [(.int 0, [])]⟩, ⟨2, 1, [(.int 0, [])]⟩, ⟨2, 5, [(.int 0, [])]⟩]⟩

theorem longIn_reversed : longIn.WF ∧ longOut.WF ∧ longIn.Reversed longOut ∧
    ∀ n a, longIn.node.get? n = some a → NodeKwSafe a := by
  refine ⟨by constructor <;> decide, by constructor <;> decide, ⟨rfl, rfl, rfl, by decide +kernel⟩, ?_⟩
  intro n a ha
  have := Dict.mem_of_get? ha
  simp only [longIn, List.mem_cons, Prod.mk.injEq, List.not_mem_nil, or_false] at this
  rcases this with h | h | h | h | h <;> rw [h.2] <;> simp [NodeKwSafe, Dict.keys]

/-- C127 is false with `depth = 2`: the search outwards from node 1 ends at distance 1, and limits the search inwards, which is not
limited when the links are turned round. -/
theorem selfSimilarity_reverse_wrong :
    longIn.Reversed longOut ∧
    (selfSimilarityProjection longIn 2).map (·.edge? 1 5 (.int 0)) = .ok (some [(.str "weight", .num (1 / 2))]) ∧
    (selfSimilarityProjection longOut 2).map (·.edge? 1 5 (.int 0)) = .ok (some [(.str "weight", .num (1 / 3))]) := by
  exact ⟨longIn_reversed.2.2.1, by decide +kernel, by decide +kernel⟩

/-- C127, a case: the hypotheses are met, and the projections at depth 1 have the link of 1 and 5, of weight 1/2. -/
theorem selfSimilarity_reverse_sample :
    (selfSimilarityProjection longIn 1).map (·.edge? 1 5 (.int 0)) = .ok (some [(.str "weight", .num (1 / 2))]) ∧
    (selfSimilarityProjection longOut 1).map (·.edge? 1 5 (.int 0)) = .ok (some [(.str "weight", .num (1 / 2))]) := by
  exact ⟨by decide +kernel, by decide +kernel⟩

/-- The graph `cycleTwin`, the other way round. -/
def cycleTwinBack : Graph Nat (Val ℚ) :=
  ⟨true, false, [], [(0, []), (1, []), (2, []), (3, []), (4, []), (7, [])],
    [⟨1, 0, [(.int 0, [])]⟩, ⟨2, 1, [(.int 0, [])]⟩, ⟨3, 2, [(.int 0, [])]⟩, ⟨4, 3, [(.int 0, [])]⟩,
      ⟨0, 4, [(.int 0, [])]⟩, ⟨1, 7, [(.int 0, [])]⟩, ⟨7, 4, [(.int 0, [])]⟩]⟩

/-- C127, a case at depth 2: with `cycleTwin_full`, the hypotheses of `selfSimilarity_reverse_full_partial` are met. -/
theorem cycleTwin_reversed : cycleTwinBack.WF ∧ cycleTwin.Reversed cycleTwinBack ∧
    (∀ n a, cycleTwin.node.get? n = some a → NodeKwSafe a) ∧
    (selfSimilarityProjection cycleTwin 2).map (·.edge? 0 7 (.int 0)) = .ok (some [(.str "weight", .num 1)]) ∧
    (selfSimilarityProjection cycleTwinBack 2).map (·.edge? 0 7 (.int 0)) = .ok (some [(.str "weight", .num 1)]) := by
  refine ⟨by constructor <;> decide, ⟨rfl, rfl, rfl, by decide +kernel⟩, ?_, by decide +kernel, by decide +kernel⟩
  intro n a ha
  have := Dict.mem_of_get? ha
  simp only [cycleTwin, List.mem_cons, Prod.mk.injEq, List.not_mem_nil, or_false] at this
  rcases this with h | h | h | h | h | h <;> rw [h.2] <;> simp [NodeKwSafe, Dict.keys]

end Pelote
