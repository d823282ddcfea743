import Verif.Props.SelfSimilarity
import Verif.Props.ProjectionMeaning

/-! C129: `self_similarity_projection` as a distance. -/
set_option linter.unusedSectionVars false
namespace Pelote
open Graph

section
variable {V K : Type} [DecidableEq V] [Field K] [LinearOrder K] [IsStrictOrderedRing K] [AttrVal (Val K)] {g : Graph V (Val K)}

/-- C129, between nodes without links between them (it is false otherwise, see `selfSimilarity_distance_wrong`), at any depth: 1 minus
the weight (1 between nodes that are not linked in the projection) satisfies the triangle inequality. -/
theorem selfSimilarity_distance_partial (h : g.WF) (hdir : g.directed = true) (hkw : ∀ n a, g.node.get? n = some a → NodeKwSafe a)
    (depth : Int) :
    ∃ m, selfSimilarityProjection g depth = .ok m ∧ m.node = g.node ∧ ∀ x ∈ g.nodes, ∀ y ∈ g.nodes, ∀ z ∈ g.nodes,
      x ≠ y → y ≠ z → x ≠ z → ¬ g.Adjacent x y → ¬ g.Adjacent y z → ¬ g.Adjacent x z →
        1 - m.linkWeight x z ≤ (1 - m.linkWeight x y) + (1 - m.linkWeight y z) := by
  obtain ⟨m, T, e1, e2, e3, e4, -, e5, e6, e7⟩ := selfSimilarity_radii h hdir hkw depth
  have hun : ∀ x y, x ∈ g.nodes → x ≠ y → ¬ g.hasEdge x y = true → ¬ g.hasEdge y x = true → unlinked y (T x) = T x := by
    intro x y hx hne h1 h2
    unfold unlinked
    refine Finset.filter_true_of_mem ?_
    rintro ⟨out, d, t⟩ hk ⟨hd, ht⟩
    simp only at hd ht
    subst hd ht
    obtain ⟨-, -, hs⟩ := (e6 x hx out 1 t).1 hk
    rw [isDist_one hne] at hs
    unfold Graph.Step at hs
    cases out
    · exact h2 (by simpa using hs)
    · exact h1 (by simpa using hs)
  have hval : ∀ x y, x ∈ g.nodes → y ∈ g.nodes → x ≠ y → ¬ g.Adjacent x y →
      m.linkWeight x y = ((T x ∩ T y).card : K) / ((T x ∪ T y).card : K) := by
    intro x y hx hy hne ha
    unfold Graph.Adjacent at ha
    push Not at ha
    have u1 := hun x y hx hne (by simp_all) (by simp_all)
    have u2 := hun y x hy hne.symm (by simp_all) (by simp_all)
    by_cases hT : (T x ∩ T y).Nonempty
    · unfold Graph.linkWeight
      rw [(e7 x y _).2 ⟨hne, hx, hy, hT, rfl⟩]
      unfold tagSimilarity
      rw [u1, u2]
      rfl
    · have he : m.hasEdge x y = false := by
        rw [← Bool.not_eq_true]
        intro he
        obtain ⟨a, ha⟩ := edge?_of_hasEdge e2 e4 he
        exact hT ((e7 x y a).1 ha).2.2.2.1
      rw [linkWeight_none he, Finset.not_nonempty_iff_eq_empty.1 hT, Finset.card_empty, Nat.cast_zero, zero_div]
  refine ⟨m, e1, e5, fun x hx y hy z hz n1 n2 n3 a1 a2 a3 => ?_⟩
  rw [hval x z hx hz n3 a3, hval x y hx hy n1 a1, hval y z hy hz n2 a2]
  exact jaccard_triangle _ _ _

end

/-- Links `2 → 1`, `3 → 1` and `3 → 2`. -/
def transitiveTriangle : Graph Nat (Val ℚ) :=
  ⟨true, false, [], [(1, []), (2, []), (3, [])],
    [⟨2, 1, [(.int 0, [])]⟩, ⟨3, 1, [(.int 0, [])]⟩, ⟨3, 2, [(.int 0, [])]⟩]⟩

/-- C129 is false in general: nodes 1 and 2 have the similarity 1, so have 2 and 3, but 1 and 3 are not linked in the projection. -/
theorem selfSimilarity_distance_wrong : transitiveTriangle.WF ∧ transitiveTriangle.directed = true ∧
    (∀ n a, transitiveTriangle.node.get? n = some a → NodeKwSafe a) ∧
    (selfSimilarityProjection transitiveTriangle 1).map (fun m => (m.linkWeight 1 2, m.linkWeight 2 3, m.linkWeight 1 3)) =
      .ok (1, 1, 0) ∧
    ∃ m, selfSimilarityProjection transitiveTriangle 1 = .ok m ∧
      ¬ 1 - m.linkWeight 1 3 ≤ (1 - m.linkWeight 1 2) + (1 - m.linkWeight 2 3) := by
  have hv : (selfSimilarityProjection transitiveTriangle 1).map (fun m => (m.linkWeight 1 2, m.linkWeight 2 3, m.linkWeight 1 3)) =
      .ok (1, 1, 0) := by decide +kernel
  refine ⟨by constructor <;> decide, rfl, ?_, hv, ?_⟩
  · intro n a ha
    have := Dict.mem_of_get? ha
    simp only [transitiveTriangle, List.mem_cons, Prod.mk.injEq, List.not_mem_nil, or_false] at this
    rcases this with h | h | h <;> rw [h.2] <;> simp [NodeKwSafe, Dict.keys]
  · cases hm : selfSimilarityProjection transitiveTriangle 1 with
    | error e => rw [hm] at hv; cases hv
    | ok m =>
      rw [hm] at hv
      simp only [Except.map, Except.ok.injEq, Prod.mk.injEq] at hv
      refine ⟨m, rfl, ?_⟩
      rw [hv.1, hv.2.1, hv.2.2]
      norm_num

/-- Links `1 → 4`, `2 → 4`, `2 → 5` and `3 → 5`: nodes 1, 2 and 3 have no link between them. -/
def apartLinks : Graph Nat (Val ℚ) :=
  ⟨true, false, [], [(1, []), (2, []), (3, []), (4, []), (5, [])],
    [⟨1, 4, [(.int 0, [])]⟩, ⟨2, 4, [(.int 0, [])]⟩, ⟨2, 5, [(.int 0, [])]⟩, ⟨3, 5, [(.int 0, [])]⟩]⟩

/-- C129, a case: the hypotheses are met by nodes 1, 2 and 3, and the triangle inequality is `1 ≤ 1/2 + 1/2`. -/
theorem selfSimilarity_distance_sample : apartLinks.WF ∧ apartLinks.directed = true ∧
    (∀ n a, apartLinks.node.get? n = some a → NodeKwSafe a) ∧
    ¬ apartLinks.Adjacent 1 2 ∧ ¬ apartLinks.Adjacent 2 3 ∧ ¬ apartLinks.Adjacent 1 3 ∧
    (selfSimilarityProjection apartLinks 1).map (fun m => (m.linkWeight 1 2, m.linkWeight 2 3, m.linkWeight 1 3)) =
      .ok (1 / 2, 1 / 2, 0) := by
  refine ⟨by constructor <;> decide, rfl, ?_, by unfold Graph.Adjacent; decide, by unfold Graph.Adjacent; decide,
    by unfold Graph.Adjacent; decide, by decide +kernel⟩
  intro n a ha
  have := Dict.mem_of_get? ha
  simp only [apartLinks, List.mem_cons, Prod.mk.injEq, List.not_mem_nil, or_false] at this
  rcases this with h | h | h | h | h <;> rw [h.2] <;> simp [NodeKwSafe, Dict.keys]

end Pelote
