import Verif.Props.SpanningTrees
import Verif.Props.HeavyPaths

/-! C133: which edges the union of maximum spanning trees keeps around a node and in a triangle. -/
set_option linter.unusedSectionVars false
namespace Pelote
open Graph
open scoped List
variable {V K : Type} [DecidableEq V] [Field K] [LinearOrder K] [IsStrictOrderedRing K]

/-- C133.  Whatever the numeric weights, near ties included: an edge between two nodes that no edge of one of the two outweighs is
yielded.  So every node that has an edge to another keeps its strongest ones. -/
theorem spanningTrees_strongest {ulongMax : Nat} (hu : 2^32 - 1 ≤ ulongMax) {g : Graph V (Val K)} (h : g.WF) {attr : String}
    {w : Fin g.edgesData.length → K} (hw : g.Weights attr w) (hord : SafeOrder ulongMax g.order) {i : Fin g.edgesData.length}
    (hne : (g.endsAt i).1 ≠ (g.endsAt i).2) {u : V} (hend : (g.endsAt i).1 = u ∨ (g.endsAt i).2 = u)
    (hmax : ∀ j, (g.endsAt j).1 ≠ (g.endsAt j).2 → (g.endsAt j).1 = u ∨ (g.endsAt j).2 = u → w j ≤ w i) :
    g.edgesData[i] ∈ (unionOfMaximumSpanningTrees ulongMax g attr).yields := by
  obtain ⟨is, -, -, h1, -, h2⟩ := unionOfMaximumSpanningTrees_connectivity hu h hw hord
  rw [h1]
  have hlink : ∀ x y, LinkedBy g.endsAt {j | w i < w j} x y → (x = u ↔ y = u) := by
    intro x y hl
    induction hl with
    | rel a b hab =>
      obtain ⟨j, hj, he⟩ := hab
      have hj' : w i < w j := hj
      by_cases hab : a = b
      · rw [hab]
      · have h3 : ¬ ((g.endsAt j).1 = u ∨ (g.endsAt j).2 = u) := fun h4 =>
          absurd (hmax j (by rw [he]; exact hab) h4) (not_le.2 hj')
        rw [he] at h3
        push Not at h3
        exact ⟨fun h => absurd h h3.1, fun h => absurd h h3.2⟩
    | refl a => rfl
    | symm a b _ ih => exact ih.symm
    | trans a b c _ _ i1 i2 => exact i1.trans i2
  obtain ⟨F, hF, hi⟩ := mem_some_maxSpanningForest_iff (ends := g.endsAt) (weight := w).2 (fun hl => by
    have h3 := hlink _ _ hl
    rcases hend with h4 | h4
    · exact hne (h4.trans (h3.1 h4).symm)
    · exact hne ((h3.2 h4).trans h4.symm))
  exact List.mem_map.2 ⟨i, h2 F hF i hi, rfl⟩

/-- C133.  Whatever the numeric weights: a bridge, an edge without which its ends are not linked, is yielded. -/
theorem spanningTrees_bridge {ulongMax : Nat} (hu : 2^32 - 1 ≤ ulongMax) {g : Graph V (Val K)} (h : g.WF) {attr : String}
    {w : Fin g.edgesData.length → K} (hw : g.Weights attr w) (hord : SafeOrder ulongMax g.order) {i : Fin g.edgesData.length}
    (hi : ¬ LinkedBy g.endsAt {j | j ≠ i} (g.endsAt i).1 (g.endsAt i).2) :
    g.edgesData[i] ∈ (unionOfMaximumSpanningTrees ulongMax g attr).yields := by
  obtain ⟨is, -, -, h1, -, h2⟩ := unionOfMaximumSpanningTrees_connectivity hu h hw hord
  rw [h1]
  obtain ⟨F, hF, hiF⟩ := mem_some_maxSpanningForest_iff (ends := g.endsAt) (weight := w).2 (fun hl => hi (by
    unfold LinkedBy at hl ⊢
    revert hl
    apply Relation.EqvGen.mono
    rintro a b ⟨j, hj, he⟩
    refine ⟨j, fun hji => ?_, he⟩
    rw [hji] at hj
    exact lt_irrefl _ hj))
  exact List.mem_map.2 ⟨i, h2 F hF i hiF, rfl⟩

/-- C133.  When weights are equal or more than `1e-8` apart: an edge lighter than each of two others that link its ends, by a
third node, is not yielded. -/
theorem spanningTrees_weakest {ulongMax : Nat} (hu : 2^32 - 1 ≤ ulongMax) {g : Graph V (Val K)} (h : g.WF) {attr : String}
    {w : Fin g.edgesData.length → K} (hw : g.Weights attr w) (hsep : NoNearTies w) (hord : SafeOrder ulongMax g.order)
    {i j k : Fin g.edgesData.length} {u v t : V} (hi : g.endsAt i = (u, v)) (hj : g.endsAt j = (u, t) ∨ g.endsAt j = (t, u))
    (hk : g.endsAt k = (t, v) ∨ g.endsAt k = (v, t)) (hij : w i < w j) (hik : w i < w k) :
    g.edgesData[i] ∉ (unionOfMaximumSpanningTrees ulongMax g attr).yields := by
  classical
  intro hmem
  obtain ⟨-, h1⟩ := unionOfMaximumSpanningTrees_exact hu h hw hsep hord
  obtain ⟨i', h2, h3⟩ := List.mem_map.1 (h1.mem_iff.1 hmem)
  simp only [List.mem_filter, List.mem_finRange, true_and, decide_eq_true_eq, mem_some_maxSpanningForest_iff] at h2
  have hwi : w i' = w i := by
    have h4 := hw i'
    rw [h3] at h4
    exact h4.unique (hw i)
  have hei : g.endsAt i' = (u, v) := by
    rw [← hi]
    unfold Graph.endsAt
    rw [h3]
  rw [hei, hwi] at h2
  refine h2 (Relation.EqvGen.trans _ t _ ?_ ?_)
  · rcases hj with hj | hj
    · exact Relation.EqvGen.rel _ _ ⟨j, hij, hj⟩
    · exact Relation.EqvGen.symm _ _ (Relation.EqvGen.rel _ _ ⟨j, hij, hj⟩)
  · rcases hk with hk | hk
    · exact Relation.EqvGen.rel _ _ ⟨k, hik, hk⟩
    · exact Relation.EqvGen.symm _ _ (Relation.EqvGen.rel _ _ ⟨k, hik, hk⟩)

/-- C133.  So sparsifying with `keep_connected`, whatever the predicate, keeps the strongest edges of every node. -/
theorem keepConnected_strongest [PyOrd V] [AttrVal (Val K)] {ulongMax : Nat} (hu : 2^32 - 1 ≤ ulongMax)
    {factory : PredFactory V (Val K)} {s : Sparsifier V (Val K)}
    (hs : Sparsifier.make ulongMax (some factory) none none true = .ok s) {g : Graph V (Val K)} (h : g.WF)
    {p : V → V → Attrs (Val K) → Bool} (hF : FactoryAnswers factory g p) {w : Fin g.edgesData.length → K}
    (hw : g.Weights "weight" w) (hord : SafeOrder ulongMax g.order) (hkw : ∀ e ∈ g.edgesData, EdgeKwSafe g.multi e.2.2) :
    ∃ g', s.filter g = .ok g' ∧ ∀ (i : Fin g.edgesData.length) (u : V), (g.endsAt i).1 ≠ (g.endsAt i).2 →
      (g.endsAt i).1 = u ∨ (g.endsAt i).2 = u →
      (∀ j, (g.endsAt j).1 ≠ (g.endsAt j).2 → (g.endsAt j).1 = u ∨ (g.endsAt j).2 = u → w j ≤ w i) →
      g.edgesData[i] ∈ g'.edgesData := by
  have herr : (unionOfMaximumSpanningTrees ulongMax g "weight").err = none := by
    obtain ⟨is, -, -, h1, -⟩ := unionOfMaximumSpanningTrees_connectivity hu h hw hord
    rw [h1]
  obtain ⟨s', hs', hpart⟩ := sparsifier_partition ulongMax factory true
  rw [hs] at hs'
  cases hs'
  obtain ⟨q, hq, hrel, -⟩ := hpart g p hF (fun _ => herr)
  obtain ⟨g', e1, -, -, -, -, -, e4⟩ := sparsifier_filter hs h hF (fun _ => herr) hkw
  refine ⟨g', e1, fun i u hne hend hmax => ?_⟩
  have hy := spanningTrees_strongest hu h hw hord hne hend hmax
  have hmem : g.edgesData[i] ∈ g.edgesData := List.getElem_mem _
  obtain ⟨⟨a, b, k, c⟩, he, heq⟩ := List.mem_map.1 hmem
  rw [e4, hrel]
  refine List.mem_map.2 ⟨(a, b, k, c), List.mem_filter.2 ⟨he, ?_⟩, heq⟩
  rw [hq]
  exact .inr ⟨rfl, c, heq ▸ hy⟩

/-- C133, a case: in the square (`square_wf`, and weights 3, 2, 1, 2, 3) the strongest edge of each node is yielded, and the
diagonal, lighter than the sides it makes triangles with, is not. -/
theorem spanningTrees_local_sample :
    square.edgesData.map (fun e => ((e.1, e.2.1), Dict.get? e.2.2 (.str "weight"))) =
      [((1, 2), some (.num 3)), ((1, 4), some (.num 2)), ((1, 3), none), ((2, 3), some (.num 2)), ((3, 4), some (.num 3))] ∧
    (unionOfMaximumSpanningTrees (2^64-1) square "weight").yields.map (fun e => (e.1, e.2.1)) =
      [(1, 2), (3, 4), (1, 4), (2, 3)] ∧ SafeOrder (2^64-1) square.order := by
  refine ⟨by decide +kernel, by decide +kernel, by unfold SafeOrder; decide⟩

end Pelote
