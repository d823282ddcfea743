import Verif.Props.KeepConnectedUse

/-! C124: the threshold learned and the maximum spanning trees. -/
set_option linter.unusedSectionVars false
namespace Pelote
open Graph

section
variable {V K : Type} [DecidableEq V] [Field K] [LinearOrder K] [IsStrictOrderedRing K] {g : Graph V (Val K)} {attr : String}

/-- The edges yielded, when the weights are numbers that are equal or more than `1e-8` apart: those whose ends are not linked by
heavier edges. -/
theorem umst_mem_iff {ulongMax : Nat} (hu : 2^32 - 1 ≤ ulongMax) (h : g.WF) (hsep : WeightsApart g attr)
    (hord : SafeOrder ulongMax g.order) {w : Fin g.edgesData.length → K} (hw1 : g.Weights attr w)
    (hw2 : ∀ i : Fin g.edgesData.length, numWeight attr g.edgesData[i].2.2 = some (w i)) (e : V × V × Attrs (Val K)) :
    e ∈ (unionOfMaximumSpanningTrees ulongMax g attr).yields ↔
      ∃ i : Fin g.edgesData.length, g.edgesData[i] = e ∧ ¬ LinkedBy g.endsAt {j | w i < w j} (g.endsAt i).1 (g.endsAt i).2 := by
  classical
  have hsep' : NoNearTies w := fun i j => hsep _ (List.getElem_mem _) _ (List.getElem_mem _) _ _ (hw2 i) (hw2 j)
  obtain ⟨-, hperm⟩ := unionOfMaximumSpanningTrees_exact hu h hw1 hsep' hord
  rw [hperm.mem_iff, List.mem_map]
  simp only [List.mem_filter, List.mem_finRange, true_and, decide_eq_true_eq, mem_some_maxSpanningForest_iff]
  exact ⟨fun ⟨i, h1, h2⟩ => ⟨i, h2, h1⟩, fun ⟨i, h1, h2⟩ => ⟨i, h2, h1⟩⟩

/-- C124.  The bottleneck of a connected graph is the least weight of the edges of its maximum spanning trees. -/
theorem bottleneck_umst {ulongMax : Nat} (hu : 2^32 - 1 ≤ ulongMax) (h : g.WF) (hw : Weighted g attr) (hsep : WeightsApart g attr)
    (hord : SafeOrder ulongMax g.order) (h2 : 2 ≤ g.nodes.length) {B : K} (hB : IsBottleneck g attr B) :
    IsLeast {v | ∃ e ∈ (unionOfMaximumSpanningTrees ulongMax g attr).yields, numWeight attr e.2.2 = some v} B := by
  classical
  obtain ⟨w, hw1, hw2⟩ := weighted_weights' hw
  have hmem := umst_mem_iff hu h hsep hord hw1 hw2
  have hlow : ∀ i : Fin g.edgesData.length, ¬ LinkedBy g.endsAt {j | w i < w j} (g.endsAt i).1 (g.endsAt i).2 → B ≤ w i := by
    intro i hi
    by_contra hlt
    push Not at hlt
    have hm : g.endsAt i ∈ g.edges := by
      rw [edges_eq_data]
      exact List.mem_map.2 ⟨g.edgesData[i], List.getElem_mem _, rfl⟩
    have hends := edges_ends h hm
    have hl := (linked_heavy_iff hw2 B _ _).2 (hB.1.1 _ hends.1 _ hends.2)
    refine hi (hl.mono fun j hj => ?_)
    exact lt_of_lt_of_le hlt hj
  have hex : ∃ i : Fin g.edgesData.length, ¬ LinkedBy g.endsAt {j | w i < w j} (g.endsAt i).1 (g.endsAt i).2 ∧ w i ≤ B := by
    by_contra hcon
    push Not at hcon
    -- the edges above the bottleneck would connect the graph
    have hconn : ∀ a ∈ g.nodes, ∀ b ∈ g.nodes, LinkedBy g.endsAt {i | B < w i} a b := by
      intro a ha b hb
      have hl := (linked_heavy_iff hw2 B _ _).2 (hB.1.1 a ha b hb)
      have h1 := (linkedBy_upper (ends := g.endsAt) (w := w)
        (S := {i | ¬ LinkedBy g.endsAt {j | w i < w j} (g.endsAt i).1 (g.endsAt i).2})
        (U := Set.univ) (fun i hi => hi) (fun _ _ _ _ => trivial) a b).2 (hl.mono (Set.subset_univ _))
      exact h1.mono fun i hi => hcon i hi.1
    obtain ⟨a, ha, b, hb, hab⟩ : ∃ a ∈ g.nodes, ∃ b ∈ g.nodes, a ≠ b := by
      have hnd := h.nodup
      change g.nodes.Nodup at hnd
      match hn : g.nodes, h2, hnd with
      | a :: b :: ns, _, hnd =>
        refine ⟨a, by simp, b, by simp, ?_⟩
        rintro rfl
        simp at hnd
    have hne : ((Finset.univ : Finset (Fin g.edgesData.length)).filter fun i => B < w i).Nonempty := by
      by_contra hno
      rw [Finset.not_nonempty_iff_eq_empty] at hno
      have hall : ∀ i, ¬ B < w i := by
        intro i hi
        have : i ∈ (Finset.univ : Finset (Fin g.edgesData.length)).filter fun i => B < w i :=
          Finset.mem_filter.2 ⟨Finset.mem_univ _, hi⟩
        rw [hno] at this
        simp at this
      have hempty := hconn a ha b hb
      have : ∀ x y, LinkedBy g.endsAt {i | B < w i} x y → x = y := by
        intro x y hl
        induction hl with
        | rel u v huv =>
          obtain ⟨i, hi, -⟩ := huv
          exact absurd hi (hall i)
        | refl => rfl
        | symm _ _ _ ih => exact ih.symm
        | trans _ _ _ _ _ ih1 ih2 => exact ih1.trans ih2
      exact hab (this a b hempty)
    obtain ⟨i, hi, hmin⟩ := Finset.exists_min_image _ w hne
    have hgt := (Finset.mem_filter.1 hi).2
    have hc : ConnectedAt g attr (w i) := by
      intro x hx y hy
      rw [← linked_heavy_iff hw2]
      exact (hconn x hx y hy).mono fun j hj => hmin j (Finset.mem_filter.2 ⟨Finset.mem_univ _, hj⟩)
    exact absurd ((connectedAt_iff h h2 hB (w i)).1 hc) (not_le.2 hgt)
  constructor
  · obtain ⟨i, hi, hle⟩ := hex
    refine ⟨g.edgesData[i], (hmem _).2 ⟨i, rfl, hi⟩, ?_⟩
    rw [hw2 i, le_antisymm hle (hlow i hi)]
  · rintro v ⟨e, he, hv⟩
    obtain ⟨i, rfl, hi⟩ := (hmem e).1 he
    rw [hw2 i] at hv
    cases hv
    exact hlow i hi

/-- C124.  So the threshold learned with a limit of at most 1 is computed from the maximum spanning trees: it is the last of the steps
not above their least weight. -/
theorem floatsam_umst [FloorRing K] {ulongMax : Nat} (hu : 2^32 - 1 ≤ ulongMax) (h : g.WF) (hd : g.directed = false)
    (hw : Weighted g attr) (hsep : WeightsApart g attr) (hord : SafeOrder ulongMax g.order) (h2 : 2 ≤ g.nodes.length)
    (hc : ∀ a ∈ g.nodes, ∀ b ∈ g.nodes, Linked g.edges a b) :
    ∃ B, IsLeast {v | ∃ e ∈ (unionOfMaximumSpanningTrees ulongMax g attr).yields, numWeight attr e.2.2 = some v} B ∧
      ∀ (given : Option K) (m : K), DrifterLimit g given m → m ≤ 1 → ∀ (o : OnEpoch K), o ≠ .notCallable → o.Quiet →
        ∀ start rate, start ≤ B → 0 < rate → ∀ fuel > ⌊(B - start) / rate⌋₊,
          ∃ tr, floatsam g start rate given attr o fuel = (tr, .ok (start + ⌊(B - start) / rate⌋₊ * rate)) := by
  have he : g.edgesData ≠ [] := by
    intro hnil
    have hnd := h.nodup
    change g.nodes.Nodup at hnd
    obtain ⟨a, ha, b, hb, hab⟩ : ∃ a ∈ g.nodes, ∃ b ∈ g.nodes, a ≠ b := by
      match hn : g.nodes, h2, hnd with
      | a :: b :: ns, _, hnd =>
        refine ⟨a, by simp, b, by simp, ?_⟩
        rintro rfl
        simp at hnd
    have := hc a ha b hb
    rw [edges_eq_data, hnil] at this
    exact hab (linked_nil.1 this)
  obtain ⟨B, hB⟩ := bottleneck_exists hw he hc
  refine ⟨B, bottleneck_umst hu h hw hsep hord h2 hB, fun given m hm hm1 o ho hq start rate hs hr fuel hf => ?_⟩
  obtain ⟨k, rfl, -, k2, -⟩ := floatsam_bottleneck h hd h2 hw hB hm hm1 ho hq hs hr
  obtain ⟨tr, e, -⟩ := k2 fuel hf
  exact ⟨tr, e⟩

end

/-- C124, a case: the least weight in the maximum spanning trees of the kite is 1, and the threshold learned by steps of 1/3 is 1. -/
theorem floatsam_umst_sample [AttrVal (Val ℚ)] :
    IsLeast {v | ∃ e ∈ (unionOfMaximumSpanningTrees (2^64 - 1) kiteGraph "weight").yields, numWeight "weight" e.2.2 = some v} 1 ∧
    ∃ tr, floatsam kiteGraph 0 (1/3) (some 1) "weight" .none 4 = (tr, .ok 1) := by
  obtain ⟨hwf, hw, hsep, hord, -⟩ := keepConnected_needed_sample
  have h2 : 2 ≤ kiteGraph.nodes.length := by decide
  have hl := bottleneck_umst (by norm_num) hwf hw hsep hord h2 kite_bottleneck
  have hc : ∀ a ∈ kiteGraph.nodes, ∀ b ∈ kiteGraph.nodes, Linked kiteGraph.edges a b := fun a ha b hb =>
    (kite_bottleneck.1.1 a ha b hb).mono fun e he => by
      obtain ⟨at', v, m1, -⟩ := mem_heavyEdges.1 (show (e.1, e.2) ∈ _ from he)
      rw [edges_eq_data]
      exact List.mem_map.2 ⟨_, m1, rfl⟩
  obtain ⟨B, hB, hall⟩ := floatsam_umst (by norm_num) hwf rfl hw hsep hord h2 hc
  obtain rfl := hB.unique hl
  refine ⟨hl, ?_⟩
  have hfl : ⌊((1 : ℚ) - 0) / (1/3)⌋₊ = 3 := by
    norm_num
  obtain ⟨tr, e⟩ := hall (some 1) 1 (by simp [DrifterLimit]) le_rfl .none (by simp) (by simp [OnEpoch.Quiet]) 0 (1/3)
    (by norm_num) (by norm_num) 4 (by rw [hfl]; norm_num)
  refine ⟨tr, e.trans ?_⟩
  rw [hfl]
  norm_num

end Pelote
