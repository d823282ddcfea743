import Verif.Props.AddEdge
import Verif.Props.HeavyPaths
import Verif.Props.KeepConnected

/-! C123: how many edges the union of maximum spanning trees has. -/
set_option linter.unusedSectionVars false
namespace Pelote
open Graph

section
variable {ι V : Type} [DecidableEq ι] [DecidableEq V] {ends : ι → V × V}

theorem componentOrders_nil {nodes : List V} (hn : nodes.Nodup) : (componentOrders nodes []).length = nodes.length := by
  unfold componentOrders firstNodes
  rw [List.length_map, List.filter_eq_self.2]
  intro n _
  simp only [decide_eq_true_eq]
  intro m _ hlt hl
  rw [linked_nil.1 hl] at hlt
  omega

/-- Each edge of a set without cycle makes one component less. -/
theorem forest_components {nodes : List V} (hn : nodes.Nodup) (F : Finset ι)
    (hin : ∀ i ∈ F, (ends i).1 ∈ nodes ∧ (ends i).2 ∈ nodes)
    (hac : ∀ i ∈ F, ¬ LinkedBy ends {j | j ∈ F ∧ j ≠ i} (ends i).1 (ends i).2) :
    ∃ pairs : List (V × V), (∀ x y, LinkedBy ends F x y ↔ Linked pairs x y) ∧
      F.card + (componentOrders nodes pairs).length = nodes.length := by
  induction F using Finset.induction with
  | empty =>
    refine ⟨[], fun x y => linkedBy_iff (by simp), ?_⟩
    rw [componentOrders_nil hn]
    simp
  | insert i F hi ih =>
    obtain ⟨pairs, h1, h2⟩ := ih (fun j hj => hin j (Finset.mem_insert_of_mem hj)) (fun j hj hl =>
      hac j (Finset.mem_insert_of_mem hj) (hl.mono fun k hk => ⟨Finset.mem_insert_of_mem hk.1, hk.2⟩))
    have hnot : ¬ Linked pairs (ends i).1 (ends i).2 := by
      rw [← h1]
      intro hl
      exact hac i (Finset.mem_insert_self _ _) (hl.mono fun k hk =>
        ⟨Finset.mem_insert_of_mem hk, fun e => hi (e ▸ hk)⟩)
    have hends := hin i (Finset.mem_insert_self _ _)
    obtain ⟨rest, p1, p2⟩ := componentOrders_merge hn hends.1 hends.2
      (pairs' := ((ends i).1, (ends i).2) :: pairs) (fun _ _ => Iff.rfl) hnot
    refine ⟨((ends i).1, (ends i).2) :: pairs, fun x y => ?_, ?_⟩
    · rw [Finset.coe_insert]
      constructor
      · intro hl
        have sub : ∀ {a b}, LinkedBy ends F a b → Linked (((ends i).1, (ends i).2) :: pairs) a b := fun h =>
          ((h1 _ _).1 h).mono (fun _ hp => List.mem_cons_of_mem _ hp)
        have new : Linked (((ends i).1, (ends i).2) :: pairs) (ends i).1 (ends i).2 := .of_mem List.mem_cons_self
        rcases hl.insert_cases with h | ⟨h, h'⟩ | ⟨h, h'⟩
        · exact sub h
        · exact (sub h).trans (new.trans (sub h'))
        · exact (sub h).trans (new.symm.trans (sub h'))
      · intro hl
        have sub : ∀ {a b}, Linked pairs a b → LinkedBy ends (insert i (F : Set ι)) a b := fun h =>
          ((h1 _ _).2 h).mono (Set.subset_insert _ _)
        induction hl with
        | rel a b hab =>
          have hab : (a, b) ∈ ((ends i).1, (ends i).2) :: pairs := hab
          rcases List.mem_cons.1 hab with e | e
          · simp only [Prod.mk.injEq] at e
            rw [e.1, e.2]
            exact .of_mem (Set.mem_insert _ _)
          · exact sub (.of_mem e)
        | refl a => exact .refl _ _
        | symm a b _ ih => exact ih.symm
        | trans a b c _ _ h1 h2 => exact h1.trans h2
    · have e1 := p1.length_eq
      have e2 := p2.length_eq
      simp only [List.length_cons] at e1 e2
      rw [Finset.card_insert_of_notMem hi]
      omega

end

section
variable {V K : Type} [DecidableEq V] [Field K] [LinearOrder K] [IsStrictOrderedRing K] {g : Graph V (Val K)}

theorem linked_edges_iff' (x y : V) : LinkedBy g.endsAt Set.univ x y ↔ Linked g.edges x y := by
  refine linkedBy_iff fun p => ?_
  rw [edges_eq_data, List.mem_map]
  constructor
  · rintro ⟨e, h1, rfl⟩
    obtain ⟨i, hi, rfl⟩ := List.mem_iff_getElem.1 h1
    exact ⟨⟨i, hi⟩, trivial, rfl⟩
  · rintro ⟨i, -, rfl⟩
    exact ⟨g.edgesData[i], List.getElem_mem _, rfl⟩

/-- C123.  A spanning forest has as many edges as there are nodes, less one for each component. -/
theorem spanningForest_card (h : g.WF) {F : Finset (Fin g.edgesData.length)} (hF : IsSpanningForest g.endsAt F) :
    F.card + (componentOrders g.nodes g.edges).length = g.order := by
  obtain ⟨pairs, h1, h2⟩ := forest_components (nodes := g.nodes) h.nodup F (fun i _ => by
    have hm : g.endsAt i ∈ g.edges := by
      rw [edges_eq_data]
      exact List.mem_map.2 ⟨g.edgesData[i], List.getElem_mem _, rfl⟩
    exact hasEdge_mem h ((hasEdge_listed h).2 (.inl hm))) hF.acyclic
  have hl : ∀ x y, Linked pairs x y ↔ Linked g.edges x y := by
    intro x y
    rw [← h1, ← linked_edges_iff']
    exact ⟨fun hl => hl.mono (Set.subset_univ _), fun hl => hl.bind fun i _ => hF.spans i⟩
  rw [componentOrders_congr _ hl] at h2
  rw [h2]
  simp [Graph.order, Graph.nodes, Dict.keys]

/-- With different weights an edge out of a maximum spanning forest is linked by heavier ones. -/
theorem maxSpanningForest_all {ι : Type} [DecidableEq ι] [Fintype ι] {ends : ι → V × V} {w : ι → K}
    (hd : ∀ i j, (ends i).1 ≠ (ends i).2 → (ends j).1 ≠ (ends j).2 → w i = w j → i = j)
    {F : Finset ι} (hF : IsMaxSpanningForest ends w F) {i : ι} (hl : ¬ LinkedBy ends {j | w i < w j} (ends i).1 (ends i).2) : i ∈ F := by
  classical
  by_contra hi
  have hloop : ∀ {F : Finset ι}, IsSpanningForest ends F → ∀ j ∈ F, (ends j).1 ≠ (ends j).2 := by
    intro F hF j hj e
    have := hF.acyclic j hj
    rw [e] at this
    exact this (.refl _ _)
  -- a heavier edge of `F` is not enough: some lighter edge of `F` can be exchanged
  have hex : ∃ j ∈ F, w j ≤ w i ∧ ¬ LinkedBy ends {k | k ∈ F ∧ k ≠ j} (ends i).1 (ends i).2 := by
    by_contra hcon
    push Not at hcon
    have key : ∀ D : Finset ι, (∀ j ∈ D, j ∈ F ∧ w j ≤ w i) →
        LinkedBy ends {k | k ∈ F ∧ k ∉ D} (ends i).1 (ends i).2 := by
      intro D
      induction D using Finset.induction with
      | empty =>
        intro _
        exact (hF.forest.spans i).mono fun k hk => ⟨hk, by simp⟩
      | insert j D hj ih =>
        intro hD
        have h1 := ih fun k hk => hD k (Finset.mem_insert_of_mem hk)
        have h2 := hcon j (hD j (Finset.mem_insert_self _ _)).1 (hD j (Finset.mem_insert_self _ _)).2
        by_contra hno
        have hins : insert j {k | k ∈ F ∧ k ∉ insert j D} = {k | k ∈ F ∧ k ∉ D} := by
          ext k
          simp only [Set.mem_insert_iff, Set.mem_ofPred_eq, Finset.mem_insert, not_or]
          constructor
          · rintro (rfl | ⟨a, -, b⟩)
            · exact ⟨(hD k (Finset.mem_insert_self _ _)).1, hj⟩
            · exact ⟨a, b⟩
          · rintro ⟨a, b⟩
            by_cases e : k = j
            · exact .inl e
            · exact .inr ⟨a, e, b⟩
        have h3 : LinkedBy ends (insert j {k | k ∈ F ∧ k ∉ insert j D}) (ends i).1 (ends i).2 := by rw [hins]; exact h1
        refine hF.forest.acyclic j (hD j (Finset.mem_insert_self _ _)).1
          (h3.ends_of_needed hno (G := {k | k ∈ F ∧ k ≠ j}) ?_ h2)
        rintro k ⟨hk1, hk2⟩
        exact ⟨hk1, fun e => hk2 (e ▸ Finset.mem_insert_self _ _)⟩
    have := key (F.filter fun j => w j ≤ w i) (fun j hj => Finset.mem_filter.1 hj)
    refine hl (this.mono ?_)
    rintro k ⟨hk1, hk2⟩
    by_contra hc
    exact hk2 (Finset.mem_filter.2 ⟨hk1, not_lt.1 hc⟩)
  obtain ⟨j, hj, hw, hno⟩ := hex
  have hin : i ∉ F.erase j := fun hm => hi (Finset.mem_of_mem_erase hm)
  have hsf := hF.forest.exchange hj hno
  have h1 := hF.max _ hsf
  rw [sum_exchange hj hin] at h1
  have heq : w i = w j := le_antisymm (by linarith) hw
  have := hd i j (hloop hsf i (Finset.mem_insert_self _ _)) (hloop hF.forest j hj) heq
  exact hi (this ▸ hj)

/-- C123.  The union of maximum spanning trees has at least as many edges as there are nodes, less one for each component, and exactly
as many when there is a single maximum spanning forest, as when no two edges other than self loops have the same weight. -/
theorem unionOfMaximumSpanningTrees_size {ulongMax : Nat} (hu : 2^32 - 1 ≤ ulongMax) (h : g.WF) {attr : String}
    {w : Fin g.edgesData.length → K} (hw : g.Weights attr w) (hsep : NoNearTies w) (hord : SafeOrder ulongMax g.order) :
    g.order ≤ (unionOfMaximumSpanningTrees ulongMax g attr).yields.length + (componentOrders g.nodes g.edges).length ∧
    ((unionOfMaximumSpanningTrees ulongMax g attr).yields.length + (componentOrders g.nodes g.edges).length = g.order ↔
      ∃! F, IsMaxSpanningForest g.endsAt w F) ∧
    ((∀ i j, (g.endsAt i).1 ≠ (g.endsAt i).2 → (g.endsAt j).1 ≠ (g.endsAt j).2 → w i = w j → i = j) →
      (unionOfMaximumSpanningTrees ulongMax g attr).yields.length + (componentOrders g.nodes g.edges).length = g.order) := by
  classical
  obtain ⟨-, hperm⟩ := unionOfMaximumSpanningTrees_exact hu h hw hsep hord
  let U : Finset (Fin g.edgesData.length) := Finset.univ.filter fun i => ∃ F, IsMaxSpanningForest g.endsAt w F ∧ i ∈ F
  have hlen : (unionOfMaximumSpanningTrees ulongMax g attr).yields.length = U.card := by
    rw [hperm.length_eq, List.length_map]
    have hU : U = ((List.finRange g.edgesData.length).filter
        (fun i => decide (∃ F, IsMaxSpanningForest g.endsAt w F ∧ i ∈ F))).toFinset := by
      ext i
      simp [U]
    rw [hU, List.toFinset_card_of_nodup ((List.nodup_finRange _).filter _)]
  have hsub : ∀ {F}, IsMaxSpanningForest g.endsAt w F → F ⊆ U := fun {F} hF i hi =>
    Finset.mem_filter.2 ⟨Finset.mem_univ _, F, hF, hi⟩
  obtain ⟨F₀, hF₀⟩ := exists_maxSpanningForest g.endsAt w
  have hc₀ := spanningForest_card h hF₀.forest
  have hiff : U.card + (componentOrders g.nodes g.edges).length = g.order ↔ ∃! F, IsMaxSpanningForest g.endsAt w F := by
    constructor
    · intro hc
      have heq : ∀ F, IsMaxSpanningForest g.endsAt w F → F = U := fun F hF =>
        Finset.eq_of_subset_of_card_le (hsub hF) (by have := spanningForest_card h hF.forest; omega)
      exact ⟨F₀, hF₀, fun F hF => (heq F hF).trans (heq F₀ hF₀).symm⟩
    · rintro ⟨F, hF, huniq⟩
      have : U = F := by
        refine Finset.Subset.antisymm (fun i hi => ?_) (hsub hF)
        obtain ⟨-, F', hF', hi'⟩ := Finset.mem_filter.1 hi
        exact huniq F' hF' ▸ hi'
      rw [this]
      exact spanningForest_card h hF.forest
  rw [hlen]
  refine ⟨?_, hiff, fun hd => hiff.2 ⟨F₀, hF₀, fun F hF => ?_⟩⟩
  · have := Finset.card_le_card (hsub hF₀)
    omega
  · have heq : ∀ {F}, IsMaxSpanningForest g.endsAt w F → F = U := fun {F} hF =>
      Finset.Subset.antisymm (hsub hF) fun i hi =>
        maxSpanningForest_all hd hF (mem_some_maxSpanningForest_iff.1 (Finset.mem_filter.1 hi).2)
    exact (heq hF).trans (heq hF₀).symm

/-- C123.  In terms of `connected_component_orders`, on undirected graphs whose edges have different weights, self loops excepted. -/
theorem unionOfMaximumSpanningTrees_orders {ulongMax : Nat} (hu : 2^32 - 1 ≤ ulongMax) (h : g.WF) (hd : g.directed = false) {attr : String}
    {w : Fin g.edgesData.length → K} (hw : g.Weights attr w) (hsep : NoNearTies w) (hord : SafeOrder ulongMax g.order)
    (hdiff : ∀ i j, (g.endsAt i).1 ≠ (g.endsAt i).2 → (g.endsAt j).1 ≠ (g.endsAt j).2 → w i = w j → i = j) :
    (unionOfMaximumSpanningTrees ulongMax g attr).yields.length + (connectedComponentOrders g none).yields.length = g.order := by
  rw [connectedComponentOrders_exact h hd]
  exact (unionOfMaximumSpanningTrees_size hu h hw hsep hord).2.2 hdiff

/-- C123.  With `keep_connected` and a threshold above the weights, a simple graph whose edges have different weights, self loops
excepted, is left with a spanning forest. -/
theorem keepConnected_forest [PyOrd V] [AttrVal (Val K)] {ulongMax : Nat} (hu : 2^32 - 1 ≤ ulongMax) (h : g.WF) (hm : g.multi = false)
    {w : Fin g.edgesData.length → K} (hw : ∀ i, HasNumber "weight" g.edgesData[i].2.2 (w i)) (hsep : NoNearTies w)
    (hord : SafeOrder ulongMax g.order) (hkw : ∀ e ∈ g.edgesData, EdgeKwSafe g.multi e.2.2)
    (hdiff : ∀ i j, (g.endsAt i).1 ≠ (g.endsAt i).2 → (g.endsAt j).1 ≠ (g.endsAt j).2 → w i = w j → i = j)
    {t : K} (ht : ∀ i, w i < t) :
    ∃ g', globalThresholdSparsification ulongMax g t "weight" false true = .ok g' ∧
      g'.edgesData.length + (componentOrders g.nodes g.edges).length = g.order ∧
      ∃ F, IsMaxSpanningForest g.endsAt w F ∧ ∀ e, e ∈ g'.edgesData ↔ ∃ i ∈ F, g.edgesData[i] = e := by
  classical
  obtain ⟨g', e1, -, e2⟩ := keepConnected_weight_partial hu h hm t false hw hsep hord hkw
  have hW : g.Weights "weight" w := fun i => by
    rcases hw i with h | h | h
    · exact .inr (.inl h)
    · exact .inr (.inr (.inl h))
    · exact .inr (.inr (.inr h))
  have hsize := unionOfMaximumSpanningTrees_size hu h hW hsep hord
  obtain ⟨-, hperm⟩ := unionOfMaximumSpanningTrees_exact hu h hW hsep hord
  have hfil : (List.finRange g.edgesData.length).filter (fun i => decide ((if false = true then w i ≤ t else t ≤ w i) ∨
        ∃ F, IsMaxSpanningForest g.endsAt w F ∧ i ∈ F)) =
      (List.finRange g.edgesData.length).filter (fun i => decide (∃ F, IsMaxSpanningForest g.endsAt w F ∧ i ∈ F)) := by
    refine List.filter_congr fun i _ => ?_
    have := ht i
    simp only [Bool.false_eq_true, if_false, decide_eq_decide]
    exact ⟨fun h => h.resolve_left (not_le.2 this), .inr⟩
  rw [hfil] at e2
  obtain ⟨F, hF, huniq⟩ := hsize.2.1.1 (hsize.2.2 hdiff)
  refine ⟨g', e1, ?_, F, hF, fun e => ?_⟩
  · have := hsize.2.2 hdiff
    rw [hperm.length_eq] at this
    rw [e2]
    exact this
  · rw [e2, List.mem_map]
    simp only [List.mem_filter, List.mem_finRange, true_and, decide_eq_true_eq]
    constructor
    · rintro ⟨i, ⟨F', hF', hi⟩, rfl⟩
      exact ⟨i, huniq F' hF' ▸ hi, rfl⟩
    · rintro ⟨i, hi, rfl⟩
      exact ⟨i, ⟨F, hF, hi⟩, rfl⟩

end

/-- A triangle whose edges have the weights `a`, `b` and `c`. -/
def weighedTriangle (a b c : ℚ) : Graph Int (Val ℚ) :=
  ⟨false, false, [], [(0, []), (1, []), (2, [])],
    [⟨0, 1, [(.int 0, [(.str "weight", .num a)])]⟩, ⟨1, 2, [(.int 0, [(.str "weight", .num b)])]⟩,
     ⟨0, 2, [(.int 0, [(.str "weight", .num c)])]⟩]⟩

/-- C123, a case: a triangle of weights 3, 2 and 1 meets the hypotheses and has 2 edges in its trees; one of weights 1, 1 and 1 has 3. -/
theorem unionOfMaximumSpanningTrees_size_sample :
    (weighedTriangle 3 2 1).WF ∧ SafeOrder (2^64 - 1) (weighedTriangle 3 2 1).order ∧
    (∃ w : Fin (weighedTriangle 3 2 1).edgesData.length → ℚ, (weighedTriangle 3 2 1).Weights "weight" w ∧ NoNearTies w ∧
      (∀ i j, w i = w j → i = j) ∧ ∀ i, w i < 4) ∧
    (connectedComponentOrders (weighedTriangle 3 2 1) none).yields = [3] ∧
    (unionOfMaximumSpanningTrees (2^64 - 1) (weighedTriangle 3 2 1) "weight").yields.length = 2 ∧
    (unionOfMaximumSpanningTrees (2^64 - 1) (weighedTriangle 1 1 1) "weight").yields.length = 3 := by
  have ho : (weighedTriangle 3 2 1).order = 3 := rfl
  refine ⟨by constructor <;> decide, by rw [ho]; refine ⟨by norm_num, by norm_num, by norm_num, by norm_num⟩, ?_,
    by decide +kernel, by decide +kernel, by decide +kernel⟩
  have hv : ∀ i : Fin (weighedTriangle 3 2 1).edgesData.length,
      numWeight "weight" (weighedTriangle 3 2 1).edgesData[i].2.2 = some (([3, 1, 2] : List ℚ).getD i.1 0) := by
    decide +kernel
  refine ⟨fun i => ([3, 1, 2] : List ℚ).getD i.1 0, fun i => numWeight_hasWeight (hv i), ?_, ?_, ?_⟩
  · unfold NoNearTies
    decide +kernel
  · decide +kernel
  · decide +kernel

end Pelote
