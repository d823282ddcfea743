import Verif.Props.Sparsification
import Verif.Props.Reorder
import Verif.Props.LearnUse

/-! C94: `keep_connected` keeps, for every threshold, what the edges reaching it link. -/
set_option linter.unusedSectionVars false
namespace Pelote
open Graph
open scoped List
variable {V K : Type} [DecidableEq V] [Field K] [LinearOrder K] [IsStrictOrderedRing K]

/-- Edges `S` among which are all those whose ends are not linked by heavier ones.  For every set `U` of edges which contains
with an edge all the heavier ones, the edges of `S` in `U` link what all the edges of `U` link. -/
theorem linkedBy_upper {ι : Type} [Finite ι] {ends : ι → V × V} {w : ι → K} {S U : Set ι}
    (hS : ∀ i, ¬ LinkedBy ends {j | w i < w j} (ends i).1 (ends i).2 → i ∈ S) (hU : ∀ i j, w i < w j → i ∈ U → j ∈ U) (x y : V) :
    LinkedBy ends {i | i ∈ S ∧ i ∈ U} x y ↔ LinkedBy ends U x y := by
  have wf : WellFounded (fun i j : ι => w j < w i) := by
    haveI : IsTrans ι (fun i j => w j < w i) := ⟨fun _ _ _ h1 h2 => h2.trans h1⟩
    haveI : Std.Irrefl (fun i j : ι => w j < w i) := ⟨fun _ h => lt_irrefl _ h⟩
    exact Finite.wellFounded_of_trans_of_irrefl _
  have step : ∀ T : Set ι, (∀ i ∈ T, LinkedBy ends {i | i ∈ S ∧ i ∈ U} (ends i).1 (ends i).2) → ∀ a b, LinkedBy ends T a b →
      LinkedBy ends {i | i ∈ S ∧ i ∈ U} a b := by
    intro T hT a b h
    unfold LinkedBy at h
    induction h with
    | rel a b hab =>
      obtain ⟨j, hj, he⟩ := hab
      have := hT j hj
      rw [he] at this
      exact this
    | refl a => exact .refl _ _
    | symm a b _ h => exact h.symm
    | trans a b c _ _ h1 h2 => exact h1.trans h2
  have key : ∀ i ∈ U, LinkedBy ends {i | i ∈ S ∧ i ∈ U} (ends i).1 (ends i).2 := by
    intro i
    induction i using wf.induction with
    | _ i ih =>
      intro hi
      by_cases hl : LinkedBy ends {j | w i < w j} (ends i).1 (ends i).2
      · exact step _ (fun j hj => ih j hj (hU i j hj hi)) _ _ hl
      · exact .rel _ _ ⟨i, ⟨hS i hl, hi⟩, rfl⟩
  refine ⟨?_, step U key x y⟩
  unfold LinkedBy
  apply Relation.EqvGen.mono
  rintro a b ⟨i, hi, he⟩
  exact ⟨i, hi.2, he⟩

/-- In particular those of weight at least `t`. -/
theorem linkedBy_heavy {ι : Type} [Finite ι] {ends : ι → V × V} {w : ι → K} {S : Set ι}
    (hS : ∀ i, ¬ LinkedBy ends {j | w i < w j} (ends i).1 (ends i).2 → i ∈ S) (t : K) (x y : V) :
    LinkedBy ends {i | i ∈ S ∧ t ≤ w i} x y ↔ LinkedBy ends {i | t ≤ w i} x y :=
  linkedBy_upper hS (fun _ _ h1 h2 => le_trans h2 h1.le) x y

/-- C94.  Whatever the numeric weights, near ties included, whenever nothing is raised: the edges yielded whose weight is at
least `t` link what all the edges whose weight is at least `t` link. -/
theorem unionOfMaximumSpanningTrees_heavy {ulongMax : Nat} (hu : 2^32 - 1 ≤ ulongMax)
    {g : Graph V (Val K)} (h : g.WF) {attr : String} {w : Fin g.edgesData.length → K}
    (hw : g.Weights attr w) (hcap : g.order ≤ 2^64)
    (herr : (unionOfMaximumSpanningTrees ulongMax g attr).err = none) :
    ∃ is : List (Fin g.edgesData.length),
      unionOfMaximumSpanningTrees ulongMax g attr = ⟨is.map (fun i => g.edgesData[i]), none⟩ ∧
      ∀ t x y, LinkedBy g.endsAt {i | i ∈ is ∧ t ≤ w i} x y ↔ LinkedBy g.endsAt {i | t ≤ w i} x y := by
  classical
  obtain ⟨is, -, -, hy, -, hF⟩ := unionOfMaximumSpanningTrees_connectivity_ok hu h hw hcap herr
  refine ⟨is, hy, fun t x y => linkedBy_heavy (S := {i | i ∈ is}) (fun i hi => ?_) t x y⟩
  obtain ⟨F, hF1, hF2⟩ := mem_some_maxSpanningForest_iff.2 hi
  exact hF F hF1 i hF2

theorem numWeight_hasWeight {attr : String} {a : Attrs (Val K)} {w : K} (h : numWeight attr a = some w) :
    HasWeight attr a w := by
  unfold numWeight at h
  unfold HasWeight
  split at h <;> simp_all

theorem weighted_weights' {g : Graph V (Val K)} {attr : String} (hw : Weighted g attr) :
    ∃ w : Fin g.edgesData.length → K, g.Weights attr w ∧ ∀ i : Fin g.edgesData.length,
      numWeight attr g.edgesData[i].2.2 = some (w i) := by
  choose w hw using fun i : Fin g.edgesData.length => hw g.edgesData[i] (List.getElem_mem _)
  exact ⟨w, fun i => numWeight_hasWeight (hw i), hw⟩

/-- C94.  Sparsifying with `keep_connected`, whatever the predicate, on graphs of any kind: for every threshold, the edges kept
whose weight reaches it link what all the edges whose weight reaches it linked. -/
theorem keepConnected_heavy [PyOrd V] [AttrVal (Val K)] {ulongMax : Nat}
    (hu : 2^32 - 1 ≤ ulongMax) {factory : PredFactory V (Val K)} {s : Sparsifier V (Val K)}
    (hs : Sparsifier.make ulongMax (some factory) none none true = .ok s)
    {g : Graph V (Val K)} (h : g.WF) {p : V → V → Attrs (Val K) → Bool} (hF : FactoryAnswers factory g p)
    (hw : Weighted g "weight") (hcap : g.order ≤ 2^64)
    (herr : (unionOfMaximumSpanningTrees ulongMax g "weight").err = none)
    (hkw : ∀ e ∈ g.edgesData, EdgeKwSafe g.multi e.2.2) :
    ∃ g', s.filter g = .ok g' ∧ g'.WF ∧ g'.directed = g.directed ∧ g'.node = g.node ∧ Weighted g' "weight" ∧
      (∀ t x y, Linked (heavyEdges g' "weight" t) x y ↔ Linked (heavyEdges g "weight" t) x y) ∧
      (∀ x y, Linked g'.edges x y ↔ Linked g.edges x y) := by
  obtain ⟨w, hw1, hw2⟩ := weighted_weights' hw
  have hw3 : ∀ e ∈ g.edgesData, ∃ w, HasWeight "weight" e.2.2 w := fun e he =>
    (hw e he).imp fun w hw => numWeight_hasWeight hw
  obtain ⟨is, hy, hlink⟩ := unionOfMaximumSpanningTrees_heavy hu h hw1 hcap herr
  obtain ⟨s', hs', hpart⟩ := sparsifier_partition ulongMax factory true
  rw [hs] at hs'
  cases hs'
  obtain ⟨q, hq, hrel, -⟩ := hpart g p hF (fun _ => herr)
  obtain ⟨g', e1, wf, e2, -, -, e3, e4⟩ := sparsifier_filter hs h hF (fun _ => herr) hkw
  obtain ⟨g'', f1, -, f2, -⟩ := keepConnected_ok hu hs h hF hw3 hcap herr hkw
  rw [e1] at f1
  cases f1
  have hsub : ∀ e ∈ g'.edgesData, e ∈ g.edgesData := by
    intro e he
    rw [e4, hrel] at he
    obtain ⟨k, hk, rfl⟩ := List.mem_map.1 he
    exact List.mem_map.2 ⟨k, (List.mem_filter.1 hk).1, rfl⟩
  refine ⟨g', e1, wf, e2, e3, fun e he => hw e (hsub e he), fun t x y => ?_, f2⟩
  have hmemg : ∀ a b, (a, b) ∈ heavyEdges g "weight" t ↔ ∃ i ∈ {i | t ≤ w i}, g.endsAt i = (a, b) := by
    intro a b
    unfold heavyEdges
    simp only [List.mem_map, List.mem_filter, Set.mem_ofPred_eq]
    constructor
    · rintro ⟨e, ⟨he, ht⟩, hab⟩
      obtain ⟨i, hi, rfl⟩ := List.mem_iff_getElem.1 he
      have := hw2 ⟨i, hi⟩
      simp only [Fin.getElem_fin] at this
      rw [this] at ht
      exact ⟨⟨i, hi⟩, by simpa using ht, hab⟩
    · rintro ⟨i, ht, hab⟩
      refine ⟨g.edgesData[i], ⟨List.getElem_mem _, ?_⟩, hab⟩
      rw [hw2 i]
      simpa using ht
  constructor
  · unfold Linked
    apply Relation.EqvGen.mono
    intro a b hab
    unfold heavyEdges at hab ⊢
    obtain ⟨e, he, heq⟩ := List.mem_map.1 hab
    obtain ⟨he, ht⟩ := List.mem_filter.1 he
    exact List.mem_map.2 ⟨e, List.mem_filter.2 ⟨hsub e he, ht⟩, heq⟩
  · intro hxy
    have h1 : LinkedBy g.endsAt {i | t ≤ w i} x y := (linkedBy_iff (fun p => hmemg p.1 p.2)).2 hxy
    have h2 := (hlink t x y).2 h1
    unfold LinkedBy at h2
    unfold Linked
    revert h2
    apply Relation.EqvGen.mono
    rintro a b ⟨i, ⟨hi, ht⟩, hab⟩
    have hmem : g.edgesData[i] ∈ g.edgesData := List.getElem_mem _
    obtain ⟨⟨u, v, k, c⟩, he, heq⟩ := List.mem_map.1 hmem
    unfold heavyEdges
    refine List.mem_map.2 ⟨g.edgesData[i], List.mem_filter.2 ⟨?_, ?_⟩, hab⟩
    · rw [e4, hrel]
      refine List.mem_map.2 ⟨(u, v, k, c), List.mem_filter.2 ⟨he, ?_⟩, heq⟩
      rw [hq]
      right
      refine ⟨rfl, c, ?_⟩
      rw [hy]
      exact List.mem_map.2 ⟨i, hi, heq.symm⟩
    · rw [hw2 i]
      simpa using ht

/-- C94.  What `connected_component_orders`, with the filter of the threshold learner, gives on the sparse graph: the same as
on the graph, for every threshold. -/
theorem connectedComponentOrders_heavy {g g' : Graph V (Val K)} (h : g.WF) (h' : g'.WF) (hd : g.directed = false)
    (hd' : g'.directed = false) (hn : g'.node = g.node) {attr : String} (hw : Weighted g attr) (hw' : Weighted g' attr) {t : K}
    (hl : ∀ x y, Linked (heavyEdges g' attr t) x y ↔ Linked (heavyEdges g attr t) x y) :
    connectedComponentOrders g' (some (floatsamFilter attr t)) = connectedComponentOrders g (some (floatsamFilter attr t)) := by
  have key : ∀ {g : Graph V (Val K)}, g.WF → g.directed = false → Weighted g attr →
      connectedComponentOrders g (some (floatsamFilter attr t)) = ⟨heavyOrders g attr t, none⟩ := by
    intro g h hd hw
    exact connectedComponentOrders_filter h hd (f := floatsamFilter attr t)
      (p := fun _ _ a => (numWeight attr a).any (fun w => decide (t ≤ w))) (by
        intro e he
        obtain ⟨w, hw⟩ := hw e he
        rw [floatsamFilter_ok hw, floatsamFilter_ok hw, hw]
        simp)
  rw [key h hd hw, key h' hd' hw']
  have e : g'.nodes = g.nodes := by unfold Graph.nodes; rw [hn]
  unfold heavyOrders
  rw [e, componentOrders_congr _ hl]

/-- C94.  The threshold learner finds the same threshold on the sparse graph as on the graph, with the same calls of
`on_epoch`, whatever its options and the rounding of sums. -/
theorem floatsam_keepConnected [PyOrd V] [AttrVal (Val K)] {ulongMax : Nat}
    (hu : 2^32 - 1 ≤ ulongMax) {factory : PredFactory V (Val K)} {s : Sparsifier V (Val K)}
    (hs : Sparsifier.make ulongMax (some factory) none none true = .ok s)
    {g : Graph V (Val K)} (h : g.WF) (hd : g.directed = false) {p : V → V → Attrs (Val K) → Bool}
    (hF : FactoryAnswers factory g p) (hw : Weighted g "weight") (hcap : g.order ≤ 2^64)
    (herr : (unionOfMaximumSpanningTrees ulongMax g "weight").err = none)
    (hkw : ∀ e ∈ g.edgesData, EdgeKwSafe g.multi e.2.2) (hloop : ∃ e ∈ g.edges, e.1 ≠ e.2) :
    ∃ g', s.filter g = .ok g' ∧
      (∀ t, connectedComponentOrders g' (some (floatsamFilter "weight" t)) =
        connectedComponentOrders g (some (floatsamFilter "weight" t))) ∧
      ∀ (rnd : K → K) (start rate : K) (given : Option K) (o : OnEpoch K) (fuel : Nat),
        floatsamR rnd g' start rate given "weight" o fuel = floatsamR rnd g start rate given "weight" o fuel := by
  obtain ⟨g', e1, wf, e2, e3, e4, e5, e6⟩ := keepConnected_heavy hu hs h hF hw hcap herr hkw
  have hn : g'.nodes = g.nodes := by unfold Graph.nodes; rw [e3]
  have horders : ∀ t, connectedComponentOrders g' (some (floatsamFilter "weight" t)) =
      connectedComponentOrders g (some (floatsamFilter "weight" t)) := fun t =>
    connectedComponentOrders_heavy h wf hd (e2.trans hd) e3 hw e4 (e5 t)
  refine ⟨g', e1, horders, fun rnd start rate given o fuel => ?_⟩
  have hsecond : ∀ t, secondLargestComponentOrder g' (some (floatsamFilter "weight" t)) =
      secondLargestComponentOrder g (some (floatsamFilter "weight" t)) := by
    intro t
    unfold secondLargestComponentOrder
    rw [horders t]
  have hall : connectedComponentOrders g' none = connectedComponentOrders g none := by
    rw [connectedComponentOrders_exact h hd, connectedComponentOrders_exact wf (e2.trans hd), hn, componentOrders_congr _ e6]
  have hmax : maxDrifterOrder g' given = maxDrifterOrder g given := by
    have : largestComponentOrder g' = largestComponentOrder g := by
      have ho : g'.order = g.order := by unfold Graph.order; rw [e3]
      unfold largestComponentOrder
      rw [hall, ho]
    unfold maxDrifterOrder
    rw [this]
  have hloopR : ∀ m n t, floatsamLoopR rnd g' rate m "weight" o fuel n t = floatsamLoopR rnd g rate m "weight" o fuel n t := by
    intro m
    induction fuel with
    | zero => intro n t; rfl
    | succ fuel ih =>
      intro n t
      simp only [floatsamLoopR, hsecond, ih]
  have hsize : g.size ≠ 0 := by
    rw [Graph.size_eq h]
    obtain ⟨e, he, -⟩ := hloop
    exact (List.length_pos_of_mem he).ne'
  have hsize' : g'.size ≠ 0 := by
    rw [Graph.size_eq wf]
    intro hc
    obtain ⟨⟨a, b⟩, he, hne⟩ := hloop
    have hl : Linked g'.edges a b := (e6 a b).2 (.rel _ _ he)
    rw [List.length_eq_zero_iff.1 hc] at hl
    apply hne
    unfold Linked at hl
    have : ∀ x y, Relation.EqvGen (fun a b : V => (a, b) ∈ ([] : List (V × V))) x y → x = y := by
      intro x y h
      induction h with
      | rel _ _ h => cases h
      | refl => rfl
      | symm _ _ _ ih => exact ih.symm
      | trans _ _ _ _ _ h1 h2 => exact h1.trans h2
    exact this _ _ hl
  unfold floatsamR
  cases o <;> simp only [if_neg hsize, if_neg hsize', hmax, hloopR]

/-! ### Samples -/

/-- A triangle and a pendant edge. -/
def kiteGraph : Graph Int (Val ℚ) :=
  ⟨false, false, [], [(0, []), (1, []), (2, []), (3, [])],
    [⟨0, 1, [(.int 0, [(.str "weight", .num 3)])]⟩, ⟨1, 2, [(.int 0, [(.str "weight", .num 2)])]⟩,
     ⟨0, 2, [(.int 0, [(.str "weight", .num 1)])]⟩, ⟨2, 3, [(.int 0, [(.str "weight", .num 1)])]⟩]⟩

/-- The hypotheses of `floatsam_keepConnected` are met by this graph and a threshold above all weights; an edge is dropped,
the threshold learned stays.  Without `keep_connected`, no edge is left and the learner gives its starting threshold. -/
theorem floatsam_keepConnected_sample :
    kiteGraph.WF ∧ Weighted kiteGraph "weight" ∧
    (unionOfMaximumSpanningTrees (2^64 - 1) kiteGraph "weight").err = none ∧
    (∀ e ∈ kiteGraph.edgesData, EdgeKwSafe kiteGraph.multi e.2.2) ∧ (∃ e ∈ kiteGraph.edges, e.1 ≠ e.2) ∧
    (∃ g', globalThresholdSparsification (2^64 - 1) kiteGraph 10 "weight" false true = .ok g' ∧
      g'.edges = [(0, 1), (1, 2), (2, 3)] ∧
      ∃ tr tr', floatsam kiteGraph 0 1 (some 1) "weight" .none 9 = (tr, .ok 1) ∧
        floatsam g' 0 1 (some 1) "weight" .none 9 = (tr', .ok 1)) ∧
    ∃ g', globalThresholdSparsification (2^64 - 1) kiteGraph 10 "weight" false false = .ok g' ∧
      floatsam g' 0 1 (some 1) "weight" .none 9 = ([], .ok 0) := by
  have hwf : kiteGraph.WF := by constructor <;> decide
  have hw : Weighted kiteGraph "weight" := by
    have : ∀ e ∈ kiteGraph.edgesData, (numWeight "weight" e.2.2).isSome = true := by decide +kernel
    exact fun e he => Option.isSome_iff_exists.1 (this e he)
  have herr : (unionOfMaximumSpanningTrees (2^64 - 1) kiteGraph "weight").err = none := by decide +kernel
  have hkw : ∀ e ∈ kiteGraph.edgesData, EdgeKwSafe kiteGraph.multi e.2.2 := by
    have : ∀ e ∈ kiteGraph.edgesData, e.2.2.keys = [.str "weight"] := by decide +kernel
    intro e he k hk
    rw [this e he] at hk
    exact ⟨"weight", by simpa using hk, by decide⟩
  have hloop : ∃ e ∈ kiteGraph.edges, e.1 ≠ e.2 := by decide +kernel
  obtain ⟨s, hs, -⟩ := sparsifier_partition (2^64 - 1)
    (fun _ => .ok (thresholdPredicate (V := Int) (10 : ℚ) "weight" false)) true
  obtain ⟨g', e1, -, e3⟩ := floatsam_keepConnected (by norm_num) hs hwf rfl
    (threshold_answers (10 : ℚ) false (hasNumber_of_weighted hw)) hw (by decide) herr hkw hloop
  have e1' : globalThresholdSparsification (2^64 - 1) kiteGraph 10 "weight" false true = .ok g' := by
    unfold globalThresholdSparsification globalThresholdSparsifier
    rw [hs]; exact e1
  have hfloat : floatsam kiteGraph 0 1 (some 1) "weight" .none 9 = ([], .ok 1) := by
    have h1 : connectedComponentOrders kiteGraph (some (floatsamFilter "weight" (0 + 1))) = ⟨[4], none⟩ :=
      gen_eq (by decide +kernel) (by decide +kernel)
    have h2 : connectedComponentOrders kiteGraph (some (floatsamFilter "weight" (0 + 1 + 1))) = ⟨[3, 1], none⟩ :=
      gen_eq (by decide +kernel) (by decide +kernel)
    have hsz : kiteGraph.size ≠ 0 := by decide +kernel
    unfold floatsam floatsamR
    simp only [maxDrifterOrder]
    rw [if_neg hsz]
    rw [floatsamLoopR.eq_2]
    simp only [secondLargestComponentOrder, h1]
    rw [floatsamLoopR.eq_2]
    simp only [secondLargestComponentOrder, h2]
    simp [Gen.toList, nlargest, List.mergeSort, List.MergeSort.Internal.splitInTwo, OnEpoch.call]
  refine ⟨hwf, hw, herr, hkw, hloop, ⟨g', e1', ?_, [], [], hfloat, ?_⟩, ?_⟩
  · have : edgesOk (globalThresholdSparsification (2^64 - 1) kiteGraph 10 "weight" false true) =
        some [(0, 1), (1, 2), (2, 3)] := by decide +kernel
    rw [e1'] at this
    simpa [edgesOk] using this
  · exact (e3 _ 0 1 (some 1) .none 9).trans hfloat
  · obtain ⟨g', f1, f2, -, -, -, -, f3⟩ := globalThreshold_exact (2^64 - 1) hwf (10 : ℚ) (attr := "weight") false false
      (hasNumber_of_weighted hw) (by simp) hkw
    refine ⟨g', f1, ?_⟩
    have : edgesOk (globalThresholdSparsification (2^64 - 1) kiteGraph 10 "weight" false false) = some [] := by decide +kernel
    rw [f1] at this
    have hz : g'.size = 0 := by
      rw [Graph.size_eq f2]
      have : g'.edges = [] := by simpa [edgesOk] using this
      rw [this]; rfl
    unfold floatsam floatsamR
    simp [hz]

/-- A triangle with two weights. -/
def twoWeights : Graph Int (Val ℚ) :=
  ⟨false, false, [], [(0, []), (1, []), (2, [])],
    [⟨0, 1, [(.int 0, [(.str "weight", .num 1), (.str "strength", .num 3)])]⟩,
     ⟨1, 2, [(.int 0, [(.str "weight", .num 2), (.str "strength", .num 1)])]⟩,
     ⟨0, 2, [(.int 0, [(.str "weight", .num 2), (.str "strength", .num 1)])]⟩]⟩

/-- C94 is about the attribute `"weight"`: sparsifying by another one with `keep_connected` may cut what its heavy edges link
(C63). -/
theorem keepConnected_heavy_other :
    twoWeights.WF ∧ Weighted twoWeights "strength" ∧
    ∃ g', globalThresholdSparsification (2^64 - 1) twoWeights 10 "strength" false true = .ok g' ∧
      Linked (heavyEdges twoWeights "strength" 3) 0 1 ∧ ¬ Linked (heavyEdges g' "strength" 3) 0 1 := by
  have hwf : twoWeights.WF := by constructor <;> decide
  have hw : Weighted twoWeights "strength" := by
    have : ∀ e ∈ twoWeights.edgesData, (numWeight "strength" e.2.2).isSome = true := by decide +kernel
    exact fun e he => Option.isSome_iff_exists.1 (this e he)
  have herr : (unionOfMaximumSpanningTrees (2^64 - 1) twoWeights "weight").err = none := by decide +kernel
  have hkw : ∀ e ∈ twoWeights.edgesData, EdgeKwSafe twoWeights.multi e.2.2 := by
    have : ∀ e ∈ twoWeights.edgesData, e.2.2.keys = [.str "weight", .str "strength"] := by decide +kernel
    intro e he k hk
    rw [this e he] at hk
    rcases List.mem_cons.1 hk with rfl | hk
    · exact ⟨"weight", rfl, by decide⟩
    · exact ⟨"strength", by simpa using hk, by decide⟩
  obtain ⟨g', f1, f2, -, -, -, -, f3⟩ := globalThreshold_exact (2^64 - 1) hwf (10 : ℚ) (attr := "strength") false true
    (hasNumber_of_weighted hw) (fun _ => herr) hkw
  refine ⟨hwf, hw, g', f1, .rel _ _ (by decide +kernel), ?_⟩
  have he : (heavyEdges g' "strength" 3) = [] := by
    have : (match globalThresholdSparsification (2^64 - 1) twoWeights 10 "strength" false true with
      | .ok g => heavyEdges g "strength" 3
      | .error _ => []) = [] := by decide +kernel
    rw [f1] at this
    exact this
  rw [he]
  intro hl
  have : ∀ x y, Relation.EqvGen (fun a b : Int => (a, b) ∈ ([] : List (Int × Int))) x y → x = y := by
    intro x y h
    induction h with
    | rel _ _ h => cases h
    | refl => rfl
    | symm _ _ _ ih => exact ih.symm
    | trans _ _ _ _ _ h1 h2 => exact h1.trans h2
  exact absurd (this _ _ hl) (by decide)

end Pelote
