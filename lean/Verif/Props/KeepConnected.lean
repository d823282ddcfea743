import Verif.Props.Sparsification
import Verif.Props.SpanningTreesNear

/-! C63: the weights `keep_connected` relies on. -/
set_option linter.unusedSectionVars false
namespace Pelote
open Graph
open scoped List
variable {V K : Type} [DecidableEq V] [Field K] [LinearOrder K] [IsStrictOrderedRing K]

/-- A simple graph lists each pair once. -/
theorem edges_nodup {A : Type} {g : Graph V A} (h : g.WF) (hm : g.multi = false) : g.edges.Nodup := by
  have h1 : g.edges = g.groups.map (fun l => (l.u, l.v)) := by
    rw [Graph.edges, edgesKeys_eq g h.nodup, List.map_flatMap, ← List.flatMap_singleton' (g.groups.map _),
      List.flatMap_map]
    refine List.flatMap_congr (fun l hl => ?_)
    obtain ⟨m, hm', rfl⟩ := (mem_groups h).1 hl
    have := h.simple hm m hm'
    rw [Dict.keys, List.map_eq_singleton_iff] at this
    obtain ⟨x, hx, -⟩ := this
    simp [expand, orient_data, hx]
  rw [h1, ((groups_perm g h).map _).nodup_iff, List.map_map]
  refine List.Pairwise.map _ ?_ h.uniq
  intro l m hs he
  have hne : samePair g.directed l.u l.v m.u m.v ≠ true := by rw [hs]; simp
  apply hne
  rw [samePair_iff]
  simp only [Function.comp, Prod.mk.injEq] at he
  rcases g.orient_cases l with e | ⟨hd, e⟩ <;> rcases g.orient_cases m with e' | ⟨hd', e'⟩ <;>
    rw [e, e'] at he <;> simp_all

theorem edgesData_pairs_nodup {A : Type} {g : Graph V A} (h : g.WF) (hm : g.multi = false)
    {i j : Fin g.edgesData.length} (hij : g.endsAt i = g.endsAt j) : i = j := by
  have hnd := edges_nodup h hm
  rw [edges_eq_map] at hnd
  have := (List.nodup_iff_injective_getElem.1 hnd)
  have h2 := @this ⟨i, by simp⟩ ⟨j, by simp⟩ (by simpa [Graph.endsAt] using hij)
  simpa [Fin.ext_iff] using h2

open Classical in
/-- C63 when weights are read from `"weight"`, for simple graphs: with `keep_connected`, the edges kept are exactly the ones
meeting the threshold and the ones belonging to some maximum spanning forest, near ties being merged. -/
theorem keepConnected_weight_merged [PyOrd V] [AttrVal (Val K)] {ulongMax : Nat} (hu : 2^32 - 1 ≤ ulongMax)
    {g : Graph V (Val K)} (h : g.WF) (hm : g.multi = false) (t : K) (reverse : Bool)
    {w w' : Fin g.edgesData.length → K} (hw : ∀ i, HasNumber "weight" g.edgesData[i].2.2 (w i))
    (hmerge : MergesNearTies w w') (hord : SafeOrder ulongMax g.order)
    (hkw : ∀ e ∈ g.edgesData, EdgeKwSafe g.multi e.2.2) :
    ∃ g', globalThresholdSparsification ulongMax g t "weight" reverse true = .ok g' ∧ g'.node = g.node ∧
      g'.edgesData = ((List.finRange g.edgesData.length).filter
        (fun i => decide ((if reverse then w i ≤ t else t ≤ w i) ∨
          ∃ F, IsMaxSpanningForest g.endsAt w' F ∧ i ∈ F))).map (fun i => g.edgesData[i]) := by
  have hW : g.Weights "weight" w := fun i => by
    rcases hw i with h | h | h
    · exact .inr (.inl h)
    · exact .inr (.inr (.inl h))
    · exact .inr (.inr (.inr h))
  obtain ⟨herr, hperm⟩ := unionOfMaximumSpanningTrees_merged hu h hW hmerge hord
  have hnum : ∀ e ∈ g.edgesData, ∃ w, HasNumber "weight" e.2.2 w := by
    intro e he
    obtain ⟨i, hi, rfl⟩ := List.mem_iff_getElem.1 he
    exact ⟨_, hw ⟨i, hi⟩⟩
  obtain ⟨g', e1, -, -, -, -, e2, e3⟩ := globalThreshold_exact ulongMax h t reverse true hnum (fun _ => herr) hkw
  refine ⟨g', e1, e2, ?_⟩
  rw [e3]
  have hl : g.edgesData = (List.finRange g.edgesData.length).map (fun i => g.edgesData[i]) := by
    simp
  conv_lhs => rw [hl]
  rw [List.filter_map]
  congr 1
  refine List.filter_congr (fun i _ => ?_)
  simp only [Function.comp, decide_eq_decide, true_and]
  refine or_congr ?_ ?_
  · unfold Reaches
    constructor
    · rintro ⟨w', h1, h2⟩
      rw [(hw i).unique h1]; exact h2
    · exact fun h => ⟨_, hw i, h⟩
  · constructor
    · rintro ⟨b, hb⟩
      rw [hperm.mem_iff] at hb
      obtain ⟨j, hj, he⟩ := List.mem_map.1 hb
      have : j = i := edgesData_pairs_nodup h hm (by
        simp only [Graph.endsAt, he])
      subst this
      simpa using (List.mem_filter.1 hj).2
    · intro hF
      refine ⟨g.edgesData[i].2.2, ?_⟩
      rw [hperm.mem_iff]
      exact List.mem_map.2 ⟨i, List.mem_filter.2 ⟨List.mem_finRange _, by simpa using hF⟩, rfl⟩

open Classical in
/-- C63 when weights are read from `"weight"`, for simple graphs whose weights are equal or more than `1e-8` apart:
with `keep_connected`, the edges kept are exactly the ones meeting the threshold and the ones belonging to some
maximum spanning forest. -/
theorem keepConnected_weight_partial [PyOrd V] [AttrVal (Val K)] {ulongMax : Nat} (hu : 2^32 - 1 ≤ ulongMax)
    {g : Graph V (Val K)} (h : g.WF) (hm : g.multi = false) (t : K) (reverse : Bool)
    {w : Fin g.edgesData.length → K} (hw : ∀ i, HasNumber "weight" g.edgesData[i].2.2 (w i))
    (hsep : NoNearTies w) (hord : SafeOrder ulongMax g.order)
    (hkw : ∀ e ∈ g.edgesData, EdgeKwSafe g.multi e.2.2) :
    ∃ g', globalThresholdSparsification ulongMax g t "weight" reverse true = .ok g' ∧ g'.node = g.node ∧
      g'.edgesData = ((List.finRange g.edgesData.length).filter
        (fun i => decide ((if reverse then w i ≤ t else t ≤ w i) ∨
          ∃ F, IsMaxSpanningForest g.endsAt w F ∧ i ∈ F))).map (fun i => g.edgesData[i]) :=
  keepConnected_weight_merged hu h hm t reverse hw hsep.merges hord hkw

open Classical in
/-- C63 is false when weights are read from another attribute.  Whatever the sparsifier, on every graph none of whose
edges has a `"weight"` attribute, `keep_connected` keeps every edge but self loops (the latter following the
predicate): all the edges are then in the union of maximum spanning trees, their weights being all 1. -/
theorem keepConnected_unweighted [PyOrd V] [AttrVal (Val K)] {ulongMax : Nat} (hu : 2^32 - 1 ≤ ulongMax)
    {factory : PredFactory V (Val K)} {s : Sparsifier V (Val K)}
    (hs : Sparsifier.make ulongMax (some factory) none none true = .ok s)
    {g : Graph V (Val K)} (h : g.WF) {p : V → V → Attrs (Val K) → Bool} (hF : FactoryAnswers factory g p)
    (hw : ∀ e ∈ g.edgesData, e.2.2.get? (.str "weight") = none) (hord : SafeOrder ulongMax g.order)
    (hkw : ∀ e ∈ g.edgesData, EdgeKwSafe g.multi e.2.2) :
    ∃ g', s.filter g = .ok g' ∧ g'.node = g.node ∧
      g'.edgesData = g.edgesData.filter (fun e => decide (e.1 ≠ e.2.1) || p e.1 e.2.1 e.2.2) := by
  have hW : g.Weights "weight" (fun _ => 1) := fun i => .inl ⟨hw _ (List.getElem_mem _), rfl⟩
  obtain ⟨herr, hperm⟩ := unionOfMaximumSpanningTrees_exact hu h hW (fun _ _ => .inl rfl) hord
  obtain ⟨s', hs', hpart⟩ := sparsifier_partition ulongMax factory true
  rw [hs] at hs'
  cases hs'
  obtain ⟨q, hq, hrel, -⟩ := hpart g p hF (fun _ => herr)
  obtain ⟨g', e1, -, -, -, -, e2, e3⟩ := sparsifier_filter hs h hF (fun _ => herr) hkw
  refine ⟨g', e1, e2, ?_⟩
  rw [e3, hrel]
  unfold edgesData
  rw [List.filter_map]
  congr 1
  refine List.filter_congr ?_
  rintro ⟨u, v, k, a⟩ hmem
  rw [Bool.eq_iff_iff, hq]
  simp only [true_and, Function.comp, Bool.or_eq_true, decide_eq_true_eq]
  have hin : (∃ b, (u, v, b) ∈ (unionOfMaximumSpanningTrees ulongMax g "weight").yields) ↔ u ≠ v := by
    have hiff : ∀ i : Fin g.edgesData.length,
        (∃ F, IsMaxSpanningForest g.endsAt (fun _ => (1 : K)) F ∧ i ∈ F) ↔ (g.endsAt i).1 ≠ (g.endsAt i).2 := by
      intro i
      rw [mem_some_maxSpanningForest_iff, not_iff_not]
      have : {j : Fin g.edgesData.length | (1 : K) < 1} = ∅ := by simp
      rw [this]
      constructor
      · intro hl
        have : ∀ a b, LinkedBy g.endsAt ∅ a b → a = b := by
          intro a b hab
          unfold LinkedBy at hab
          induction hab with
          | rel _ _ h => obtain ⟨_, h, _⟩ := h; cases h
          | refl => rfl
          | symm _ _ _ ih => exact ih.symm
          | trans _ _ _ _ _ ih1 ih2 => exact ih1.trans ih2
        exact this _ _ hl
      · intro e
        rw [e]
        exact LinkedBy.refl _ _
    constructor
    · rintro ⟨b, hb⟩
      rw [hperm.mem_iff] at hb
      obtain ⟨i, hi, he⟩ := List.mem_map.1 hb
      have := (hiff i).1 (by simpa using (List.mem_filter.1 hi).2)
      simpa [Graph.endsAt, he] using this
    · intro hne
      have : ((u, v, a) : V × V × Attrs (Val K)) ∈ g.edgesData := List.mem_map.2 ⟨_, hmem, rfl⟩
      obtain ⟨i, hi, he⟩ := List.mem_iff_getElem.1 this
      refine ⟨a, ?_⟩
      rw [hperm.mem_iff]
      refine List.mem_map.2 ⟨⟨i, hi⟩, List.mem_filter.2 ⟨List.mem_finRange _, ?_⟩, he⟩
      have : (∃ F, IsMaxSpanningForest g.endsAt (fun _ => (1 : K)) F ∧ (⟨i, hi⟩ : Fin g.edgesData.length) ∈ F) :=
        (hiff _).2 (by simpa [Graph.endsAt, he] using hne)
      simpa using this
  rw [hin]
  exact or_comm

/-- A triangle weighted by `"w"`. -/
def trianglesW : Graph Int (Val ℚ) :=
  ⟨false, false, [], [(1, []), (2, []), (3, [])],
    [⟨1, 2, [(.int 0, [(.str "w", .num 3)])]⟩, ⟨1, 3, [(.int 0, [(.str "w", .num 1)])]⟩,
     ⟨2, 3, [(.int 0, [(.str "w", .num 2)])]⟩]⟩

/-- The weights of `trianglesW`. -/
def trianglesW.weight : Fin trianglesW.edgesData.length → ℚ := fun i => ([3, 1, 2] : List ℚ)[i]

/-- C63 is false: on a triangle weighted by `"w"`, the threshold being over every weight, the lightest edge is in no
maximum spanning forest by `"w"` and is kept by `keep_connected` nevertheless, as are all the edges. -/
theorem keepConnected_ignores_attr :
    trianglesW.WF ∧ trianglesW.Weights "w" trianglesW.weight ∧ NoNearTies trianglesW.weight ∧
    (∀ F, IsMaxSpanningForest trianglesW.endsAt trianglesW.weight F → (1 : Fin 3) ∉ F) ∧
    edgesOk (globalThresholdSparsification (2^64-1) trianglesW 10 "w" false true) = some [(1, 2), (1, 3), (2, 3)] ∧
    edgesOk (globalThresholdSparsification (2^64-1) trianglesW 10 "w" false false) = some [] := by
  refine ⟨by constructor <;> decide, ?_, ?_, ?_, by decide +kernel, by decide +kernel⟩
  · intro i
    right; left
    revert i
    decide +kernel
  · unfold NoNearTies
    decide +kernel
  · intro F hF h1
    refine hF.not_mem ?_ h1
    have h0 : LinkedBy trianglesW.endsAt {j | trianglesW.weight (1 : Fin 3) < trianglesW.weight j} 1 2 :=
      LinkedBy.of_mem (ends := trianglesW.endsAt) (i := (0 : Fin 3))
        (show trianglesW.weight (1 : Fin 3) < trianglesW.weight (0 : Fin 3) by decide +kernel)
    have h2 : LinkedBy trianglesW.endsAt {j | trianglesW.weight (1 : Fin 3) < trianglesW.weight j} 2 3 :=
      LinkedBy.of_mem (ends := trianglesW.endsAt) (i := (2 : Fin 3))
        (show trianglesW.weight (1 : Fin 3) < trianglesW.weight (2 : Fin 3) by decide +kernel)
    exact h0.trans h2

/-- A graph meeting the hypotheses of `keepConnected_weight_partial`: the path of weights 3 and 1. -/
theorem pathGraph_keepConnected :
    ∃ w : Fin pathGraph.edgesData.length → ℚ, (∀ i, HasNumber "weight" pathGraph.edgesData[i].2.2 (w i)) ∧
      NoNearTies w ∧ SafeOrder (2^64-1) pathGraph.order := by
  refine ⟨fun i => ([3, 1] : List ℚ)[i], fun i => .inl ?_, ?_, by unfold SafeOrder; decide⟩
  · revert i; decide +kernel
  · unfold NoNearTies; decide +kernel

end Pelote
