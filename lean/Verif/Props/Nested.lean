import Verif.Props.HeavyPaths
import Verif.Props.KeepConnectedTwice
import Verif.Props.DisparityFloat

/-! C95: stricter sparsifications keep fewer edges; sparsifying step by step. -/
set_option linter.unusedSectionVars false
namespace Pelote
open Graph
open scoped List
variable {V K : Type} [DecidableEq V] [Field K] [LinearOrder K] [IsStrictOrderedRing K]

/-- `t'` is stricter than `t`: above it, or below it in reverse. -/
def Stricter (reverse : Bool) (t t' : K) : Prop := if reverse then t' ≤ t else t ≤ t'

theorem Reaches.of_stricter {attr : String} {reverse : Bool} {t t' : K} (ht : Stricter reverse t t') {a : Attrs (Val K)}
    (h : Reaches t' attr reverse a) : Reaches t attr reverse a := by
  obtain ⟨w, h1, h2⟩ := h
  refine ⟨w, h1, ?_⟩
  unfold Stricter at ht
  cases reverse
  · simp only [Bool.false_eq_true, if_false] at ht h2 ⊢; exact ht.trans h2
  · simp only [if_true] at ht h2 ⊢; exact h2.trans ht

theorem filter_sublist_filter {α : Type} (l : List α) {p q : α → Bool} (h : ∀ x ∈ l, p x = true → q x = true) :
    l.filter p <+ l.filter q := by
  have : l.filter p = (l.filter q).filter p := by
    rw [List.filter_filter]
    apply List.filter_congr
    intro x hx
    cases hp : p x
    · simp
    · simp [h x hx hp]
  rw [this]
  exact List.filter_sublist

/-- C95.  Global threshold: a stricter threshold keeps some of the edges kept, in the same order, with or without
`keep_connected`; so does leaving `keep_connected` out. -/
theorem globalThreshold_nested [PyOrd V] [AttrVal (Val K)] (ulongMax : Nat) {g : Graph V (Val K)} (h : g.WF) {t t' : K}
    {attr : String} (reverse : Bool) (ht : Stricter reverse t t') {keep keep' : Bool} (hk : keep' = true → keep = true)
    (hw : ∀ e ∈ g.edgesData, ∃ w, HasNumber attr e.2.2 w)
    (hu : keep = true → (unionOfMaximumSpanningTrees ulongMax g "weight").err = none)
    (hkw : ∀ e ∈ g.edgesData, EdgeKwSafe g.multi e.2.2) :
    ∃ g₁ g₂, globalThresholdSparsification ulongMax g t attr reverse keep = .ok g₁ ∧
      globalThresholdSparsification ulongMax g t' attr reverse keep' = .ok g₂ ∧ g₂.node = g₁.node ∧
      g₂.edgesData <+ g₁.edgesData := by
  classical
  obtain ⟨g₁, a1, -, -, -, -, a2, a3⟩ := globalThreshold_exact ulongMax h t reverse keep hw hu hkw
  obtain ⟨g₂, b1, -, -, -, -, b2, b3⟩ := globalThreshold_exact ulongMax h t' reverse keep' hw (fun e => hu (hk e)) hkw
  refine ⟨g₁, g₂, a1, b1, b2.trans a2.symm, ?_⟩
  rw [a3, b3]
  apply filter_sublist_filter
  intro e _ he
  simp only [decide_eq_true_eq] at he ⊢
  exact he.imp (·.of_stricter ht) (fun h => ⟨hk h.1, h.2⟩)

/-- C95.  Multiscale backbone, whatever the operations on numbers: with a smaller `alpha`, or without `keep_connected`, some of
the edges kept, in the same order.  `f` gives the scores. -/
theorem multiscaleBackboneN_nested {W : Type} [LinearOrder W] [PyOrd W] [AttrVal (Val K)] {ops : NumOps K} (ulongMax : Nat)
    (ho : OrderedKeys W) {g : Graph W (Val K)} (h : g.WF) (hd : g.directed = false) {attr : String} {f : W → W → K}
    (hf : ∀ u v, f u v = f v u) {d : Dict (W × W) K} (h1 : edgeDisparityN ops g attr false = .ok d)
    (h3 : ∀ u v x, d.get? (u, v) = some x ↔ u ≤ v ∧ g.hasEdge u v = true ∧ x = f u v) {alpha alpha' : K}
    (ha : alpha' ≤ alpha) {keep keep' : Bool} (hk : keep' = true → keep = true)
    (hu : keep = true → (unionOfMaximumSpanningTrees ulongMax g "weight").err = none)
    (hkw : ∀ e ∈ g.edgesData, EdgeKwSafe g.multi e.2.2) :
    ∃ g₁ g₂, multiscaleBackboneN ops ulongMax g alpha attr keep = .ok g₁ ∧
      multiscaleBackboneN ops ulongMax g alpha' attr keep' = .ok g₂ ∧ g₂.node = g₁.node ∧ g₂.edgesData <+ g₁.edgesData := by
  classical
  obtain ⟨g₁, a1, -, -, -, -, a2, a3⟩ := multiscaleBackboneN_exact ulongMax ho h hd hf h1 h3 alpha keep hu hkw
  obtain ⟨g₂, b1, -, -, -, -, b2, b3⟩ := multiscaleBackboneN_exact ulongMax ho h hd hf h1 h3 alpha' keep'
    (fun e => hu (hk e)) hkw
  refine ⟨g₁, g₂, a1, b1, b2.trans a2.symm, ?_⟩
  rw [a3, b3]
  apply filter_sublist_filter
  intro e _ he
  simp only [decide_eq_true_eq] at he ⊢
  exact he.imp (·.trans ha) (fun h => ⟨hk h.1, h.2⟩)

/-- C95.  Multiscale backbone in exact arithmetic. -/
theorem multiscaleBackbone_nested {W : Type} [LinearOrder W] [PyOrd W] [AttrVal (Val K)]
    (ulongMax : Nat) (ho : OrderedKeys W) {g : Graph W (Val K)}
    (h : g.WF) (hd : g.directed = false) (hm : g.multi = false) {attr : String} {w : W → W → K}
    (hsym : ∀ u v, w u v = w v u) (hw : g.Weighted attr w)
    (hpos : ∀ u v, g.hasEdge u v = true → 0 < w u v) {alpha alpha' : K}
    (ha : alpha' ≤ alpha) {keep keep' : Bool} (hk : keep' = true → keep = true)
    (hu : keep = true → (unionOfMaximumSpanningTrees ulongMax g "weight").err = none)
    (hkw : ∀ e ∈ g.edgesData, EdgeKwSafe g.multi e.2.2) :
    ∃ g₁ g₂, multiscaleBackbone ulongMax g alpha attr keep = .ok g₁ ∧
      multiscaleBackbone ulongMax g alpha' attr keep' = .ok g₂ ∧ g₂.node = g₁.node ∧ g₂.edgesData <+ g₁.edgesData := by
  classical
  obtain ⟨g₁, a1, -, -, -, -, a2, a3⟩ := multiscaleBackbone_exact ulongMax ho h hd hm hsym hw hpos alpha keep hu hkw
  obtain ⟨g₂, b1, -, -, -, -, b2, b3⟩ := multiscaleBackbone_exact ulongMax ho h hd hm hsym hw hpos alpha' keep'
    (fun e => hu (hk e)) hkw
  refine ⟨g₁, g₂, a1, b1, b2.trans a2.symm, ?_⟩
  rw [a3, b3]
  apply filter_sublist_filter
  intro e _ he
  simp only [decide_eq_true_eq] at he ⊢
  exact he.imp (·.trans ha) (fun h => ⟨hk h.1, h.2⟩)

/-! ### Step by step -/

open Classical in
/-- The edges yielded for a graph, in terms of pairs. -/
theorem umst_pair_iff {ulongMax : Nat} (hu : 2^32 - 1 ≤ ulongMax) {g : Graph V (Val K)} (h : g.WF) {attr : String}
    {w : Fin g.edgesData.length → K} (hw : g.Weights attr w) (hsep : NoNearTies w) (hord : SafeOrder ulongMax g.order) (a b : V) :
    (∃ c, (a, b, c) ∈ (unionOfMaximumSpanningTrees ulongMax g attr).yields) ↔
      ∃ i, g.endsAt i = (a, b) ∧ ¬ LinkedBy g.endsAt {j | w i < w j} a b := by
  have hp := (unionOfMaximumSpanningTrees_exact hu h hw hsep hord).2
  constructor
  · rintro ⟨c, hc⟩
    rw [hp.mem_iff] at hc
    obtain ⟨i, hi, he⟩ := List.mem_map.1 hc
    have hi := (List.mem_filter.1 hi).2
    simp only [decide_eq_true_eq] at hi
    rw [mem_some_maxSpanningForest_iff] at hi
    have hends : g.endsAt i = (a, b) := by simp only [Graph.endsAt, he]
    rw [hends] at hi
    exact ⟨i, hends, hi⟩
  · rintro ⟨i, hends, hi⟩
    refine ⟨g.edgesData[i].2.2, hp.mem_iff.2 (List.mem_map.2 ⟨i, List.mem_filter.2 ⟨List.mem_finRange _, ?_⟩, ?_⟩)⟩
    · simp only [decide_eq_true_eq]
      rw [mem_some_maxSpanningForest_iff, hends]
      exact hi
    · have : g.endsAt i = (g.edgesData[i].1, g.edgesData[i].2.1) := rfl
      rw [hends] at this
      obtain ⟨e1, e2⟩ := Prod.mk.inj this
      rw [e1, e2]

/-- Dropping edges outside of the maximum spanning trees does not change these. -/
theorem umst_pair_filter {ulongMax : Nat} (hu : 2^32 - 1 ≤ ulongMax) {g g₁ : Graph V (Val K)} (h : g.WF) (h₁ : g₁.WF)
    {attr : String} (hn : g₁.node = g.node) {w : Fin g.edgesData.length → K} (hw : g.Weights attr w) (hsep : NoNearTies w)
    (hord : SafeOrder ulongMax g.order) {q : V × V × Attrs (Val K) → Bool} (hq : g₁.edgesData = g.edgesData.filter q)
    (hkeep : ∀ e ∈ g.edgesData, (∃ c, (e.1, e.2.1, c) ∈ (unionOfMaximumSpanningTrees ulongMax g attr).yields) → q e = true) :
    (unionOfMaximumSpanningTrees ulongMax g₁ attr).err = none ∧
    ∀ a b, (∃ c, (a, b, c) ∈ (unionOfMaximumSpanningTrees ulongMax g₁ attr).yields) ↔
      ∃ c, (a, b, c) ∈ (unionOfMaximumSpanningTrees ulongMax g attr).yields := by
  classical
  have hf : ∀ j : Fin g₁.edgesData.length, ∃ i : Fin g.edgesData.length, g₁.edgesData[j] = g.edgesData[i] := by
    intro j
    have := List.getElem_mem (l := g₁.edgesData) j.2
    generalize he : g₁.edgesData[j.1] = e at this
    rw [hq] at this
    obtain ⟨i, hi, he'⟩ := List.mem_iff_getElem.1 (List.mem_filter.1 this).1
    exact ⟨⟨i, hi⟩, he'.symm⟩
  choose f hf using hf
  have hends : g₁.endsAt = fun j => g.endsAt (f j) := by
    funext j
    simp only [Graph.endsAt, hf]
  have hw₁ : g₁.Weights attr (fun j => w (f j)) := by
    intro j
    rw [hf j]
    exact hw (f j)
  have hsep₁ : NoNearTies (fun j => w (f j)) := fun i j => hsep (f i) (f j)
  have hord₁ : SafeOrder ulongMax g₁.order := by
    unfold Graph.order
    rw [hn]
    exact hord
  -- an edge in some maximum spanning forest has a representative in the smaller graph
  have hback : ∀ i : Fin g.edgesData.length, ¬ LinkedBy g.endsAt {j | w i < w j} (g.endsAt i).1 (g.endsAt i).2 →
      ∃ j, g.endsAt (f j) = g.endsAt i ∧ w (f j) = w i := by
    intro i hi
    have hc := (umst_pair_iff hu h hw hsep hord (g.endsAt i).1 (g.endsAt i).2).2 ⟨i, rfl, hi⟩
    have hm : g.edgesData[i] ∈ g₁.edgesData := by
      rw [hq]
      exact List.mem_filter.2 ⟨List.getElem_mem _, hkeep _ (List.getElem_mem _) hc⟩
    obtain ⟨j, hj, he⟩ := List.mem_iff_getElem.1 hm
    have he' : g.edgesData[f ⟨j, hj⟩] = g.edgesData[i] := (hf ⟨j, hj⟩).symm.trans he
    refine ⟨⟨j, hj⟩, ?_, ?_⟩
    · simp only [Graph.endsAt, he']
    · have e1 := hw (f ⟨j, hj⟩)
      rw [he'] at e1
      exact HasWeight.unique e1 (hw i)
  refine ⟨(unionOfMaximumSpanningTrees_exact hu h₁ hw₁ hsep₁ hord₁).1, fun a b => ?_⟩
  rw [umst_pair_iff hu h hw hsep hord, umst_pair_iff hu h₁ hw₁ hsep₁ hord₁, hends]
  -- linked by heavier edges: the same in both
  have hlink : ∀ (t : K) (x y : V), LinkedBy (fun j => g.endsAt (f j)) {j | t < w (f j)} x y ↔
      LinkedBy g.endsAt {i | t < w i} x y := by
    intro t x y
    constructor
    · unfold LinkedBy
      apply Relation.EqvGen.mono
      rintro c d ⟨j, hj, he⟩
      exact ⟨f j, hj, he⟩
    · intro hl
      rw [← linkedBy_upper (w := w) (S := {i | ¬ LinkedBy g.endsAt {j | w i < w j} (g.endsAt i).1 (g.endsAt i).2})
        (U := {i | t < w i}) (fun i hi => hi) (fun i j h1 (h2 : t < w i) => h2.trans h1)] at hl
      revert hl
      unfold LinkedBy
      apply Relation.EqvGen.mono
      rintro c d ⟨i, ⟨hi, ht⟩, he⟩
      obtain ⟨j, e1, e2⟩ := hback i hi
      refine ⟨j, ?_, e1.trans he⟩
      show t < w (f j)
      rw [e2]; exact ht
  constructor
  · rintro ⟨j, hj, hl⟩
    exact ⟨f j, hj, fun hc => hl ((hlink _ _ _).2 hc)⟩
  · rintro ⟨i, hi, hl⟩
    obtain ⟨j, e1, e2⟩ := hback i (by rw [hi]; exact hl)
    refine ⟨j, e1.trans hi, fun hc => hl ?_⟩
    have := (hlink _ _ _).1 hc
    rwa [e2] at this

/-- C95.  Global threshold in two steps, the second one stricter: the same as the second one alone. -/
theorem globalThreshold_steps [PyOrd V] [AttrVal (Val K)] (ulongMax : Nat) {g : Graph V (Val K)} (h : g.WF) {t t' : K}
    {attr : String} (reverse : Bool) (ht : Stricter reverse t t') (hw : ∀ e ∈ g.edgesData, ∃ w, HasNumber attr e.2.2 w)
    (hkw : ∀ e ∈ g.edgesData, EdgeKwSafe g.multi e.2.2) :
    ∃ g₁ g₂ g₃, globalThresholdSparsification ulongMax g t attr reverse false = .ok g₁ ∧
      globalThresholdSparsification ulongMax g₁ t' attr reverse false = .ok g₂ ∧
      globalThresholdSparsification ulongMax g t' attr reverse false = .ok g₃ ∧
      g₂.directed = g₃.directed ∧ g₂.multi = g₃.multi ∧ g₂.attrs = g₃.attrs ∧ g₂.node = g₃.node ∧
      g₂.edgesData = g₃.edgesData := by
  classical
  obtain ⟨g₁, a1, a2, a3, a4, a5, a6, a7⟩ := globalThreshold_exact ulongMax h t reverse false hw (by simp) hkw
  have hsub : ∀ e ∈ g₁.edgesData, e ∈ g.edgesData := by
    intro e he; rw [a7] at he; exact (List.mem_filter.1 he).1
  obtain ⟨g₂, b1, -, b3, b4, b5, b6, b7⟩ := globalThreshold_exact ulongMax a2 t' reverse false
    (fun e he => hw e (hsub e he)) (by simp) (fun e he => by rw [a4]; exact hkw e (hsub e he))
  obtain ⟨g₃, c1, -, c3, c4, c5, c6, c7⟩ := globalThreshold_exact ulongMax h t' reverse false hw (by simp) hkw
  refine ⟨g₁, g₂, g₃, a1, b1, c1, by rw [b3, a3, c3], by rw [b4, a4, c4], by rw [b5, a5, c5], by rw [b6, a6, c6], ?_⟩
  rw [b7, a7, c7, List.filter_filter]
  apply List.filter_congr
  intro e _
  simp only [Bool.false_eq_true, false_and, or_false]
  rw [Bool.eq_iff_iff]
  simp only [Bool.and_eq_true, decide_eq_true_eq]
  exact ⟨fun h => h.1, fun h => ⟨h, h.of_stricter ht⟩⟩

/-- C95.  The same with `keep_connected`, on graphs of any kind (weights read from `"weight"`, equal or more than `1e-8`
apart, see C69). -/
theorem globalThreshold_steps_keepConnected [PyOrd V] [AttrVal (Val K)] {ulongMax : Nat} (hu : 2^32 - 1 ≤ ulongMax)
    {g : Graph V (Val K)} (h : g.WF) {t t' : K} (reverse : Bool) (ht : Stricter reverse t t')
    {w : Fin g.edgesData.length → K} (hw : ∀ i, HasNumber "weight" g.edgesData[i].2.2 (w i))
    (hsep : NoNearTies w) (hord : SafeOrder ulongMax g.order)
    (hkw : ∀ e ∈ g.edgesData, EdgeKwSafe g.multi e.2.2) :
    ∃ g₁ g₂ g₃, globalThresholdSparsification ulongMax g t "weight" reverse true = .ok g₁ ∧
      globalThresholdSparsification ulongMax g₁ t' "weight" reverse true = .ok g₂ ∧
      globalThresholdSparsification ulongMax g t' "weight" reverse true = .ok g₃ ∧
      g₂.directed = g₃.directed ∧ g₂.multi = g₃.multi ∧ g₂.attrs = g₃.attrs ∧ g₂.node = g₃.node ∧
      g₂.edgesData = g₃.edgesData := by
  classical
  have hn : ∀ e ∈ g.edgesData, ∃ w, HasNumber "weight" e.2.2 w := by
    intro e he
    obtain ⟨i, hi, rfl⟩ := List.mem_iff_getElem.1 he
    exact ⟨_, hw ⟨i, hi⟩⟩
  have hW : g.Weights "weight" w := by
    intro i
    rcases hw i with h | h | h
    · exact .inr (.inl h)
    · exact .inr (.inr (.inl h))
    · exact .inr (.inr (.inr h))
  have herr := (unionOfMaximumSpanningTrees_exact hu h hW hsep hord).1
  obtain ⟨g₁, a1, a2, a3, a4, a5, a6, a7⟩ := globalThreshold_exact ulongMax h t reverse true hn (fun _ => herr) hkw
  have hsub : ∀ e ∈ g₁.edgesData, e ∈ g.edgesData := by
    intro e he; rw [a7] at he; exact (List.mem_filter.1 he).1
  obtain ⟨herr₁, hpair⟩ := umst_pair_filter hu h a2 a6 hW hsep hord a7 (by
    intro e _ hc
    simp only [decide_eq_true_eq]
    exact .inr ⟨trivial, hc⟩)
  obtain ⟨g₂, b1, -, b3, b4, b5, b6, b7⟩ := globalThreshold_exact ulongMax a2 t' reverse true
    (fun e he => hn e (hsub e he)) (fun _ => herr₁) (fun e he => by rw [a4]; exact hkw e (hsub e he))
  obtain ⟨g₃, c1, -, c3, c4, c5, c6, c7⟩ := globalThreshold_exact ulongMax h t' reverse true hn (fun _ => herr) hkw
  refine ⟨g₁, g₂, g₃, a1, b1, c1, by rw [b3, a3, c3], by rw [b4, a4, c4], by rw [b5, a5, c5], by rw [b6, a6, c6], ?_⟩
  rw [b7, a7, c7, List.filter_filter]
  apply List.filter_congr
  intro e _
  rw [Bool.eq_iff_iff]
  simp only [Bool.and_eq_true, decide_eq_true_eq, true_and, hpair]
  constructor
  · exact fun h => h.1
  · rintro (h | h)
    · exact ⟨.inl h, .inl (h.of_stricter ht)⟩
    · exact ⟨.inr h, .inr h⟩

/-- A graph meeting the hypotheses of `globalThreshold_steps_keepConnected`, with edges dropped by each step (the second step
alone drops both). -/
theorem globalThreshold_steps_sample :
    kiteGraph.WF ∧ Stricter false (2 : ℚ) 3 ∧ Stricter true (3 : ℚ) 2 ∧
    (∃ w : Fin kiteGraph.edgesData.length → ℚ, (∀ i, HasNumber "weight" kiteGraph.edgesData[i].2.2 (w i)) ∧ NoNearTies w) ∧
    SafeOrder (2^64 - 1) kiteGraph.order ∧
    edgesOk (globalThresholdSparsification (2^64 - 1) kiteGraph 2 "weight" false false) = some [(0, 1), (1, 2)] ∧
    edgesOk (globalThresholdSparsification (2^64 - 1) kiteGraph 3 "weight" false false) = some [(0, 1)] ∧
    edgesOk (globalThresholdSparsification (2^64 - 1) kiteGraph 3 "weight" false true) = some [(0, 1), (1, 2), (2, 3)] ∧
    edgesOk (globalThresholdSparsification (2^64 - 1) kiteGraph 1 "weight" false true) =
      some [(0, 1), (0, 2), (1, 2), (2, 3)] := by
  refine ⟨by constructor <;> decide, by unfold Stricter; norm_num, by unfold Stricter; norm_num, ?_, by unfold SafeOrder; decide,
    by decide +kernel, by decide +kernel, by decide +kernel, by decide +kernel⟩
  refine ⟨fun i => ([3, 1, 2, 1] : List ℚ)[i], fun i => .inl ?_, ?_⟩
  · revert i; decide +kernel
  · unfold NoNearTies; decide +kernel

end Pelote
