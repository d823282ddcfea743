import Verif.Props.LearnBottleneck
import Verif.Props.HeavyPaths
import Verif.Props.KeepConnected
import Verif.Props.Leaves

/-! C121: when `keep_connected` matters. -/
set_option linter.unusedSectionVars false
namespace Pelote
open Graph

section
variable {V K : Type} [DecidableEq V] [Field K] [LinearOrder K] [IsStrictOrderedRing K] {g : Graph V (Val K)}

/-- The weights of two edges are equal or more than `1e-8` apart. -/
def WeightsApart (g : Graph V (Val K)) (attr : String) : Prop :=
  ∀ e ∈ g.edgesData, ∀ e' ∈ g.edgesData, ∀ w w', numWeight attr e.2.2 = some w → numWeight attr e'.2.2 = some w' →
    w = w' ∨ 1 / 10 ^ 8 < |w - w'|

theorem numWeight_hasNumber {attr : String} {a : Attrs (Val K)} {w : K} (h : numWeight attr a = some w) : HasNumber attr a w := by
  unfold numWeight at h
  unfold HasNumber
  split at h <;> simp_all

/-- The edges of weight at least `t`, by position. -/
theorem linked_heavy_iff {w : Fin g.edgesData.length → K} {attr : String}
    (hw : ∀ i : Fin g.edgesData.length, numWeight attr g.edgesData[i].2.2 = some (w i)) (t : K) (x y : V) :
    LinkedBy g.endsAt {i | t ≤ w i} x y ↔ Linked (heavyEdges g attr t) x y := by
  refine linkedBy_iff fun p => ?_
  obtain ⟨a, b⟩ := p
  rw [mem_heavyEdges]
  constructor
  · rintro ⟨c, v, h1, h2, h3⟩
    obtain ⟨i, hi, hie⟩ := List.mem_iff_getElem.1 h1
    have := hw ⟨i, hi⟩
    simp only [Fin.getElem_fin, hie] at this
    rw [h2] at this
    cases this
    exact ⟨⟨i, hi⟩, h3, by simp [Graph.endsAt, hie]⟩
  · rintro ⟨i, hi, hie⟩
    have h1 : g.edgesData[i] ∈ g.edgesData := List.getElem_mem _
    refine ⟨g.edgesData[i].2.2, w i, ?_, hw i, hi⟩
    have h2 : ((g.edgesData[i]).1, (g.edgesData[i]).2.1) = (a, b) := hie
    rw [Prod.mk.injEq] at h2
    rw [← h2.1, ← h2.2]
    exact h1

theorem linked_edges_iff (x y : V) : LinkedBy g.endsAt Set.univ x y ↔ Linked g.edges x y := by
  refine linkedBy_iff fun p => ?_
  rw [edges_eq_data, List.mem_map]
  constructor
  · rintro ⟨e, h1, rfl⟩
    obtain ⟨i, hi, rfl⟩ := List.mem_iff_getElem.1 h1
    exact ⟨⟨i, hi⟩, trivial, rfl⟩
  · rintro ⟨i, -, rfl⟩
    exact ⟨g.edgesData[i], List.getElem_mem _, rfl⟩

/-- C121.  On a simple graph, directed or not, whose weights are equal or more than `1e-8` apart, `keep_connected` makes no difference
to a global threshold exactly when the edges reaching the threshold link all that the edges link. -/
theorem keepConnected_needed [PyOrd V] [AttrVal (Val K)] {ulongMax : Nat} (hu : 2^32 - 1 ≤ ulongMax) (h : g.WF)
    (hm : g.multi = false) (hw : Weighted g "weight") (hsep : WeightsApart g "weight") (hord : SafeOrder ulongMax g.order)
    (hkw : ∀ e ∈ g.edgesData, EdgeKwSafe g.multi e.2.2) (t : K) :
    ∃ g₁ g₂, globalThresholdSparsification ulongMax g t "weight" false false = .ok g₁ ∧
      globalThresholdSparsification ulongMax g t "weight" false true = .ok g₂ ∧
      (g₂.edgesData = g₁.edgesData ↔ ∀ x y, Linked g.edges x y → Linked (heavyEdges g "weight" t) x y) := by
  classical
  obtain ⟨w, hw1, hw2⟩ := weighted_weights' hw
  have hnum : ∀ i : Fin g.edgesData.length, HasNumber "weight" g.edgesData[i].2.2 (w i) := fun i => numWeight_hasNumber (hw2 i)
  have hsep' : NoNearTies w := fun i j => hsep _ (List.getElem_mem _) _ (List.getElem_mem _) _ _ (hw2 i) (hw2 j)
  obtain ⟨g₁, a1, -, -, -, -, -, a2⟩ := globalThreshold_exact ulongMax h t (attr := "weight") false false
    (hasNumber_of_weighted hw) (by simp) hkw
  obtain ⟨g₂, b1, -, b2⟩ := keepConnected_weight_partial hu h hm t false hnum hsep' hord hkw
  refine ⟨g₁, g₂, a1, b1, ?_⟩
  have hreach : ∀ i : Fin g.edgesData.length, Reaches t "weight" false g.edgesData[i].2.2 ↔ t ≤ w i := by
    intro i
    constructor
    · rintro ⟨v, hv, ht⟩
      rw [hv.unique (hnum i)] at ht
      simpa using ht
    · intro ht
      exact ⟨w i, hnum i, by simpa using ht⟩
  have hlist : g₁.edgesData = ((List.finRange g.edgesData.length).filter (fun i => decide (t ≤ w i))).map
      (fun i => g.edgesData[i]) := by
    rw [a2]
    have hL : g.edgesData = (List.finRange g.edgesData.length).map (fun i => g.edgesData[i]) := by
      apply List.ext_getElem <;> simp
    conv_lhs => rw [hL]
    rw [List.filter_map]
    congr 1
    refine List.filter_congr fun i _ => ?_
    simp only [Function.comp, Bool.false_eq_true, false_and, or_false, decide_eq_decide]
    exact hreach i
  have hiff : g₂.edgesData = g₁.edgesData ↔ ∀ i, (∃ F, IsMaxSpanningForest g.endsAt w F ∧ i ∈ F) → t ≤ w i := by
    constructor
    · intro he i hi
      have hmem : g.edgesData[i] ∈ g₂.edgesData := by
        rw [b2]
        exact List.mem_map.2 ⟨i, List.mem_filter.2 ⟨List.mem_finRange i, by simpa using Or.inr hi⟩, rfl⟩
      rw [he, a2] at hmem
      have := (List.mem_filter.1 hmem).2
      simp only [Bool.false_eq_true, false_and, or_false, decide_eq_true_eq] at this
      exact (hreach i).1 this
    · intro hall
      rw [b2, hlist]
      congr 1
      refine List.filter_congr fun i _ => ?_
      simp only [Bool.false_eq_true, if_false, decide_eq_decide]
      exact ⟨fun hor => hor.elim id (hall i), Or.inl⟩
  rw [hiff]
  constructor
  · intro hall x y hxy
    rw [← linked_heavy_iff hw2]
    rw [← linked_edges_iff] at hxy
    have h1 := (linkedBy_upper (ends := g.endsAt) (w := w) (S := {i | ∃ F, IsMaxSpanningForest g.endsAt w F ∧ i ∈ F})
      (U := Set.univ) (fun i hi => mem_some_maxSpanningForest_iff.2 hi) (fun _ _ _ _ => trivial) x y).2 hxy
    revert h1
    unfold LinkedBy
    apply Relation.EqvGen.mono
    rintro a b ⟨i, ⟨hi, -⟩, hab⟩
    exact ⟨i, hall i hi, hab⟩
  · intro hall i hi
    by_contra hlt
    push Not at hlt
    refine mem_some_maxSpanningForest_iff.1 hi ?_
    have h1 : Linked g.edges (g.endsAt i).1 (g.endsAt i).2 := by
      rw [← linked_edges_iff]
      exact .rel _ _ ⟨i, trivial, rfl⟩
    have h2 := (linked_heavy_iff hw2 t _ _).2 (hall _ _ h1)
    revert h2
    unfold LinkedBy
    apply Relation.EqvGen.mono
    rintro a b ⟨j, hj, hab⟩
    exact ⟨j, lt_of_lt_of_le hlt hj, hab⟩

/-- C121.  On a connected graph with two nodes or more, it makes no difference up to the bottleneck, and does above it. -/
theorem keepConnected_bottleneck [PyOrd V] [AttrVal (Val K)] {ulongMax : Nat} (hu : 2^32 - 1 ≤ ulongMax) (h : g.WF)
    (hm : g.multi = false) (hw : Weighted g "weight") (hsep : WeightsApart g "weight") (hord : SafeOrder ulongMax g.order)
    (hkw : ∀ e ∈ g.edgesData, EdgeKwSafe g.multi e.2.2) (h2 : 2 ≤ g.nodes.length) {B : K} (hB : IsBottleneck g "weight" B) (t : K) :
    ∃ g₁ g₂, globalThresholdSparsification ulongMax g t "weight" false false = .ok g₁ ∧
      globalThresholdSparsification ulongMax g t "weight" false true = .ok g₂ ∧
      (g₂.edgesData = g₁.edgesData ↔ t ≤ B) := by
  obtain ⟨g₁, g₂, e1, e2, e3⟩ := keepConnected_needed hu h hm hw hsep hord hkw t
  refine ⟨g₁, g₂, e1, e2, ?_⟩
  rw [e3, ← connectedAt_iff h h2 hB]
  have hsub : ∀ x y, Linked (heavyEdges g "weight" B) x y → Linked g.edges x y := by
    intro x y hl
    refine hl.mono ?_
    rintro ⟨u, v⟩ huv
    obtain ⟨a, v, h1, -, -⟩ := mem_heavyEdges.1 huv
    rw [edges_eq_data]
    exact List.mem_map.2 ⟨_, h1, rfl⟩
  have hnodes : ∀ x y, Linked g.edges x y → x = y ∨ (x ∈ g.nodes ∧ y ∈ g.nodes) := by
    intro x y hl
    induction hl with
    | rel u v huv =>
      right
      have huv : (u, v) ∈ g.edges := huv
      exact ⟨(edges_ends h huv).1, (edges_ends h huv).2⟩
    | refl => exact .inl rfl
    | symm _ _ _ ih => exact ih.imp Eq.symm And.symm
    | trans _ _ _ _ _ ih1 ih2 =>
      rcases ih1 with rfl | ih1
      · exact ih2
      · rcases ih2 with rfl | ih2
        · exact .inr ih1
        · exact .inr ⟨ih1.1, ih2.2⟩
  constructor
  · intro hall a ha b hb
    exact hall a b (hsub a b (hB.1.1 a ha b hb))
  · intro hc x y hxy
    rcases hnodes x y hxy with rfl | ⟨hx, hy⟩
    · exact .refl _ _
    · exact hc x hx y hy

/-- C121.  With the threshold learned with a limit of at most 1 it makes no difference, and does a learning rate above. -/
theorem keepConnected_learned [FloorRing K] [PyOrd V] [AttrVal (Val K)] {ulongMax : Nat} (hu : 2^32 - 1 ≤ ulongMax) (h : g.WF)
    (hd : g.directed = false) (hm : g.multi = false) (hw : Weighted g "weight") (hsep : WeightsApart g "weight")
    (hord : SafeOrder ulongMax g.order) (hkw : ∀ e ∈ g.edgesData, EdgeKwSafe g.multi e.2.2) (h2 : 2 ≤ g.nodes.length) {B : K}
    (hB : IsBottleneck g "weight" B) {given : Option K} {m : K} (hlim : DrifterLimit g given m) (hm1 : m ≤ 1) {o : OnEpoch K}
    (ho : o ≠ .notCallable) (hq : o.Quiet) {start rate : K} (hs : start ≤ B) (hrate : 0 < rate) {fuel : Nat}
    {tr : List (FloatsamEpoch K)} {t : K} (ht : floatsam g start rate given "weight" o fuel = (tr, .ok t)) :
    (∃ g₁ g₂, globalThresholdSparsification ulongMax g t "weight" false false = .ok g₁ ∧
      globalThresholdSparsification ulongMax g t "weight" false true = .ok g₂ ∧ g₂.edgesData = g₁.edgesData) ∧
    ∃ g₁ g₂, globalThresholdSparsification ulongMax g (t + rate) "weight" false false = .ok g₁ ∧
      globalThresholdSparsification ulongMax g (t + rate) "weight" false true = .ok g₂ ∧ g₂.edgesData ≠ g₁.edgesData := by
  obtain ⟨k, -, k1, k2, k3, k4, -⟩ := floatsam_bottleneck h hd h2 hw hB hlim hm1 ho hq hs hrate
  have hfuel : k < fuel := by
    by_contra hle
    have := k1 fuel (by omega)
    rw [ht] at this
    cases this
  obtain ⟨tr', e, -⟩ := k2 fuel hfuel
  rw [ht] at e
  cases e
  obtain ⟨g₁, g₂, e1, e2, e3⟩ := keepConnected_bottleneck hu h hm hw hsep hord hkw h2 hB (start + k * rate)
  obtain ⟨g₃, g₄, f1, f2, f3⟩ := keepConnected_bottleneck hu h hm hw hsep hord hkw h2 hB (start + k * rate + rate)
  exact ⟨⟨g₁, g₂, e1, e2, e3.2 k3⟩, g₃, g₄, f1, f2, fun he => absurd (f3.1 he) (not_le.2 k4)⟩

end

theorem kite_bottleneck : IsBottleneck kiteGraph "weight" 1 := by
  have hn : kiteGraph.nodes = [0, 1, 2, 3] := rfl
  have h1 : heavyEdges kiteGraph "weight" 1 = [(0, 1), (0, 2), (1, 2), (2, 3)] := by decide +kernel
  refine ⟨⟨?_, (2, 3, [(.str "weight", .num 1)]), by decide +kernel, by decide +kernel⟩, ?_⟩
  · have h0 : ∀ a ∈ kiteGraph.nodes, Linked (heavyEdges kiteGraph "weight" 1) 2 a := by
      rw [h1, hn]
      intro a ha
      simp only [List.mem_cons, List.not_mem_nil, or_false] at ha
      rcases ha with rfl | rfl | rfl | rfl
      · exact (Linked.of_mem (by simp)).symm
      · exact (Linked.of_mem (by simp)).symm
      · exact .refl _ _
      · exact .of_mem (by simp)
    intro a ha b hb
    exact (h0 a ha).symm.trans (h0 b hb)
  · rintro w ⟨hc, -⟩
    by_contra hlt
    push Not at hlt
    have hno : ∀ e ∈ kiteGraph.edgesData, (e.1 ≠ 3 ∧ e.2.1 ≠ 3) ∨ numWeight "weight" e.2.2 = some 1 := by decide +kernel
    have key : ∀ x y, Linked (heavyEdges kiteGraph "weight" w) x y → (x = 3 ↔ y = 3) := by
      intro x y hl
      induction hl with
      | rel u v huv =>
        obtain ⟨a, v', m1, m2, m3⟩ := mem_heavyEdges.1 (show (u, v) ∈ _ from huv)
        rcases hno _ m1 with ⟨n1, n2⟩ | n1
        · exact ⟨fun e => absurd e n1, fun e => absurd e n2⟩
        · rw [m2] at n1
          cases n1
          exact absurd m3 (not_le.2 hlt)
      | refl => exact Iff.rfl
      | symm _ _ _ ih => exact ih.symm
      | trans _ _ _ _ _ ih1 ih2 => exact ih1.trans ih2
    exact absurd ((key 0 3 (hc 0 (by decide) 3 (by decide))).2 rfl) (by decide)

/-- C121, a case: the hypotheses are met, and `keep_connected` adds the edge of weight 1 leading to a node to a threshold of 2. -/
theorem keepConnected_needed_sample [AttrVal (Val ℚ)] :
    kiteGraph.WF ∧ Weighted kiteGraph "weight" ∧ WeightsApart kiteGraph "weight" ∧ SafeOrder (2^64 - 1) kiteGraph.order ∧
    (∀ e ∈ kiteGraph.edgesData, EdgeKwSafe kiteGraph.multi e.2.2) ∧ IsBottleneck kiteGraph "weight" 1 ∧
    (∃ g₁ g₂, globalThresholdSparsification (2^64 - 1) kiteGraph 1 "weight" false false = .ok g₁ ∧
      globalThresholdSparsification (2^64 - 1) kiteGraph 1 "weight" false true = .ok g₂ ∧ g₂.edgesData = g₁.edgesData) ∧
    ∃ g₁ g₂, globalThresholdSparsification (2^64 - 1) kiteGraph 2 "weight" false false = .ok g₁ ∧
      globalThresholdSparsification (2^64 - 1) kiteGraph 2 "weight" false true = .ok g₂ ∧ g₂.edgesData ≠ g₁.edgesData := by
  have hwf : kiteGraph.WF := by constructor <;> decide
  have hw : Weighted kiteGraph "weight" := by
    have : ∀ e ∈ kiteGraph.edgesData, (numWeight "weight" e.2.2).isSome = true := by decide +kernel
    exact fun e he => Option.isSome_iff_exists.1 (this e he)
  have hsep : WeightsApart kiteGraph "weight" := by
    have hv : ∀ e ∈ kiteGraph.edgesData, numWeight "weight" e.2.2 = some 1 ∨ numWeight "weight" e.2.2 = some 2 ∨
      numWeight "weight" e.2.2 = some 3 := by decide +kernel
    intro e he e' he' w w' h1 h2
    rcases hv e he with a | a | a <;> rcases hv e' he' with b | b | b <;> rw [h1] at a <;> rw [h2] at b <;> cases a <;> cases b <;>
      norm_num
  have hord : SafeOrder (2^64 - 1) kiteGraph.order := by
    have : kiteGraph.order = 4 := rfl
    rw [this]
    refine ⟨by norm_num, by norm_num, by norm_num, by norm_num⟩
  have hkw : ∀ e ∈ kiteGraph.edgesData, EdgeKwSafe kiteGraph.multi e.2.2 := by
    have : ∀ e ∈ kiteGraph.edgesData, e.2.2.keys = [.str "weight"] := by decide +kernel
    intro e he k hk
    rw [this e he] at hk
    exact ⟨"weight", by simpa using hk, by decide⟩
  obtain ⟨g₁, g₂, e1, e2, e3⟩ := keepConnected_bottleneck (by norm_num) hwf rfl hw hsep hord hkw (by decide) kite_bottleneck 1
  obtain ⟨g₃, g₄, f1, f2, f3⟩ := keepConnected_bottleneck (by norm_num) hwf rfl hw hsep hord hkw (by decide) kite_bottleneck 2
  exact ⟨hwf, hw, hsep, hord, hkw, kite_bottleneck, ⟨g₁, g₂, e1, e2, e3.2 le_rfl⟩, g₃, g₄, f1, f2,
    fun he => absurd (f3.1 he) (by norm_num)⟩

end Pelote
