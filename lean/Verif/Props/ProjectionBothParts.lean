import Verif.Props.ProjectionMeaning

/-! C130: what the projections of a bipartite graph on its two parts have in common. -/
set_option linter.unusedSectionVars false
namespace Pelote
open Graph

section
variable {V K : Type} [LinearOrder V] [PyOrd V] [Field K] [LinearOrder K] [IsStrictOrderedRing K] [PyMath K] [AttrVal (Val K)]
  {g : Graph V (Val K)} {part part' : Part V K} {partAttr partAttr' weightAttr weightAttr' : String} {check check' : Bool}
  {w w' : V → V → K}

/-- The cycles of four nodes of a graph, as walks: each is listed 8 times, from each of its nodes both ways. -/
def fourCycles {A : Type} (g : Graph V A) : Finset (V × V × V × V) :=
  (g.nodes.toFinset ×ˢ g.nodes.toFinset ×ˢ g.nodes.toFinset ×ˢ g.nodes.toFinset).filter fun q =>
    q.1 ≠ q.2.2.1 ∧ q.2.1 ≠ q.2.2.2 ∧ g.hasEdge q.1 q.2.1 = true ∧ g.hasEdge q.2.1 q.2.2.1 = true ∧
      g.hasEdge q.2.2.1 q.2.2.2 = true ∧ g.hasEdge q.2.2.2 q.1 = true

theorem mem_fourCycles (h : g.WF) {u s v t : V} : (u, s, v, t) ∈ fourCycles g ↔ u ≠ v ∧ s ≠ t ∧ g.hasEdge u s = true ∧
    g.hasEdge s v = true ∧ g.hasEdge v t = true ∧ g.hasEdge t u = true := by
  unfold fourCycles
  simp only [Finset.mem_filter, Finset.mem_product, List.mem_toFinset]
  refine ⟨fun hq => hq.2, fun hq => ⟨?_, hq⟩⟩
  obtain ⟨-, -, h1, -, h3, -⟩ := hq
  exact ⟨(hasEdge_mem h h1).1, (hasEdge_mem h h1).2, (hasEdge_mem h h3).1, (hasEdge_mem h h3).2⟩

open Classical in
/-- The pairs of neighbors shared by two nodes of a part are the cycles of four nodes from that part. -/
theorem card_fourCycles (h : g.WF) (hu : g.directed = false) {P : V → Prop} (hb : Bipartite g P) :
    ((fourCycles g).filter (fun q => P q.1)).card =
      ∑ p ∈ (g.nodes.toFinset.filter P).offDiag, (g.nbhd p.1 ∩ g.nbhd p.2).offDiag.card := by
  rw [Finset.card_eq_sum_card_fiberwise (f := fun q => (q.1, q.2.2.1)) (t := (g.nodes.toFinset.filter P).offDiag)]
  · refine Finset.sum_congr rfl ?_
    rintro ⟨u, v⟩ hp
    simp only [Finset.mem_offDiag, Finset.mem_filter, List.mem_toFinset] at hp
    obtain ⟨⟨hu1, hu2⟩, ⟨hv1, hv2⟩, hne⟩ := hp
    refine Finset.card_nbij' (fun q => (q.2.1, q.2.2.2)) (fun r => (u, r.1, v, r.2)) ?_ ?_ ?_ ?_
    · rintro ⟨a, s, b, t⟩ hq
      simp only [Finset.coe_filter, Set.mem_ofPred_eq, Finset.mem_filter, Prod.mk.injEq] at hq
      obtain ⟨⟨hq, -⟩, rfl, rfl⟩ := hq
      obtain ⟨-, k1, k2, k3, k4, k5⟩ := (mem_fourCycles h).1 hq
      simp only [Finset.mem_coe, Finset.mem_offDiag, Finset.mem_inter, mem_nbhd h]
      rw [hasEdge_comm hu] at k3 k5
      exact ⟨⟨k2, k3⟩, ⟨k5, k4⟩, k1⟩
    · rintro ⟨s, t⟩ hr
      simp only [Finset.mem_coe, Finset.mem_offDiag, Finset.mem_inter, mem_nbhd h] at hr
      obtain ⟨⟨k2, k3⟩, ⟨k5, k4⟩, k1⟩ := hr
      rw [hasEdge_comm hu] at k3 k5
      simp only [Finset.coe_filter, Set.mem_ofPred_eq, Finset.mem_filter, and_true]
      exact ⟨(mem_fourCycles h).2 ⟨hne, k1, k2, k3, k4, k5⟩, hu2⟩
    · rintro ⟨a, s, b, t⟩ hq
      simp only [Finset.coe_filter, Set.mem_ofPred_eq, Finset.mem_filter, Prod.mk.injEq] at hq
      obtain ⟨-, rfl, rfl⟩ := hq
      rfl
    · rintro ⟨s, t⟩ -
      rfl
  · rintro ⟨u, s, v, t⟩ hq
    simp only [Finset.coe_filter, Set.mem_ofPred_eq] at hq
    obtain ⟨k0, -, k2, k3, -, -⟩ := (mem_fourCycles h).1 hq.1
    simp only [Finset.mem_coe, Finset.mem_offDiag, Finset.mem_filter, List.mem_toFinset]
    have b1 := hb u s k2
    have b2 := hb s v k3
    exact ⟨⟨(hasEdge_mem h k2).1, hq.2⟩, ⟨(hasEdge_mem h k3).2, by tauto⟩, k0⟩

open Classical in
/-- As many cycles of four nodes, as walks, start from each of the two parts. -/
theorem fourCycles_parts (h : g.WF) {P : V → Prop} (hb : Bipartite g P) :
    ((fourCycles g).filter (fun q => P q.1)).card = ((fourCycles g).filter (fun q => ¬ P q.1)).card := by
  refine Finset.card_nbij' (fun q => (q.2.1, q.2.2.1, q.2.2.2, q.1)) (fun q => (q.2.2.2, q.1, q.2.1, q.2.2.1)) ?_ ?_ ?_ ?_
  · rintro ⟨u, s, v, t⟩ hq
    simp only [Finset.coe_filter, Set.mem_ofPred_eq] at hq ⊢
    obtain ⟨k0, k1, k2, k3, k4, k5⟩ := (mem_fourCycles h).1 hq.1
    have b1 := hb u s k2
    exact ⟨(mem_fourCycles h).2 ⟨k1, k0.symm, k3, k4, k5, k2⟩, by tauto⟩
  · rintro ⟨s, v, t, u⟩ hq
    simp only [Finset.coe_filter, Set.mem_ofPred_eq] at hq ⊢
    obtain ⟨k0, k1, k2, k3, k4, k5⟩ := (mem_fourCycles h).1 hq.1
    have b1 := hb u s k5
    exact ⟨(mem_fourCycles h).2 ⟨k1.symm, k0, k5, k2, k3, k4⟩, by tauto⟩
  · exact fun _ _ => rfl
  · exact fun _ _ => rfl

open Classical in
theorem projection_pairs (hsqrt : ∀ x : K, 0 < x → 0 < PyMath.sqrt x) (hrnd : ∀ x : K, 0 < x → 0 < PyMath.rnd x)
    (h : Projectable g part partAttr weightAttr .intersection check w) :
    ∃ m, monopartiteProjection g part partAttr weightAttr none check none = .ok m ∧
      ∑ p ∈ m.nodes.toFinset.offDiag, m.linkWeight p.1 p.2 * (m.linkWeight p.1 p.2 - 1) =
        (((fourCycles g).filter (fun q => InPart g partAttr part q.1)).card : K) := by
  obtain ⟨m, h1, h2, h3, h4⟩ := projection_linkWeight hsqrt hrnd h (metric := none) (by simp [metricNames])
  refine ⟨m, h1, ?_⟩
  have hin := projection_part h.wf h.notFrozen h1
  have hn : m.nodes.toFinset = g.nodes.toFinset.filter (InPart g partAttr part) := by
    ext x
    rw [List.mem_toFinset, hin, Finset.mem_filter, List.mem_toFinset]
    exact ⟨fun hx => ⟨inPart_mem hx, hx⟩, fun hx => hx.2⟩
  rw [card_fourCycles h.wf h.undirected h.bipartite, hn, Nat.cast_sum]
  refine Finset.sum_congr rfl ?_
  rintro ⟨u, v⟩ hp
  simp only [Finset.mem_offDiag, Finset.mem_filter] at hp
  obtain ⟨⟨-, hu⟩, ⟨-, hv⟩, hne⟩ := hp
  have hval : m.linkWeight u v = ((g.nbhd u ∩ g.nbhd v).card : K) := by
    cases he : m.hasEdge u v with
    | true => rw [h4 u v he]; rfl
    | false =>
      rw [linkWeight_none he]
      have : g.nbhd u ∩ g.nbhd v = ∅ := by
        by_contra hc
        have := (h3 u v).2 ⟨hne, hu, hv, Finset.nonempty_iff_ne_empty.2 hc⟩
        rw [he] at this
        cases this
      rw [this, Finset.card_empty, Nat.cast_zero]
  rw [hval, Finset.offDiag_card, Nat.cast_sub (Nat.le_mul_self _), Nat.cast_mul]
  ring

/-- C130.  Without metric, the numbers `x * (x - 1)` over the links of the projection on one part and over those of the projection
on the other part have the same sum, which is half the number of walks around cycles of four nodes (here each link counts twice, once
from each end; the pairs that are not linked count for 0). -/
theorem projection_both_parts (hsqrt : ∀ x : K, 0 < x → 0 < PyMath.sqrt x) (hrnd : ∀ x : K, 0 < x → 0 < PyMath.rnd x)
    (h : Projectable g part partAttr weightAttr .intersection check w)
    (h' : Projectable g part' partAttr' weightAttr' .intersection check' w')
    (hother : ∀ x ∈ g.nodes, InPart g partAttr' part' x ↔ ¬ InPart g partAttr part x) :
    ∃ m m', monopartiteProjection g part partAttr weightAttr none check none = .ok m ∧
      monopartiteProjection g part' partAttr' weightAttr' none check' none = .ok m' ∧
      ∑ p ∈ m.nodes.toFinset.offDiag, m.linkWeight p.1 p.2 * (m.linkWeight p.1 p.2 - 1) =
        ∑ p ∈ m'.nodes.toFinset.offDiag, m'.linkWeight p.1 p.2 * (m'.linkWeight p.1 p.2 - 1) ∧
      2 * ∑ p ∈ m.nodes.toFinset.offDiag, m.linkWeight p.1 p.2 * (m.linkWeight p.1 p.2 - 1) = ((fourCycles g).card : K) := by
  classical
  obtain ⟨m, e1, e2⟩ := projection_pairs hsqrt hrnd h
  obtain ⟨m', f1, f2⟩ := projection_pairs hsqrt hrnd h'
  have hc := fourCycles_parts h.wf h.bipartite
  have hs : (fourCycles g).filter (fun q => InPart g partAttr' part' q.1) =
      (fourCycles g).filter (fun q => ¬ InPart g partAttr part q.1) := by
    refine Finset.filter_congr ?_
    rintro ⟨u, s, v, t⟩ hq
    exact hother u (hasEdge_mem h.wf ((mem_fourCycles h.wf).1 hq).2.2.1).1
  refine ⟨m, m', e1, f1, by rw [e2, f2, hs, hc], ?_⟩
  have := Finset.card_filter_add_card_filter_not (s := fourCycles g) (fun q => InPart g partAttr part q.1)
  rw [← hc] at this
  rw [e2, ← this]
  push_cast
  ring

/-- A projection without metric has a link of weight above 1 exactly when there is a cycle of four nodes. -/
theorem projection_weight_one (hsqrt : ∀ x : K, 0 < x → 0 < PyMath.sqrt x) (hrnd : ∀ x : K, 0 < x → 0 < PyMath.rnd x)
    (h : Projectable g part partAttr weightAttr .intersection check w) :
    ∃ m, monopartiteProjection g part partAttr weightAttr none check none = .ok m ∧
      ((∀ u v, m.hasEdge u v = true → m.linkWeight u v = 1) ↔ fourCycles g = ∅) := by
  classical
  obtain ⟨m, h1, h2, h3, h4⟩ := projection_linkWeight hsqrt hrnd h (metric := none) (by simp [metricNames])
  refine ⟨m, h1, fun hone => ?_, fun hno u v he => ?_⟩
  · have key : (fourCycles g).filter (fun q => InPart g partAttr part q.1) = ∅ := by
      rw [Finset.eq_empty_iff_forall_notMem]
      rintro ⟨u, s, v, t⟩ hq
      rw [Finset.mem_filter] at hq
      obtain ⟨k0, k1, k2, k3, k4, k5⟩ := (mem_fourCycles h.wf).1 hq.1
      have b1 := h.bipartite u s k2
      have b2 := h.bipartite s v k3
      rw [hasEdge_comm h.undirected] at k3 k5
      have hs : s ∈ g.nbhd u ∩ g.nbhd v := by simp [mem_nbhd h.wf, k2, k3]
      have ht : t ∈ g.nbhd u ∩ g.nbhd v := by simp [mem_nbhd h.wf, k4, k5]
      have he := (h3 u v).2 ⟨k0, hq.2, by tauto, ⟨s, hs⟩⟩
      have h5 := hone u v he
      rw [h4 u v he] at h5
      have h6 : (g.nbhd u ∩ g.nbhd v).card = 1 := Nat.cast_injective (R := K) (by rw [Nat.cast_one]; exact h5)
      exact k1 (Finset.card_le_one.1 h6.le s hs t ht)
    have hc := fourCycles_parts h.wf h.bipartite
    rw [key, Finset.card_empty] at hc
    have := Finset.card_filter_add_card_filter_not (s := fourCycles g) (fun q => InPart g partAttr part q.1)
    rw [key, ← hc, Finset.card_empty] at this
    exact Finset.card_eq_zero.1 this.symm
  · obtain ⟨k0, hu, hv, hne⟩ := (h3 u v).1 he
    rw [h4 u v he]
    have h6 : (g.nbhd u ∩ g.nbhd v).card = 1 := by
      refine Nat.le_antisymm (Finset.card_le_one.2 fun s hs t ht => ?_) hne.card_pos
      by_contra hst
      simp only [Finset.mem_inter, mem_nbhd h.wf] at hs ht
      have : (u, s, v, t) ∈ fourCycles g := (mem_fourCycles h.wf).2 ⟨k0, hst, hs.1, by rw [hasEdge_comm h.undirected]; exact hs.2, ht.2,
        by rw [hasEdge_comm h.undirected]; exact ht.1⟩
      rw [hno] at this
      simp at this
    simp only [similarity, h6, Nat.cast_one]

/-- C130.  All the weights of the projection on one part are 1 exactly when all those of the projection on the other part are. -/
theorem projection_both_parts_one (hsqrt : ∀ x : K, 0 < x → 0 < PyMath.sqrt x) (hrnd : ∀ x : K, 0 < x → 0 < PyMath.rnd x)
    (h : Projectable g part partAttr weightAttr .intersection check w)
    (h' : Projectable g part' partAttr' weightAttr' .intersection check' w') :
    ∃ m m', monopartiteProjection g part partAttr weightAttr none check none = .ok m ∧
      monopartiteProjection g part' partAttr' weightAttr' none check' none = .ok m' ∧
      ((∀ u v, m.hasEdge u v = true → m.linkWeight u v = 1) ↔ ∀ u v, m'.hasEdge u v = true → m'.linkWeight u v = 1) := by
  obtain ⟨m, e1, e2⟩ := projection_weight_one hsqrt hrnd h
  obtain ⟨m', f1, f2⟩ := projection_weight_one hsqrt hrnd h'
  exact ⟨m, m', e1, f1, e2.trans f2.symm⟩

open Classical in
theorem projection_squares (hsqrt : ∀ x : K, 0 < x → 0 < PyMath.sqrt x) (hrnd : ∀ x : K, 0 < x → 0 < PyMath.rnd x)
    (h : Projectable g part partAttr weightAttr .dotProduct check w) :
    ∃ m, monopartiteProjection g part partAttr weightAttr (some "dot_product") check none = .ok m ∧
      ∑ p ∈ m.nodes.toFinset.offDiag, m.linkWeight p.1 p.2 ^ 2 + ∑ u ∈ m.nodes.toFinset, (∑ t ∈ g.nbhd u, w u t ^ 2) ^ 2 =
        ∑ u ∈ g.nodes.toFinset.filter (InPart g partAttr part), ∑ v ∈ g.nodes.toFinset.filter (InPart g partAttr part),
          (∑ t ∈ g.nodes.toFinset.filter (fun x => ¬ InPart g partAttr part x),
            (if g.hasEdge u t = true then w u t else 0) * (if g.hasEdge v t = true then w v t else 0)) ^ 2 := by
  obtain ⟨m, h1, h2, h3, h4⟩ := projection_linkWeight hsqrt hrnd h (metric := some "dot_product") (by simp [metricNames])
  refine ⟨m, h1, ?_⟩
  have hin := projection_part h.wf h.notFrozen h1
  have hn : m.nodes.toFinset = g.nodes.toFinset.filter (InPart g partAttr part) := by
    ext x
    rw [List.mem_toFinset, hin, Finset.mem_filter, List.mem_toFinset]
    exact ⟨fun hx => ⟨inPart_mem hx, hx⟩, fun hx => hx.2⟩
  have hdot : ∀ u v, InPart g partAttr part u → ∑ t ∈ g.nbhd u ∩ g.nbhd v, w u t * w v t =
      ∑ t ∈ g.nodes.toFinset.filter (fun x => ¬ InPart g partAttr part x),
        (if g.hasEdge u t = true then w u t else 0) * (if g.hasEdge v t = true then w v t else 0) := by
    intro u v hu
    have hsub : g.nbhd u ∩ g.nbhd v ⊆ g.nodes.toFinset.filter (fun x => ¬ InPart g partAttr part x) := by
      intro t ht
      rw [Finset.mem_inter, mem_nbhd h.wf, mem_nbhd h.wf] at ht
      rw [Finset.mem_filter, List.mem_toFinset]
      exact ⟨(hasEdge_mem h.wf ht.1).2, (h.bipartite u t ht.1).1 hu⟩
    rw [← Finset.sum_subset hsub]
    · refine Finset.sum_congr rfl fun t ht => ?_
      rw [Finset.mem_inter, mem_nbhd h.wf, mem_nbhd h.wf] at ht
      rw [if_pos ht.1, if_pos ht.2]
    · intro t _ ht
      rw [Finset.mem_inter, mem_nbhd h.wf, mem_nbhd h.wf] at ht
      by_cases h5 : g.hasEdge u t = true
      · rw [if_neg (fun h6 => ht ⟨h5, h6⟩), mul_zero]
      · rw [if_neg h5, zero_mul]
  rw [hn, ← Finset.sum_product', ← Finset.diag_union_offDiag, Finset.sum_union (Finset.disjoint_diag_offDiag _), Finset.sum_diag, add_comm]
  congr 1
  · refine Finset.sum_congr rfl fun u hu => ?_
    rw [← hdot u u (Finset.mem_filter.1 hu).2, Finset.inter_self]
    simp only [pow_two]
  · refine Finset.sum_congr rfl ?_
    rintro ⟨u, v⟩ hp
    simp only [Finset.mem_offDiag, Finset.mem_filter] at hp
    obtain ⟨⟨-, hu⟩, ⟨-, hv⟩, hne⟩ := hp
    rw [← hdot u v hu]
    congr 1
    cases he : m.hasEdge u v with
    | true => rw [h4 u v he]; rfl
    | false =>
      rw [linkWeight_none he]
      have : g.nbhd u ∩ g.nbhd v = ∅ := by
        by_contra hc
        have := (h3 u v).2 ⟨hne, hu, hv, Finset.nonempty_iff_ne_empty.2 hc⟩
        rw [he] at this
        cases this
      rw [this, Finset.sum_empty]

/-- The squares of the dot products of the rows of a matrix, and of those of its columns. -/
theorem sum_dots_sq (X Y : Finset V) (M : V → V → K) :
    ∑ u ∈ X, ∑ v ∈ X, (∑ t ∈ Y, M u t * M v t) ^ 2 = ∑ s ∈ Y, ∑ t ∈ Y, (∑ u ∈ X, M u s * M u t) ^ 2 := by
  have e1 : ∀ u v, (∑ t ∈ Y, M u t * M v t) ^ 2 = ∑ s ∈ Y, ∑ t ∈ Y, (M u s * M u t) * (M v s * M v t) := by
    intro u v
    rw [pow_two, Finset.sum_mul_sum]
    exact Finset.sum_congr rfl fun s _ => Finset.sum_congr rfl fun t _ => by ring
  have e2 : ∀ s t, (∑ u ∈ X, M u s * M u t) ^ 2 = ∑ u ∈ X, ∑ v ∈ X, (M u s * M u t) * (M v s * M v t) := by
    intro s t
    rw [pow_two, Finset.sum_mul_sum]
  have e3 : ∀ F : V → V → V → K, ∑ v ∈ X, ∑ s ∈ Y, ∑ t ∈ Y, F v s t = ∑ s ∈ Y, ∑ t ∈ Y, ∑ v ∈ X, F v s t := by
    intro F
    rw [Finset.sum_comm]
    exact Finset.sum_congr rfl fun s _ => Finset.sum_comm
  simp only [e1, e2]
  rw [Finset.sum_congr rfl fun u _ => e3 fun v s t => (M u s * M u t) * (M v s * M v t)]
  exact e3 fun u s t => ∑ v ∈ X, (M u s * M u t) * (M v s * M v t)

/-- C130.  By dot product, the squares of the weights of the links (each counted twice), added to the squares, for each node, of the
sum of the squares of the weights of its edges, give the same sum in the projections on the two parts. -/
theorem projection_both_parts_dot (hsqrt : ∀ x : K, 0 < x → 0 < PyMath.sqrt x) (hrnd : ∀ x : K, 0 < x → 0 < PyMath.rnd x)
    (h : Projectable g part partAttr weightAttr .dotProduct check w)
    (h' : Projectable g part' partAttr' weightAttr .dotProduct check' w)
    (hother : ∀ x ∈ g.nodes, InPart g partAttr' part' x ↔ ¬ InPart g partAttr part x) :
    ∃ m m', monopartiteProjection g part partAttr weightAttr (some "dot_product") check none = .ok m ∧
      monopartiteProjection g part' partAttr' weightAttr (some "dot_product") check' none = .ok m' ∧
      ∑ p ∈ m.nodes.toFinset.offDiag, m.linkWeight p.1 p.2 ^ 2 + ∑ u ∈ m.nodes.toFinset, (∑ t ∈ g.nbhd u, w u t ^ 2) ^ 2 =
        ∑ p ∈ m'.nodes.toFinset.offDiag, m'.linkWeight p.1 p.2 ^ 2 + ∑ u ∈ m'.nodes.toFinset, (∑ t ∈ g.nbhd u, w u t ^ 2) ^ 2 := by
  classical
  obtain ⟨m, e1, e2⟩ := projection_squares hsqrt hrnd h
  obtain ⟨m', f1, f2⟩ := projection_squares hsqrt hrnd h'
  refine ⟨m, m', e1, f1, ?_⟩
  have hA : g.nodes.toFinset.filter (InPart g partAttr' part') = g.nodes.toFinset.filter (fun x => ¬ InPart g partAttr part x) :=
    Finset.filter_congr fun x hx => hother x (List.mem_toFinset.1 hx)
  have hB : g.nodes.toFinset.filter (fun x => ¬ InPart g partAttr' part' x) = g.nodes.toFinset.filter (InPart g partAttr part) :=
    Finset.filter_congr fun x hx => by rw [hother x (List.mem_toFinset.1 hx), not_not]
  have hw : ∀ u t, (if g.hasEdge u t = true then w u t else 0) = (if g.hasEdge t u = true then w t u else 0) := by
    intro u t
    rw [hasEdge_comm h.undirected t u]
    split
    · rename_i he
      obtain ⟨a, ha⟩ := edge?_of_hasEdge h.wf h.simple he
      have w1 := h.weights (.inr rfl) u t a ha
      rw [edge?_comm h.undirected] at ha
      have w2 := h.weights (.inr rfl) t u a ha
      exact hasWeight_unique w1 w2
    · rfl
  rw [e2, f2, hA, hB, sum_dots_sq]
  refine Finset.sum_congr rfl fun s _ => Finset.sum_congr rfl fun t _ => ?_
  congr 1
  exact Finset.sum_congr rfl fun u _ => by rw [hw u s, hw u t]

end

/-- Accounts 1, 2 and 3; 1 and 2 both have pages 10 and 11, 3 has page 11. -/
def twoPages : Graph Int (Val ℝ) :=
  ⟨false, false, [], [(1, []), (2, []), (3, []), (10, []), (11, [])],
    [⟨1, 10, [(.int 0, [])]⟩, ⟨1, 11, [(.int 0, [])]⟩, ⟨2, 10, [(.int 0, [])]⟩, ⟨2, 11, [(.int 0, [])]⟩, ⟨3, 11, [(.int 0, [])]⟩]⟩

theorem twoPages_projectable (ns : List Int) (hns : ns = [1, 2, 3] ∨ ns = [10, 11]) (check : Bool) :
    Projectable twoPages (.collection ns) "part" "weight" .intersection check (fun _ _ => 1) := by
  have hwf : twoPages.WF := by constructor <;> decide
  refine ⟨hwf, rfl, rfl, by simp, ?_, ?_, fun _ _ _ _ => rfl, ?_, by simp, by simp, by simp⟩
  · rcases hns with rfl | rfl
    · exact ⟨1, by decide, by decide⟩
    · exact ⟨10, by decide, by decide⟩
  · intro u v he
    obtain ⟨d, hd⟩ := Option.isSome_iff_exists.1 he
    obtain ⟨l, hl, hs, rfl⟩ := (Graph.keydict?_eq_some hwf).1 hd
    have hs := samePair_iff.1 hs
    rcases hns with rfl | rfl <;> simp only [InPart, twoPages, Graph.nodes, Dict.keys, List.map_cons, List.map_nil, List.mem_cons,
      List.not_mem_nil, or_false] at hl ⊢ <;>
    rcases hl with rfl | rfl | rfl | rfl | rfl <;> rcases hs with ⟨rfl, rfl⟩ | ⟨_, rfl, rfl⟩ <;> simp
  · intro n a ha _
    have : a = [] := by
      have := Dict.mem_of_get? ha
      simp only [twoPages, List.mem_cons, Prod.mk.injEq, List.not_mem_nil, or_false] at this
      rcases this with h | h | h | h | h <;> exact h.2
    subst this
    intro k hk
    simp [Dict.erase, Dict.keys] at hk

/-- C130, a case: the hypotheses are met, and there is one cycle of four nodes, seen as 4 from each part. -/
theorem projection_both_parts_sample [AttrVal (Val ℝ)] :
    ∃ m m', monopartiteProjection twoPages (.collection [1, 2, 3]) "part" "weight" none true none = .ok m ∧
      monopartiteProjection twoPages (.collection [10, 11]) "part" "weight" none true none = .ok m' ∧
      ∑ p ∈ m.nodes.toFinset.offDiag, m.linkWeight p.1 p.2 * (m.linkWeight p.1 p.2 - 1) = 4 ∧
      ∑ p ∈ m'.nodes.toFinset.offDiag, m'.linkWeight p.1 p.2 * (m'.linkWeight p.1 p.2 - 1) = 4 := by
  obtain ⟨m, m', e1, e2, e3, e4⟩ := projection_both_parts sqrt_pos_real (fun _ h => h) (twoPages_projectable [1, 2, 3] (.inl rfl) true)
    (twoPages_projectable [10, 11] (.inr rfl) true) (by
      intro x hx
      simp only [twoPages, Graph.nodes, Dict.keys, List.map_cons, List.map_nil, List.mem_cons, List.not_mem_nil, or_false] at hx
      rcases hx with rfl | rfl | rfl | rfl | rfl <;> simp [InPart, twoPages, Graph.nodes, Dict.keys])
  have hcard : (fourCycles twoPages).card = 8 := by decide +kernel
  rw [hcard] at e4
  push_cast at e4
  exact ⟨m, m', e1, e2, by linarith, by linarith⟩

/-- The edges of the graph carry no weight, so that each one counts for 1. -/
theorem twoPages_projectable_dot (ns : List Int) (hns : ns = [1, 2, 3] ∨ ns = [10, 11]) (check : Bool) :
    Projectable twoPages (.collection ns) "part" "weight" .dotProduct check (fun _ _ => 1) := by
  have h := twoPages_projectable ns hns check
  refine ⟨h.wf, h.undirected, h.simple, h.notFrozen, h.nonempty, h.bipartite, h.comparable, h.names, h.edgeAttr, ?_, by simp⟩
  intro _ u v a ha
  unfold Graph.edge? at ha
  cases hk : twoPages.keydict? u v with
  | none => rw [hk] at ha; cases ha
  | some d =>
    rw [hk] at ha
    obtain ⟨l, hl, -, rfl⟩ := (Graph.keydict?_eq_some h.wf).1 hk
    have : l.data = [(.int 0, [])] := by
      simp only [twoPages, List.mem_cons, List.not_mem_nil, or_false] at hl
      rcases hl with rfl | rfl | rfl | rfl | rfl <;> rfl
    have h2 : Dict.get? l.data (.int 0) = some a := ha
    rw [this] at h2
    cases h2
    exact .inl ⟨rfl, rfl⟩

/-- C130, a case by dot product: both sums are the same (21, made of 12 and 9 on one side, of 8 and 13 on the other). -/
theorem projection_both_parts_dot_sample [AttrVal (Val ℝ)] :
    ∃ m m', monopartiteProjection twoPages (.collection [1, 2, 3]) "part" "weight" (some "dot_product") true none = .ok m ∧
      monopartiteProjection twoPages (.collection [10, 11]) "part" "weight" (some "dot_product") true none = .ok m' ∧
      ∑ p ∈ m.nodes.toFinset.offDiag, m.linkWeight p.1 p.2 ^ 2 +
          ∑ u ∈ m.nodes.toFinset, (∑ t ∈ twoPages.nbhd u, (1 : ℝ) ^ 2) ^ 2 =
        ∑ p ∈ m'.nodes.toFinset.offDiag, m'.linkWeight p.1 p.2 ^ 2 +
          ∑ u ∈ m'.nodes.toFinset, (∑ t ∈ twoPages.nbhd u, (1 : ℝ) ^ 2) ^ 2 :=
  projection_both_parts_dot sqrt_pos_real (fun _ h => h) (twoPages_projectable_dot [1, 2, 3] (.inl rfl) true)
    (twoPages_projectable_dot [10, 11] (.inr rfl) true) (by
      intro x hx
      simp only [twoPages, Graph.nodes, Dict.keys, List.map_cons, List.map_nil, List.mem_cons, List.not_mem_nil, or_false] at hx
      rcases hx with rfl | rfl | rfl | rfl | rfl <;> simp [InPart, twoPages, Graph.nodes, Dict.keys])

end Pelote
