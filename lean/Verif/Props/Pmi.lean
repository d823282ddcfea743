import Verif.Props.KernelsFloat
import Verif.Props.DisparityErrors
import Verif.Props.SpanningTreesFloat

/-! C116: the weights of a projection by pointwise mutual information, the thresholds they cannot reach, and the disparity of such a
projection. -/
set_option linter.unusedSectionVars false
namespace Pelote

/-- Pointwise mutual information of two nodes with `a` and `b` neighbors, `c` of them shared, among `n`. -/
noncomputable def mutualInformation (n c a b : ℝ) : ℝ := Real.log (c / n / (a / n * (b / n)))

theorem mutualInformation_shift {n c a b : ℝ} (hn : 0 < n) (hc : 0 < c) (ha : 0 < a) (hb : 0 < b) :
    Real.log (c / (a * b)) = mutualInformation n c a b - Real.log n := by
  unfold mutualInformation
  rw [← Real.log_div (by positivity) hn.ne']
  congr 1
  field_simp

theorem log_quotient_le {V : Type} [DecidableEq V] (A B : Finset V) (h : (A ∩ B).Nonempty) :
    Real.log (((A ∩ B).card : ℝ) / (A.card * B.card)) ≤ -Real.log (max A.card B.card) ∧
      (Real.log (((A ∩ B).card : ℝ) / (A.card * B.card)) = -Real.log (max A.card B.card) ↔ A ⊆ B ∨ B ⊆ A) := by
  have hI : 0 < (A ∩ B).card := Finset.card_pos.2 h
  have lA := Finset.card_le_card (Finset.inter_subset_left (s₁ := A) (s₂ := B))
  have lB := Finset.card_le_card (Finset.inter_subset_right (s₁ := A) (s₂ := B))
  have hA : (0 : ℝ) < A.card := by exact_mod_cast hI.trans_le lA
  have hB : (0 : ℝ) < B.card := by exact_mod_cast hI.trans_le lB
  have hI' : (0 : ℝ) < (A ∩ B).card := by exact_mod_cast hI
  have hmax : (0 : ℝ) < max (A.card : ℝ) B.card := lt_max_of_lt_left hA
  have hmin : (0 : ℝ) < min (A.card : ℝ) B.card := lt_min hA hB
  have e : ((A ∩ B).card : ℝ) / (A.card * B.card) = ((A ∩ B).card : ℝ) / min (A.card : ℝ) B.card * (max (A.card : ℝ) B.card)⁻¹ := by
    rw [← min_mul_max (A.card : ℝ) B.card, div_mul_eq_div_mul_one_div, one_div]
  have hq : 0 < ((A ∩ B).card : ℝ) / min (A.card : ℝ) B.card := div_pos hI' hmin
  have hle : ((A ∩ B).card : ℝ) ≤ min (A.card : ℝ) B.card := le_min (by exact_mod_cast lA) (by exact_mod_cast lB)
  have hq1 : ((A ∩ B).card : ℝ) / min (A.card : ℝ) B.card ≤ 1 := div_le_one_of_le₀ hle hmin.le
  rw [e, Real.log_mul hq.ne' (inv_pos.2 hmax).ne', Real.log_inv]
  have h0 := Real.log_nonpos hq.le hq1
  refine ⟨by linarith, ?_⟩
  have : (Real.log (((A ∩ B).card : ℝ) / min (A.card : ℝ) B.card) + -Real.log (max (A.card : ℝ) B.card) =
      -Real.log (max (A.card : ℝ) B.card)) ↔ ((A ∩ B).card : ℝ) = min (A.card : ℝ) B.card := by
    rw [add_eq_right]
    constructor
    · intro hl
      rcases Real.log_eq_zero.1 hl with hl | hl | hl
      · exact absurd hl hq.ne'
      · exact (div_eq_one_iff_eq hmin.ne').1 hl
      · linarith
    · intro hl
      rw [hl, div_self hmin.ne', Real.log_one]
  rw [this]
  constructor
  · intro hl
    rcases le_total (A.card : ℝ) B.card with hab | hab
    · rw [min_eq_left hab] at hl
      left
      exact Finset.inter_eq_left.1 (Finset.eq_of_subset_of_card_le Finset.inter_subset_left (by exact_mod_cast hl.ge))
    · rw [min_eq_right hab] at hl
      right
      exact Finset.inter_eq_right.1 (Finset.eq_of_subset_of_card_le Finset.inter_subset_right (by exact_mod_cast hl.ge))
  · rintro (hl | hl)
    · rw [Finset.inter_eq_left.2 hl]
      exact (min_eq_left (by exact_mod_cast Finset.card_le_card hl)).symm
    · rw [Finset.inter_eq_right.2 hl]
      exact (min_eq_right (by exact_mod_cast Finset.card_le_card hl)).symm

theorem edges_nil {V A : Type} [DecidableEq V] {m : Graph V A} (h : m.WF) (he : ∀ u v, m.hasEdge u v = false) : m.edges = [] := by
  rw [List.eq_nil_iff_forall_not_mem]
  rintro ⟨u, v⟩ hm
  have := (hasEdge_listed h).2 (.inl hm)
  rw [he u v] at this
  cases this

section
variable {V : Type} [LinearOrder V] [PyOrd V] [AttrVal (Val ℝ)] {g : Graph V (Val ℝ)} {part : Part V ℝ}
  {partAttr weightAttr : String} {check : Bool} {w : V → V → ℝ}

theorem pmi_name : ((some "pmi", .pmi) : Option String × Metric) ∈ metricNames := by simp [metricNames]

/-- C116.  Over the real numbers, the weights by pointwise mutual information are the textbook values (which depend on the number of
nodes `n` of the other part) all lowered by the logarithm of `n`; none is above minus the logarithm of the larger number of neighbors,
which is reached exactly when one node has all the neighbors of the other. -/
theorem projection_pmi (h : Projectable g part partAttr weightAttr .pmi check w) :
    ∃ m, monopartiteProjection g part partAttr weightAttr (some "pmi") check none = .ok m ∧
      (∀ u v, m.hasEdge u v = true ↔ u ≠ v ∧ InPart g partAttr part u ∧ InPart g partAttr part v ∧ (g.nbhd u ∩ g.nbhd v).Nonempty) ∧
      ∀ u v, m.hasEdge u v = true →
        (∀ n : ℝ, 0 < n → m.linkWeight u v =
          mutualInformation n (g.nbhd u ∩ g.nbhd v).card (g.nbhd u).card (g.nbhd v).card - Real.log n) ∧
        m.linkWeight u v ≤ -Real.log (max ((g.nbhd u).card : ℝ) (g.nbhd v).card) ∧
        (m.linkWeight u v = -Real.log (max ((g.nbhd u).card : ℝ) (g.nbhd v).card) ↔ g.nbhd u ⊆ g.nbhd v ∨ g.nbhd v ⊆ g.nbhd u) := by
  obtain ⟨m, h1, h2, h3, h4⟩ := projection_linkWeight sqrt_pos_real (fun _ h => h) h pmi_name
  refine ⟨m, h1, h3, fun u v he => ?_⟩
  have hne := ((h3 u v).1 he).2.2.2
  have hw : m.linkWeight u v = Real.log (((g.nbhd u ∩ g.nbhd v).card : ℝ) / ((g.nbhd u).card * (g.nbhd v).card)) := h4 u v he
  rw [hw]
  refine ⟨fun n hn => mutualInformation_shift hn ?_ ?_ ?_, log_quotient_le _ _ hne⟩
  · exact_mod_cast Finset.card_pos.2 hne
  · exact_mod_cast Finset.card_pos.2 (hne.mono Finset.inter_subset_left)
  · exact_mod_cast Finset.card_pos.2 (hne.mono Finset.inter_subset_right)

omit [AttrVal (Val ℝ)] in
theorem checkThreshold_bad {x : Val ℝ} (hx : ¬ ∃ t, x.toNum = .ok t ∧ 0 < t) :
    checkThreshold (some x) = .error (.typeError "weight_threshold should be a number >= 0") := by
  simp only [checkThreshold]
  split
  · rfl
  · rename_i t ht
    rw [if_pos]
    by_contra hc
    exact hx ⟨t, ht, lt_of_not_ge hc⟩

theorem edgeless_of_nonpos {m : Graph V (Val ℝ)} (hwf : m.WF) (hm : m.multi = false) {x : Val ℝ} {t : ℝ}
    (ht : x.toNum = .ok t) (h0 : 0 < t)
    (h : ∀ u v a, m.edge? u v (.int 0) = some a → ∃ s : ℝ, s ≤ 0 ∧ ReachesThreshold (some x) s) : m.edges = [] := by
  refine edges_nil hwf fun u v => ?_
  cases he : m.hasEdge u v with
  | false => rfl
  | true =>
    obtain ⟨a, ha⟩ := edge_exists hwf hm he
    obtain ⟨s, hs, hr⟩ := h u v a ha
    have := hr x t rfl ht
    linarith

/-- C116.  No threshold works with pointwise mutual information: it is either refused, with `TypeError`, or leaves no edge. -/
theorem projection_pmi_threshold (h : Projectable g part partAttr weightAttr .pmi check w) (x : Val ℝ) :
    ((¬ ∃ t, x.toNum = .ok t ∧ 0 < t) → monopartiteProjection g part partAttr weightAttr (some "pmi") check (some x) =
      .error (.typeError "weight_threshold should be a number >= 0")) ∧
    ((∃ t, x.toNum = .ok t ∧ 0 < t) → ∃ m, monopartiteProjection g part partAttr weightAttr (some "pmi") check (some x) = .ok m ∧
      (∀ n, n ∈ m.nodes ↔ InPart g partAttr part n) ∧ m.edges = []) := by
  refine ⟨fun hx => ?_, ?_⟩
  · unfold monopartiteProjection
    simp only [checkThreshold_bad hx]
    rfl
  · rintro ⟨t, ht, h0⟩
    obtain ⟨m, h1, h2, h3⟩ := projection_exact_real h pmi_name (threshold := some x) (by rintro v ⟨⟩; exact ⟨t, ht, h0⟩)
    refine ⟨m, h1, projection_part h.wf h.notFrozen h1,
      edgeless_of_nonpos h2 (projection_nodes_partial _ _ _ _ _ _ _ h.wf h.notFrozen h1).2.1 ht h0 fun u v a he => ?_⟩
    obtain ⟨-, -, -, hne, hr, -⟩ := (h3 u v a).1 he
    exact ⟨_, (pmi_range _ _ _ _ hne).1, hr⟩

theorem nodeStrength_nonpos {m : Graph V (Val ℝ)} {s : V → V → ℝ} (hs : ∀ e ∈ m.edges, s e.1 e.2 ≤ 0) (n : V) :
    m.nodeStrength s n = 0 ↔ ∀ e ∈ m.edges, e.1 = n ∨ e.2 = n → s e.1 e.2 = 0 := by
  unfold Graph.nodeStrength
  generalize m.edges = l at *
  have key : ∀ l : List (V × V), (∀ e ∈ l, s e.1 e.2 ≤ 0) →
      (l.map fun e => (if e.1 = n then s e.1 e.2 else 0) + (if e.2 = n then s e.1 e.2 else 0)).sum ≤ 0 ∧
      ((l.map fun e => (if e.1 = n then s e.1 e.2 else 0) + (if e.2 = n then s e.1 e.2 else 0)).sum = 0 ↔
        ∀ e ∈ l, e.1 = n ∨ e.2 = n → s e.1 e.2 = 0) := by
    intro l hl
    induction l with
    | nil => simp
    | cons e l ih =>
      obtain ⟨i1, i2⟩ := ih fun e he => hl e (List.mem_cons_of_mem _ he)
      have he := hl e List.mem_cons_self
      rw [List.map_cons, List.sum_cons]
      simp only [List.forall_mem_cons]
      have hterm : (if e.1 = n then s e.1 e.2 else 0) + (if e.2 = n then s e.1 e.2 else 0) ≤ 0 := by split_ifs <;> linarith
      have hz : (if e.1 = n then s e.1 e.2 else 0) + (if e.2 = n then s e.1 e.2 else 0) = 0 ↔ (e.1 = n ∨ e.2 = n → s e.1 e.2 = 0) := by
        split_ifs with c1 c2 c2 <;> simp [c1, c2] <;> first | (constructor <;> intro <;> linarith) | skip
      refine ⟨by linarith, ?_⟩
      rw [← i2, ← hz]
      constructor
      · intro; constructor <;> linarith
      · rintro ⟨a, b⟩; linarith
  exact (key l hs).2

theorem simple_edgesData {m : Graph V (Val ℝ)} (h2 : m.WF) (hm : m.multi = false) {u v : V} {a : Attrs (Val ℝ)}
    (he : (u, v, a) ∈ m.edgesData) : m.edge? u v (.int 0) = some a := by
  obtain ⟨l, hl, rfl, rfl, k, hk⟩ := (Graph.mem_edgesData h2).1 he
  have hk0 : k = .int 0 := by
    have := h2.simple hm l hl
    have hmem : k ∈ l.data.keys := List.mem_map.2 ⟨_, hk, rfl⟩
    rw [this] at hmem
    simpa using hmem
  subst hk0
  have hkd : m.keydict? (m.orient l).u (m.orient l).v = some l.data :=
    (Graph.keydict?_eq_some h2).2 ⟨l, hl, m.orient_samePair l, rfl⟩
  have hnd := h2.simple hm l hl
  unfold Graph.edge?
  rw [hkd]
  obtain ⟨a', ha'⟩ := Dict.exists_get?_of_mem_keys (d := l.data) (k := .int 0) (by rw [hnd]; simp)
  have : a = a' := by
    have hmem := Dict.mem_of_get? ha'
    have hlen : l.data.length = 1 := by
      have := congrArg List.length hnd
      simpa [Dict.keys] using this
    obtain ⟨p, hp⟩ := List.length_eq_one_iff.1 hlen
    rw [hp, List.mem_singleton] at hk hmem
    rw [← hmem] at hk
    exact (Prod.mk.injEq .. ▸ hk).2
  rw [this]
  exact ha'

theorem weighted_links {m : Graph V (Val ℝ)} (h2 : m.WF) (hm : m.multi = false) {s : V → V → ℝ}
    (hs : ∀ u v a, m.edge? u v (.int 0) = some a → a = [(.str "weight", .num (s u v))]) : m.Weighted "weight" s := by
  rintro ⟨u, v, a⟩ he
  have := hs _ _ a (simple_edgesData h2 hm he)
  subst this
  exact ⟨_, rfl, rfl⟩

theorem pmi_strength_zero {m : Graph V (Val ℝ)} (h2 : m.WF) (hd : m.directed = false) {s : V → V → ℝ} (hsym : ∀ u v, s u v = s v u)
    (hneg : ∀ u v, m.hasEdge u v = true → s u v ≤ 0) (u : V) :
    m.roundedStrength id s u = 0 ↔ ∀ v, m.hasEdge u v = true → s u v = 0 := by
  rw [roundedStrength_id h2 hd hsym, nodeStrength_nonpos (fun e he => hneg e.1 e.2 ((hasEdge_listed h2).2 (.inl he)))]
  constructor
  · intro hall v he
    rcases (hasEdge_listed h2).1 he with hl | ⟨-, hl⟩
    · exact hall _ hl (.inl rfl)
    · exact (hsym u v).trans (hall _ hl (.inr rfl))
  · rintro hall ⟨x, y⟩ he hxy
    have hl := (hasEdge_listed h2).2 (.inl he)
    rcases hxy with rfl | rfl
    · exact hall y hl
    · exact (hsym _ _).trans (hall x ((Graph.hasEdge_comm hd _ _).trans hl))

/-- C116.  `edge_disparity` of the projection by pointwise mutual information raises `ZeroDivisionError` exactly when some node of the
other part has several neighbors none of which has another neighbor; otherwise it returns. -/
theorem projection_pmi_disparity (ho : OrderedKeys V) (h : Projectable g part partAttr weightAttr .pmi check w) (reverse : Bool) :
    ∃ m, monopartiteProjection g part partAttr weightAttr (some "pmi") check none = .ok m ∧
      ((∃ d, edgeDisparity m "weight" reverse = .ok d) ↔
        ¬ ∃ u t, InPart g partAttr part u ∧ t ∈ g.nbhd u ∧ 2 ≤ (g.nbhd t).card ∧ ∀ v ∈ g.nbhd t, g.nbhd v = {t}) ∧
      (edgeDisparity m "weight" reverse = .error .zeroDivisionError ↔
        ∃ u t, InPart g partAttr part u ∧ t ∈ g.nbhd u ∧ 2 ≤ (g.nbhd t).card ∧ ∀ v ∈ g.nbhd t, g.nbhd v = {t}) := by
  obtain ⟨m, h1, h2, h3⟩ := projection_exact_real h pmi_name (threshold := none) (by simp)
  obtain ⟨hd, hm, -⟩ := projection_nodes_partial _ _ _ _ _ _ _ h.wf h.notFrozen h1
  have hE : ∀ u v, m.hasEdge u v = true ↔
      u ≠ v ∧ InPart g partAttr part u ∧ InPart g partAttr part v ∧ (g.nbhd u ∩ g.nbhd v).Nonempty := by
    intro u v
    constructor
    · intro he
      obtain ⟨a, ha⟩ := edge_exists h2 hm he
      obtain ⟨c1, c2, c3, c4, -⟩ := (h3 u v a).1 ha
      exact ⟨c1, c2, c3, c4⟩
    · rintro ⟨c1, c2, c3, c4⟩
      exact hasEdge_of_edge? ((h3 u v _).2 ⟨c1, c2, c3, c4, reaches_none _, rfl⟩)
  obtain ⟨s, hs⟩ : ∃ s : V → V → ℝ, ∀ u v, s u v = similarity .pmi (g.nbhd u) (g.nbhd v) (w u) (w v) := ⟨_, fun _ _ => rfl⟩
  have hsym : ∀ u v, s u v = s v u := by
    intro u v
    rw [hs, hs]
    simp only [similarity, Finset.inter_comm, mul_comm]
  have hwt : m.Weighted "weight" s := weighted_links h2 hm fun u v a ha => by
    rw [hs]; exact ((h3 u v a).1 ha).2.2.2.2.2
  have hp : ∀ u v, m.hasEdge u v = true → s u v ≤ 0 ∧ (s u v = 0 ↔ (g.nbhd u).card = 1 ∧ (g.nbhd v).card = 1) := by
    intro u v he
    rw [hs]
    exact pmi_range _ _ _ _ ((hE u v).1 he).2.2.2
  have hstr : ∀ u, m.roundedStrength id s u = 0 ↔ ∀ v, m.hasEdge u v = true → (g.nbhd u).card = 1 ∧ (g.nbhd v).card = 1 := by
    intro u
    rw [pmi_strength_zero h2 hd hsym (fun u v he => (hp u v he).1)]
    exact forall_congr' fun v => forall_congr' fun he => (hp u v he).2
  have hz : (∃ u v, m.hasEdge u v = true ∧ m.roundedStrength id s u = 0) ↔
      ∃ u t, InPart g partAttr part u ∧ t ∈ g.nbhd u ∧ 2 ≤ (g.nbhd t).card ∧ ∀ v ∈ g.nbhd t, g.nbhd v = {t} := by
    have hcomm : ∀ a b, a ∈ g.nbhd b ↔ b ∈ g.nbhd a := by
      intro a b
      rw [mem_nbhd h.wf, mem_nbhd h.wf, Graph.hasEdge_comm h.undirected]
    constructor
    · rintro ⟨u, v, he, hu⟩
      rw [hstr] at hu
      obtain ⟨hne, pu, pv, t, ht⟩ := (hE u v).1 he
      rw [Finset.mem_inter] at ht
      refine ⟨u, t, pu, ht.1, ?_, fun z hz => ?_⟩
      · exact Finset.one_lt_card.2 ⟨u, (hcomm _ _).1 ht.1, v, (hcomm _ _).1 ht.2, hne⟩
      · have hone : (g.nbhd z).card = 1 := by
          by_cases hzu : z = u
          · rw [hzu]; exact (hu v he).1
          · have pz : InPart g partAttr part z := by
              have e1 := h.bipartite u t ((mem_nbhd h.wf).1 ht.1)
              have e2 := h.bipartite t z ((mem_nbhd h.wf).1 hz)
              tauto
            exact (hu z ((hE u z).2 ⟨Ne.symm hzu, pu, pz, t, Finset.mem_inter.2 ⟨ht.1, (hcomm _ _).1 hz⟩⟩)).2
        obtain ⟨y, hy⟩ := Finset.card_eq_one.1 hone
        have := (hcomm _ _).1 hz
        rw [hy] at this ⊢
        rw [Finset.mem_singleton.1 this]
    · rintro ⟨u, t, pu, ht, hcard, hall⟩
      have hut := (hcomm _ _).1 ht
      obtain ⟨v, hv, hne⟩ := Finset.exists_mem_ne hcard u
      have pv : InPart g partAttr part v := by
        have e1 := h.bipartite u t ((mem_nbhd h.wf).1 ht)
        have e2 := h.bipartite t v ((mem_nbhd h.wf).1 hv)
        tauto
      refine ⟨u, v, (hE u v).2 ⟨hne.symm, pu, pv, t, Finset.mem_inter.2 ⟨ht, (hcomm _ _).1 hv⟩⟩, (hstr u).2 fun z hz => ?_⟩
      obtain ⟨-, -, -, y, hy⟩ := (hE u z).1 hz
      rw [Finset.mem_inter, hall u hut, Finset.mem_singleton] at hy
      obtain ⟨rfl, hy⟩ := hy
      exact ⟨by rw [hall u hut]; simp, by rw [hall z ((hcomm _ _).1 hy)]; simp⟩
  obtain ⟨r1, r2⟩ := edgeDisparity_raises_zero Arith.exact ho h2 hd hm hsym hwt reverse
  refine ⟨m, h1, ?_, r2.trans hz⟩
  refine r1.trans ?_
  rw [← hz]
  push Not
  rfl

end

section
attribute [local instance] binary64
variable {V : Type} [LinearOrder V] [PyOrd V] [AttrVal (Val ℝ)] {g : Graph V (Val ℝ)} {part : Part V ℝ}
  {partAttr weightAttr : String} {check : Bool} {w : V → V → ℝ}

/-- C116.  With doubles too, the weights by pointwise mutual information are at most 0 and a threshold leaves no edge. -/
theorem projection64_pmi (h : Projectable g part partAttr weightAttr .pmi check w) (hsize : g.order < 2 ^ 52) :
    (∃ m, monopartiteProjection g part partAttr weightAttr (some "pmi") check none = .ok m ∧
      ∀ u v, m.hasEdge u v = true → m.linkWeight u v = round64 (Real.log (round64
        (((g.nbhd u ∩ g.nbhd v).card : ℝ) / ((g.nbhd u).card * (g.nbhd v).card)))) ∧ m.linkWeight u v ≤ 0) ∧
    ∀ (x : Val ℝ) (t : ℝ), x.toNum = .ok t → 0 < t →
      ∃ m, monopartiteProjection g part partAttr weightAttr (some "pmi") check (some x) = .ok m ∧
        (∀ n, n ∈ m.nodes ↔ InPart g partAttr part n) ∧ m.edges = [] := by
  have hr : ∀ u v, (g.nbhd u ∩ g.nbhd v).Nonempty →
      0 < round64 (((g.nbhd u ∩ g.nbhd v).card : ℝ) / ((g.nbhd u).card * (g.nbhd v).card)) ∧
      round64 (((g.nbhd u ∩ g.nbhd v).card : ℝ) / ((g.nbhd u).card * (g.nbhd v).card)) ≤ 1 := by
    intro u v hne
    have hI := Finset.card_pos.2 hne
    have lA := Finset.card_le_card (Finset.inter_subset_left (s₁ := g.nbhd u) (s₂ := g.nbhd v))
    have lB := Finset.card_le_card (Finset.inter_subset_right (s₁ := g.nbhd u) (s₂ := g.nbhd v))
    have hA := lt_of_le_of_lt (card_nbhd_le g u) hsize
    have hB := lt_of_le_of_lt (card_nbhd_le g v) hsize
    generalize (g.nbhd u ∩ g.nbhd v).card = c at *
    generalize (g.nbhd u).card = a at *
    generalize (g.nbhd v).card = b at *
    have ha : (0 : ℝ) < a := by exact_mod_cast hI.trans_le lA
    have hb : (0 : ℝ) < b := by exact_mod_cast hI.trans_le lB
    have hab : (a : ℝ) * b ≤ 2 ^ 104 := by
      have : a * b ≤ 2 ^ 52 * 2 ^ 52 := Nat.mul_le_mul hA.le hB.le
      have : a * b ≤ 2 ^ 104 := this.trans (by norm_num)
      exact_mod_cast this
    have hc1 : (1 : ℝ) ≤ c := by exact_mod_cast hI
    have hca : c ≤ a * b := lA.trans (Nat.le_mul_of_pos_right _ (hI.trans_le lB))
    constructor
    · have h1 : ((1 : ℤ) : ℝ) * 2 ^ (-104 : ℤ) ≤ (c : ℝ) / (a * b) := by
        rw [le_div_iff₀ (mul_pos ha hb)]
        norm_num at hab ⊢
        linarith
      have h2 := round64_mono (by norm_num) h1
      rw [round64_float (by norm_num) ⟨1, -104, by norm_num, by norm_num, rfl⟩] at h2
      exact lt_of_lt_of_le (by norm_num) h2
    · have := round64_mono (K := ℝ) (by positivity) ((div_le_one (mul_pos ha hb)).2 (by exact_mod_cast hca : (c : ℝ) ≤ a * b))
      rwa [round64_one] at this
  have hs : ∀ u v, (g.nbhd u ∩ g.nbhd v).Nonempty → similarity .pmi (g.nbhd u) (g.nbhd v) (w u) (w v) ≤ 0 := fun u v hne =>
    round64_nonpos (Real.log_nonpos (hr u v hne).1.le (hr u v hne).2)
  have hno : ∀ u v, InPart g partAttr part u → InPart g partAttr part v → (g.nbhd u ∩ g.nbhd v).Nonempty →
      NoUnderflow .pmi (g.nbhd u) (g.nbhd v) (w u) (w v) := fun u v _ _ hne => (hr u v hne).1
  refine ⟨?_, fun x t ht h0 => ?_⟩
  · obtain ⟨m, h1, h2, h3⟩ := projection_rounded h hno pmi_name (threshold := none) (by simp)
    refine ⟨m, h1, fun u v he => ?_⟩
    obtain ⟨a, ha⟩ := edge_exists h2 (projection_nodes_partial _ _ _ _ _ _ _ h.wf h.notFrozen h1).2.1 he
    obtain ⟨-, -, -, hne, -, rfl⟩ := (h3 u v a).1 ha
    have : m.linkWeight u v = similarity .pmi (g.nbhd u) (g.nbhd v) (w u) (w v) := by
      unfold Graph.linkWeight
      rw [ha]
      rfl
    rw [this]
    exact ⟨rfl, hs u v hne⟩
  · obtain ⟨m, h1, h2, h3⟩ := projection_rounded h hno pmi_name (threshold := some x) (by rintro v ⟨⟩; exact ⟨t, ht, h0⟩)
    refine ⟨m, h1, projection_part h.wf h.notFrozen h1,
      edgeless_of_nonpos h2 (projection_nodes_partial _ _ _ _ _ _ _ h.wf h.notFrozen h1).2.1 ht h0 fun u v a he => ?_⟩
    obtain ⟨-, -, -, hne, hr, -⟩ := (h3 u v a).1 he
    exact ⟨_, hs u v hne, hr⟩

end

/-- Accounts 1 and 2 share page 10 and nothing else. -/
def sharedPage : Graph Int (Val ℝ) :=
  ⟨false, false, [], [(1, []), (2, []), (10, [])], [⟨1, 10, [(.int 0, [])]⟩, ⟨2, 10, [(.int 0, [])]⟩]⟩

theorem sharedPage_projectable (check : Bool) :
    Projectable sharedPage (.collection [1, 2]) "part" "weight" .pmi check (fun _ _ => 1) := by
  have hwf : sharedPage.WF := by constructor <;> decide
  refine ⟨hwf, rfl, rfl, by simp, ⟨1, by decide, by decide⟩, ?_, fun _ _ _ _ => rfl, ?_, by simp, by simp, by simp⟩
  · intro u v he
    obtain ⟨d, hd⟩ := Option.isSome_iff_exists.1 he
    obtain ⟨l, hl, hs, rfl⟩ := (Graph.keydict?_eq_some hwf).1 hd
    have hs := samePair_iff.1 hs
    simp only [InPart, sharedPage, Graph.nodes, Dict.keys, List.map_cons, List.map_nil, List.mem_cons,
      List.not_mem_nil, or_false] at hl ⊢
    rcases hl with rfl | rfl <;> rcases hs with ⟨rfl, rfl⟩ | ⟨_, rfl, rfl⟩ <;> simp
  · intro n a ha _
    have : a = [] := by
      have := Dict.mem_of_get? ha
      simp only [sharedPage, List.mem_cons, Prod.mk.injEq, List.not_mem_nil, or_false] at this
      rcases this with h | h | h <;> exact h.2
    subst this
    intro k hk
    simp [Dict.erase, Dict.keys] at hk

theorem twins_projectable_pmi (check : Bool) :
    Projectable twins (.collection [1, 2, 3, 4]) "part" "weight" .pmi check (fun _ _ => 1) :=
  { (twins_projectable .dice (by simp) check).1 with weights := by simp, cosine := by simp }

/-- C116.  Both cases occur: two accounts sharing a single page make `edge_disparity` raise, two pairs of accounts sharing several do
not, and are linked with weights minus the logarithm of 3 and of 2. -/
theorem pmi_samples [AttrVal (Val ℝ)] (reverse : Bool) :
    (∃ m, monopartiteProjection sharedPage (.collection [1, 2]) "part" "weight" (some "pmi") true none = .ok m ∧
      edgeDisparity m "weight" reverse = .error .zeroDivisionError) ∧
    ∃ m, monopartiteProjection twins (.collection [1, 2, 3, 4]) "part" "weight" (some "pmi") true none = .ok m ∧
      (∃ d, edgeDisparity m "weight" reverse = .ok d) ∧ m.linkWeight 1 2 = -Real.log 3 ∧ m.linkWeight 3 4 = -Real.log 2 := by
  have ho : OrderedKeys Int := fun _ _ => rfl
  constructor
  · obtain ⟨m, h1, -, h2⟩ := projection_pmi_disparity ho (sharedPage_projectable true) reverse
    exact ⟨m, h1, h2.2 ⟨1, 10, ⟨by decide, by decide⟩, by decide, by decide, by decide⟩⟩
  · obtain ⟨-, -, p1, p2, e1, c1, p3, p4, e2, c2⟩ := twins_projectable .dice (by simp) true
    obtain ⟨m, h1, h2, -⟩ := projection_pmi_disparity ho (twins_projectable_pmi true) reverse
    obtain ⟨m', h1', h3, h4⟩ := projection_pmi (twins_projectable_pmi true)
    rw [h1] at h1'
    cases h1'
    refine ⟨m, h1, h2.2 ?_, ?_, ?_⟩
    · rintro ⟨u, t, ⟨-, hu⟩, ht, -, hall⟩
      have hwf := (twins_projectable_pmi true).wf
      have hone := hall u ((mem_nbhd hwf).2 ((Graph.hasEdge_comm rfl _ _).trans ((mem_nbhd hwf).1 ht)))
      have hcard : (twins.nbhd u).card = 1 := by rw [hone]; simp
      simp only [List.mem_cons, List.not_mem_nil, or_false] at hu
      rcases hu with rfl | rfl | rfl | rfl
      · omega
      · rw [← e1] at hcard; omega
      · omega
      · rw [← e2] at hcard; omega
    · have he : m.hasEdge 1 2 = true := (h3 1 2).2 ⟨by decide, p1, p2, by decide⟩
      rw [(h4 1 2 he).2.2.2 (.inl e1.subset), ← e1, c1, max_self]
      norm_num
    · have he : m.hasEdge 3 4 = true := (h3 3 4).2 ⟨by decide, p3, p4, by decide⟩
      rw [(h4 3 4 he).2.2.2 (.inl e2.subset), ← e2, c2, max_self]
      norm_num

end Pelote
