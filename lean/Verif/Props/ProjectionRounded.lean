import Verif.Lemmas.ProjectionRounded
import Verif.Lemmas.Near
import Verif.Props.ProjectionFloat

/-! C86: the monopartite projection of a graph whose weights are floats. -/
set_option linter.unusedSectionVars false
namespace Pelote

section
variable {V K : Type} [LinearOrder V] [Field K] [LinearOrder K] [PyOrd V] [PyMath K] [AttrVal (Val K)]

/-- C86.  Rounding the operations on weights changes nothing for the metrics that only count neighbors: the theorems on
them hold for floats too. -/
theorem projection_counts_exactly (num : K → K) (g : Graph V (Val K)) (part : Part V K) (partAttr weightAttr : String)
    {metric : Option String} (hm : metric ≠ some "cosine") (hm' : metric ≠ some "dot_product") (check : Bool)
    (threshold : Option (Val K)) :
    monopartiteProjectionR num g part partAttr weightAttr metric check threshold =
      monopartiteProjection g part partAttr weightAttr metric check threshold := by
  refine monopartiteProjectionR_eq g part partAttr weightAttr metric check threshold fun kind hk => .inr ?_
  cases kind <;> first | rfl | (simp [metricNames] at hk; first | exact absurd hk hm | exact absurd hk hm')

/-- C86.  Without rounding the two models agree. -/
theorem projection_unrounded (g : Graph V (Val K)) (part : Part V K) (partAttr weightAttr : String)
    (metric : Option String) (check : Bool) (threshold : Option (Val K)) :
    monopartiteProjectionR id g part partAttr weightAttr metric check threshold =
      monopartiteProjection g part partAttr weightAttr metric check threshold :=
  monopartiteProjectionR_eq g part partAttr weightAttr metric check threshold fun _ _ => .inl rfl

/-- C86.  What the projection computes with rounded weights: two distinct nodes of the part are linked exactly when they
share a neighbor and their rounded similarity reaches the threshold, and this similarity is the weight.  The products are
added in the order in which the lesser of the two nodes lists its neighbors. -/
theorem projection_weights_rounded [IsStrictOrderedRing K] (num : K → K)
    {g : Graph V (Val K)} {part : Part V K} {partAttr weightAttr : String} {kind : Metric} {check : Bool}
    {w : V → V → K} (h : Projectable g part partAttr weightAttr kind check w) (hkind : kind = .cosine ∨ kind = .dotProduct)
    (hpos : kind = .cosine → ∀ n, InPart g partAttr part n → (g.nbhd n).Nonempty →
      0 < roundedDot num (g.neighbors n) (w n) (w n))
    (hno : kind = .cosine → ∀ u v, u < v → InPart g partAttr part u → InPart g partAttr part v →
      (g.nbhd u ∩ g.nbhd v).Nonempty → PyMath.rnd (roundedNorm num g w u * roundedNorm num g w v) ≠ 0)
    {metric : Option String} (hk : (metric, kind) ∈ metricNames)
    {threshold : Option (Val K)} (ht : ∀ v, threshold = some v → ∃ t, v.toNum = .ok t ∧ 0 < t) :
    ∃ m, monopartiteProjectionR num g part partAttr weightAttr metric check threshold = .ok m ∧ m.WF ∧
      ∀ u v a, m.edge? u v (.int 0) = some a ↔
        u ≠ v ∧ InPart g partAttr part u ∧ InPart g partAttr part v ∧ (g.nbhd u ∩ g.nbhd v).Nonempty ∧
        ReachesThreshold threshold (roundedSimilarity num g kind w (min u v) (max u v)) ∧
        a = [(.str "weight", .num (roundedSimilarity num g kind w (min u v) (max u v)))] := by
  have hwf := h.wf
  have huses : kind.usesWeights = true := by rcases hkind with rfl | rfl <;> rfl
  obtain ⟨t, ht1, ht2⟩ := checkThreshold_ok ht
  have hwt : ∀ n, ∀ q ∈ g.adj n, (taWeight g q.2 weightAttr).toNum = .ok (w n q.1) :=
    fun n q hq => taWeight_ok hwf h.simple (h.weights hkind) hq
  have hsafe : ∀ p ∈ g.node, part.keeps partAttr p.1 p.2 = true → Graph.NodeKwSafe (p.2.erase (.str partAttr)) := by
    rintro ⟨n, a⟩ hp hkp
    have ha := Dict.get?_of_mem hwf.nodup hp
    exact h.names n a ha ((keeps_iff h.notFrozen ha).1 hkp)
  have hclash : check = true → ∀ p ∈ g.node, part.keeps partAttr p.1 p.2 = true →
      ∀ q ∈ g.adj p.1, part.clashes g partAttr q.1 q.2 = false := by
    rintro hc ⟨n, a⟩ hp hkp ⟨v, d⟩ hq
    have ha := Dict.get?_of_mem hwf.nodup hp
    have hin := (keeps_iff h.notFrozen ha).1 hkp
    have he : g.hasEdge n v = true := Graph.mem_neighbors.1 (List.mem_map.2 ⟨_, hq, rfl⟩)
    have hnv := (h.bipartite n v he).1 hin
    obtain ⟨b, hb1, hb2⟩ := simple_get? hwf h.simple hq
    cases hpart : part with
    | value x =>
      have := h.edgeAttr hc x hpart n v b hb2
      rw [← Bool.not_eq_true]
      change ¬ (((g.taGet dictValue d partAttr).getD .none).pyEq x = true)
      rw [pyEq_iff, Graph.taGet, if_neg (by simp [h.simple]), hb1]
      exact this
    | frozen ns r => exact absurd hpart (h.notFrozen ns r)
    | collection ns =>
      rw [hpart] at hnv
      simp only [Part.clashes, decide_eq_false_iff_not]
      exact fun hm => hnv ⟨(Graph.hasEdge_mem hwf he).2, hm⟩
  -- the first loop
  obtain ⟨m0, mono1, b1, p1, p2, p3⟩ := partLoop_ok (g := g) (part := part) (partAttr := partAttr)
    (weightAttr := weightAttr) (check := check) (w := w) (L := g.node) (OnlineMetric.init .dotProduct)
    (Graph.empty false false []) true hwf.nodup (by simp [OnlineMetric.init, Dict.keys]) hsafe hclash
    (fun _ p _ q hq => hwt p.1 q hq)
  obtain ⟨f1, f2, f3, f4, f5⟩ := partLoop_frame g part partAttr weightAttr check p1 hwf.nodup
    (by simp [Graph.empty, Graph.nodes, Dict.keys]) hwf.nodeAttrs
  have hmono1 : mono1 = { (Graph.empty false false [] : Graph V (Val K)) with
      node := keptNodes part partAttr g.node } := by
    rw [f2]; simp [Graph.empty]
  -- its norms
  obtain ⟨m1, q1, q2, hNget, hNin⟩ : ∃ m1, partLoopR num g part partAttr weightAttr check g.node (OnlineMetric.init kind)
      (Graph.empty false false []) true = .ok (m1, mono1, b1) ∧ m1.kind = kind ∧
      (∀ n, InPart g partAttr part n → (g.nbhd n).Nonempty → ∃ x, m1.norms.get? n = some x ∧
        (kind = .cosine → x = roundedNorm num g w n)) ∧
      (∀ n ∈ m1.norms.keys, InPart g partAttr part n) := by
    rcases hkind with hc | hc
    · subst hc
      obtain ⟨m1, r1, r2, r3⟩ := partLoopR_ok (num := num) (w := w) (OnlineMetric.init .cosine) (OnlineMetric.init .dotProduct)
        (Graph.empty false false []) true p1 hwf.nodup (by simp [OnlineMetric.init, Dict.keys]) rfl hsafe hclash
        (fun p _ q hq => hwt p.1 q hq)
      have hN : m1.norms = keptNormsR num g part partAttr w g.node := by rw [r3]; simp [OnlineMetric.init]
      have hNnd : (keptNormsR num g part partAttr w g.node).keys.Nodup := by
        unfold keptNormsR Dict.keys
        rw [List.map_map]
        exact hwf.nodup.sublist (List.filter_sublist.map Prod.fst)
      refine ⟨m1, r1, r2, ?_, ?_⟩
      · intro n hn hne
        refine ⟨roundedNorm num g w n, ?_, fun _ => rfl⟩
        rw [hN, Dict.get?_iff_mem hNnd]
        obtain ⟨⟨n', a⟩, hp, rfl⟩ := List.mem_map.1 (inPart_mem hn)
        refine List.mem_map.2 ⟨(n', a), List.mem_filter.2 ⟨hp, ?_⟩, rfl⟩
        simp only [Bool.and_eq_true, decide_eq_true_eq]
        exact ⟨(keeps_iff h.notFrozen (Dict.get?_of_mem hwf.nodup hp)).2 hn, hpos rfl _ hn hne⟩
      · intro n hn
        rw [hN] at hn
        obtain ⟨⟨n', x⟩, hp, rfl⟩ := List.mem_map.1 hn
        obtain ⟨⟨n'', a⟩, hq, he⟩ := List.mem_map.1 hp
        cases he
        obtain ⟨hq1, hq2⟩ := List.mem_filter.1 hq
        simp only [Bool.and_eq_true] at hq2
        exact (keeps_iff h.notFrozen (Dict.get?_of_mem hwf.nodup hq1)).1 hq2.1
    · subst hc
      have hN : m0.norms = keptNorms g part partAttr .dotProduct w g.node := by
        rw [p3]; simp [OnlineMetric.init]
      have hNnd : (keptNorms g part partAttr .dotProduct w g.node).keys.Nodup := by
        unfold keptNorms Dict.keys
        rw [List.map_map]
        exact hwf.nodup.sublist (List.filter_sublist.map Prod.fst)
      refine ⟨m0, ?_, p2, ?_, ?_⟩
      · rw [(partLoopR_eq (num := num) g.node (m := OnlineMetric.init .dotProduct) _ true (.inr (by simp [OnlineMetric.init]))).1, p1]
      · intro n hn hne
        refine ⟨OnlineMetric.finNorm .dotProduct (normSum g .dotProduct w n), ?_, fun hc => by cases hc⟩
        rw [hN, Dict.get?_iff_mem hNnd]
        obtain ⟨⟨n', a⟩, hp, rfl⟩ := List.mem_map.1 (inPart_mem hn)
        refine List.mem_map.2 ⟨(n', a), List.mem_filter.2 ⟨hp, ?_⟩, rfl⟩
        have hpos' : 0 < normSum g .dotProduct w n' := by
          rw [normSum_eq hwf]
          obtain ⟨t, ht⟩ := hne
          exact Finset.sum_pos' (fun i _ => normTerm_nonneg _ _) ⟨t, ht, normTerm_pos (fun hh => by cases hh)⟩
        simp only [Bool.and_eq_true, Metric.keepsNorm, decide_eq_true_eq]
        exact ⟨(keeps_iff h.notFrozen (Dict.get?_of_mem hwf.nodup hp)).2 hn, hpos'⟩
      · intro n hn
        rw [hN] at hn
        obtain ⟨⟨n', x⟩, hp, rfl⟩ := List.mem_map.1 hn
        obtain ⟨⟨n'', a⟩, hq, he⟩ := List.mem_map.1 hp
        cases he
        obtain ⟨hq1, hq2⟩ := List.mem_filter.1 hq
        simp only [Bool.and_eq_true] at hq2
        exact (keeps_iff h.notFrozen (Dict.get?_of_mem hwf.nodup hq1)).1 hq2.1
  have hreach : ∀ {u t v}, InPart g partAttr part u → g.hasEdge u t = true → g.hasEdge t v = true →
      InPart g partAttr part v := by
    intro u t v hu h1 h2
    have h3 := (h.bipartite u t h1).1 hu
    have h4 := h.bipartite t v h2
    by_contra hv
    exact h3 (h4.2 hv)
  have hshare : ∀ u v, (∃ t, g.hasEdge u t = true ∧ g.hasEdge t v = true) ↔ (g.nbhd u ∩ g.nbhd v).Nonempty := by
    intro u v
    constructor
    · rintro ⟨t, h1, h2⟩
      exact ⟨t, Finset.mem_inter.2 ⟨(mem_nbhd hwf).2 h1,
        (mem_nbhd hwf).2 (by rw [Graph.hasEdge_comm h.undirected]; exact h2)⟩⟩
    · rintro ⟨t, ht⟩
      obtain ⟨h1, h2⟩ := Finset.mem_inter.1 ht
      exact ⟨t, (mem_nbhd hwf).1 h1, by rw [Graph.hasEdge_comm h.undirected]; exact (mem_nbhd hwf).1 h2⟩
  have hord : ∀ n ∈ m1.norms.keys, ∀ q ∈ g.adj n, ∀ p ∈ g.adj q.1, p.1 ≠ n →
      PyOrd.gt n p.1 = .ok (decide (p.1 < n)) := by
    rintro n hn ⟨t, d⟩ hq ⟨k, d'⟩ hp hne
    have e1 : g.hasEdge n t = true := Graph.mem_neighbors.1 (List.mem_map.2 ⟨_, hq, rfl⟩)
    have e2 : g.hasEdge t k = true := Graph.mem_neighbors.1 (List.mem_map.2 ⟨_, hp, rfl⟩)
    exact h.comparable n k (hNin n hn) (hreach (hNin n hn) e1 e2)
  obtain ⟨E, hE, hmem⟩ := projectLoopR_ok (num := num) hwf h.undirected (weightAttr := weightAttr) (t := t) huses
    (N := m1.norms) (w := w) (sim := roundedSimilarity num g kind w) m1.norms.keys m1 mono1 q2 rfl (by rw [hmono1]; rfl)
    hord hwt (fun t k he => weights_symm hwf h.undirected h.simple (h.weights hkind) he)
    (by
      intro n hn
      obtain ⟨a, ha⟩ := Dict.exists_get?_of_mem_keys hn
      refine ⟨a, ha, fun k hlt hs => ?_⟩
      obtain ⟨t, h1, h2⟩ := hs
      have hkin := hreach (hNin n hn) h1 h2
      have hne := (hshare n k).1 ⟨t, h1, h2⟩
      obtain ⟨b, hb, hb'⟩ := hNget k hkin (hne.mono Finset.inter_subset_right)
      refine ⟨b, hb, ?_⟩
      obtain ⟨a', ha', ha''⟩ := hNget n (hNin n hn) (hne.mono Finset.inter_subset_left)
      rw [ha] at ha'
      cases ha'
      rcases hkind with rfl | rfl
      · rw [ha'' rfl, hb' rfl]
        simp only [OnlineMetric.computeMetric, fDiv, hno rfl n k hlt (hNin n hn) hkin hne, if_false, roundedSimilarity]
      · rfl)
  have hkept : keptNodes part partAttr g.node ≠ [] := by
    obtain ⟨n, hn⟩ := h.nonempty
    obtain ⟨⟨n', a⟩, hp, rfl⟩ := List.mem_map.1 (inPart_mem hn)
    intro hnil
    have : (n', a.erase (.str partAttr)) ∈ keptNodes part partAttr g.node :=
      List.mem_map.2 ⟨(n', a), List.mem_filter.2 ⟨hp,
        (keeps_iff h.notFrozen (Dict.get?_of_mem hwf.nodup hp)).2 hn⟩, rfl⟩
    rw [hnil] at this
    cases this
  have hb1 : b1 = false := by
    rw [f4]
    cases hc : keptNodes part partAttr g.node with
    | nil => exact absurd hc hkept
    | cons _ _ => rfl
  have horder : g.order ≠ 0 := by
    obtain ⟨n, hn⟩ := h.nonempty
    intro h0
    have h1 : g.node = [] := List.eq_nil_of_length_eq_zero h0
    have := inPart_mem hn
    simp [Graph.nodes, h1, Dict.keys] at this
  have hwf1 : mono1.WF := by
    rw [hmono1]
    constructor <;> simp [Graph.empty, Dict.keys]
    · have : (keptNodes part partAttr g.node).keys.Nodup := by
        unfold keptNodes Dict.keys
        rw [List.map_map]
        exact hwf.nodup.sublist (List.filter_sublist.map Prod.fst)
      exact this
    · intro n a ha
      unfold keptNodes at ha
      obtain ⟨⟨n', b⟩, hb, he⟩ := List.mem_map.1 ha
      cases he
      exact nodup_erase _ (hwf.nodeAttrs _ (List.mem_filter.1 hb).1)
  refine ⟨addWeights mono1 E, ?_, addWeights_wf hwf1 E, ?_⟩
  · unfold monopartiteProjectionR
    rw [((instantiateMetric_exact metric).1 kind).2 hk]
    simp only [ht1, horder, if_false, q1, hb1, Bool.false_eq_true]
    exact hE
  · intro u v a
    have hkd := addWeights_keydict (g := mono1) (by rw [hmono1]; rfl) (by rw [hmono1]; rfl)
      (f := fun u v => roundedSimilarity num g kind w (min u v) (max u v))
      (fun u v => by rw [min_comm, max_comm]) E
      (fun e he => by
        obtain ⟨_, h2, _, h4, _⟩ := (hmem e).1 he
        rw [h4, min_eq_left h2.le, max_eq_right h2.le])
      (by
        intro u v d hd
        rw [hmono1] at hd
        simp [Graph.keydict?, Graph.empty] at hd) u v
    have hnone : mono1.keydict? u v = none := by rw [hmono1]; rfl
    rw [hnone] at hkd
    unfold Graph.edge?
    rw [hkd]
    have hiff : (∃ e ∈ E, samePair false e.1 e.2.1 u v = true) ↔
        (u ≠ v ∧ InPart g partAttr part u ∧ InPart g partAttr part v ∧ (g.nbhd u ∩ g.nbhd v).Nonempty ∧
          ReachesThreshold threshold (roundedSimilarity num g kind w (min u v) (max u v))) := by
      constructor
      · rintro ⟨⟨x, y, z⟩, he, hs⟩
        obtain ⟨h1, h2, h3, h4, h5⟩ := (hmem _).1 he
        simp only at h1 h2 h3 h4 h5 hs
        have hx := hNin x h1
        obtain ⟨t, ht, ht'⟩ := h3
        have hy := hreach hx ht ht'
        have hne := (hshare x y).1 ⟨t, ht, ht'⟩
        rw [h4, ht2] at h5
        rcases samePair_iff.1 hs with ⟨rfl, rfl⟩ | ⟨_, rfl, rfl⟩
        · exact ⟨h2.ne, hx, hy, hne, by rwa [min_eq_left h2.le, max_eq_right h2.le]⟩
        · exact ⟨h2.ne', hy, hx, by rwa [Finset.inter_comm], by rwa [min_eq_right h2.le, max_eq_left h2.le]⟩
      · rintro ⟨h1, h2, h3, h4, h5⟩
        have hgo : ∀ x y, x < y → InPart g partAttr part x → (g.nbhd x ∩ g.nbhd y).Nonempty →
            ReachesThreshold threshold (roundedSimilarity num g kind w x y) →
            (x, y, roundedSimilarity num g kind w x y) ∈ E := by
          intro x y hlt hx hne hr
          obtain ⟨b, hb, _⟩ := hNget x hx (hne.mono Finset.inter_subset_left)
          exact (hmem _).2 ⟨Dict.mem_keys_of_mem (Dict.mem_of_get? hb),
            hlt, (hshare x y).2 hne, rfl, (ht2 _).2 hr⟩
        rcases lt_or_gt_of_ne h1 with hlt | hlt
        · rw [min_eq_left hlt.le, max_eq_right hlt.le] at h5
          exact ⟨_, hgo u v hlt h2 h4 h5, samePair_refl _ _ _⟩
        · rw [min_eq_right hlt.le, max_eq_left hlt.le] at h5
          refine ⟨_, hgo v u hlt h3 (by rwa [Finset.inter_comm]) h5, ?_⟩
          simp [samePair]
    by_cases hc : ∃ e ∈ E, samePair false e.1 e.2.1 u v = true
    · rw [if_pos hc]
      have := hiff.1 hc
      simp only [Option.bind_some, weightDict, Dict.get?_cons, if_true, Option.some.injEq]
      constructor
      · rintro rfl
        exact ⟨this.1, this.2.1, this.2.2.1, this.2.2.2.1, this.2.2.2.2, rfl⟩
      · rintro ⟨_, _, _, _, _, rfl⟩; rfl
    · rw [if_neg hc]
      simp only [Option.bind_none, reduceCtorEq, false_iff]
      rintro ⟨a1, a2, a3, a4, a5, _⟩
      exact hc (hiff.2 ⟨a1, a2, a3, a4, a5⟩)

end

/-! ### Double precision -/
section
variable {V : Type} [LinearOrder V] [PyOrd V] [AttrVal (Val ℝ)]

attribute [local instance] binary64

/-- The cosine of two nodes: of the vectors of the weights of their edges. -/
noncomputable def exactCosine (g : Graph V (Val ℝ)) (w : V → V → ℝ) (u v : V) : ℝ :=
  (∑ t ∈ g.nbhd u ∩ g.nbhd v, w u t * w v t) /
    (Real.sqrt (∑ t ∈ g.nbhd u, w u t ^ 2) * Real.sqrt (∑ t ∈ g.nbhd v, w v t ^ 2))

theorem sharedList_toFinset {g : Graph V (Val ℝ)} (h : g.WF) (u v : V) :
    (g.sharedList u v).toFinset = g.nbhd u ∩ g.nbhd v ∧ (g.sharedList u v).Nodup := by
  constructor
  · ext t
    rw [List.mem_toFinset, Finset.mem_inter, mem_nbhd h, mem_nbhd h]
    unfold Graph.sharedList
    rw [List.mem_filter, Graph.mem_neighbors]
  · exact (Graph.neighbors_nodup h u).filter _

theorem sum_sharedList {g : Graph V (Val ℝ)} (h : g.WF) (f : V → ℝ) (u v : V) :
    ((g.sharedList u v).map f).sum = ∑ t ∈ g.nbhd u ∩ g.nbhd v, f t := by
  obtain ⟨h1, h2⟩ := sharedList_toFinset h u v
  rw [← h1, List.sum_toFinset _ h2]

theorem length_sharedList {g : Graph V (Val ℝ)} (h : g.WF) (u v : V) :
    (g.sharedList u v).length = (g.nbhd u ∩ g.nbhd v).card := by
  obtain ⟨h1, h2⟩ := sharedList_toFinset h u v
  rw [← h1, List.toFinset_card_of_nodup h2]

/-- The weights of the edges of the nodes of the part are in the range where nothing underflows or overflows, and these
nodes have at most `N` neighbors. -/
structure Moderate (g : Graph V (Val ℝ)) (part : V → Prop) (w : V → V → ℝ) (N : ℕ) : Prop where
  low : ∀ u, part u → ∀ t ∈ g.nbhd u, (2 : ℝ) ^ (-200 : ℤ) ≤ w u t
  high : ∀ u, part u → ∀ t ∈ g.nbhd u, w u t ≤ (2 : ℝ) ^ (200 : ℤ)
  degree : ∀ u, part u → (g.nbhd u).card ≤ N
  small : N ≤ 2 ^ 50

theorem dot_near {g : Graph V (Val ℝ)} (h : g.WF) {part : V → Prop} {w : V → V → ℝ} {N : ℕ} (hm : Moderate g part w N)
    {u v : V} (hu : part u) (hv : part v) :
    Near (N + 1) (roundedDot round64 (g.sharedList u v) (w u) (w v)) (∑ t ∈ g.nbhd u ∩ g.nbhd v, w u t * w v t) ∧
      ((g.nbhd u ∩ g.nbhd v).Nonempty → (2 : ℝ) ^ (-400 : ℤ) ≤ roundedDot round64 (g.sharedList u v) (w u) (w v)) := by
  have hmem : ∀ t ∈ g.sharedList u v, t ∈ g.nbhd u ∧ t ∈ g.nbhd v := by
    intro t ht
    rw [← List.mem_toFinset, (sharedList_toFinset h u v).1] at ht
    exact Finset.mem_inter.1 ht
  obtain ⟨h1, h2⟩ := roundedDot_near (l := g.sharedList u v) (a := w u) (b := w v)
    (fun t ht => hm.low u hu t (hmem t ht).1) (fun t ht => hm.low v hv t (hmem t ht).2)
  rw [sum_sharedList h (fun t => w u t * w v t), length_sharedList h] at h1
  refine ⟨h1.mono ?_, fun hne => h2 ?_⟩
  · have := (Finset.card_le_card (Finset.inter_subset_left (s₁ := g.nbhd u) (s₂ := g.nbhd v))).trans (hm.degree u hu)
    omega
  · rintro hnil
    have := length_sharedList h u v
    rw [hnil] at this
    have := Finset.card_pos.2 hne
    simp_all

theorem norm_near {g : Graph V (Val ℝ)} (h : g.WF) {part : V → Prop} {w : V → V → ℝ} {N : ℕ} (hm : Moderate g part w N)
    {u : V} (hu : part u) (hne : (g.nbhd u).Nonempty) :
    0 < roundedDot round64 (g.neighbors u) (w u) (w u) ∧
      Near (N / 2 + 2) (roundedNorm round64 g w u) (Real.sqrt (∑ t ∈ g.nbhd u, w u t ^ 2)) ∧
      (2 : ℝ) ^ (-200 : ℤ) ≤ roundedNorm round64 g w u ∧
      (2 : ℝ) ^ (-200 : ℤ) ≤ Real.sqrt (∑ t ∈ g.nbhd u, w u t ^ 2) ∧
      Real.sqrt (∑ t ∈ g.nbhd u, w u t ^ 2) ≤ 2 ^ (225 : ℤ) := by
  have hmem : ∀ t ∈ g.neighbors u, t ∈ g.nbhd u := by
    intro t ht
    rw [nbhd_eq h, List.mem_toFinset]; exact ht
  have hlen : (g.neighbors u).length = (g.nbhd u).card := by
    rw [nbhd_eq h, List.toFinset_card_of_nodup (Graph.neighbors_nodup h u)]
  have hsum : ((g.neighbors u).map (fun t => w u t * w u t)).sum = ∑ t ∈ g.nbhd u, w u t ^ 2 := by
    rw [nbhd_eq h, List.sum_toFinset _ (Graph.neighbors_nodup h u)]
    simp only [sq]
  have hnil : g.neighbors u ≠ [] := by
    intro hnil
    rw [nbhd_eq h, hnil] at hne
    simp at hne
  obtain ⟨h1, h2⟩ := roundedDot_near (l := g.neighbors u) (a := w u) (b := w u)
    (fun t ht => hm.low u hu t (hmem t ht)) (fun t ht => hm.low u hu t (hmem t ht))
  have h2 := h2 hnil
  rw [hsum, hlen] at h1
  have hdeg := hm.degree u hu
  have hsq : ∀ x : ℝ, (2 : ℝ) ^ (-400 : ℤ) ≤ x → (2 : ℝ) ^ (-200 : ℤ) ≤ Real.sqrt x := by
    intro x hx
    apply Real.le_sqrt_of_sq_le
    refine le_trans (le_of_eq ?_) hx
    rw [← zpow_natCast, ← zpow_mul]; norm_num
  have hs1 := hsq _ h2
  have hbig : (2 : ℝ) ^ (-1022 : ℤ) ≤ 2 ^ (-200 : ℤ) := zpow_le_zpow_right₀ (by norm_num) (by norm_num)
  refine ⟨(two_zpow_pos _).trans_le h2, ?_, ?_, ?_, ?_⟩
  · have h3 : Near (2 * (N / 2 + 1)) (roundedDot round64 (g.neighbors u) (w u) (w u)) (∑ t ∈ g.nbhd u, w u t ^ 2) :=
      h1.mono (by omega)
    have := (near_round64 (hbig.trans hs1)).trans h3.sqrt
    exact this.mono (by omega)
  · have := round64_mono (two_zpow_pos _).le hs1
    rwa [round64_float (two_zpow_pos _).le ⟨1, -200, by norm_num, by norm_num, by simp⟩] at this
  · apply hsq
    obtain ⟨t, ht⟩ := hne
    have h3 : w u t ^ 2 ≤ ∑ t ∈ g.nbhd u, w u t ^ 2 :=
      Finset.single_le_sum (f := fun t => w u t ^ 2) (fun i _ => sq_nonneg _) ht
    refine le_trans ?_ h3
    have h4 := pow_le_pow_left₀ (two_zpow_pos _).le (hm.low u hu t ht) 2
    refine le_trans (le_of_eq ?_) h4
    rw [← zpow_natCast, ← zpow_mul]; norm_num
  · apply Real.sqrt_le_iff.2
    refine ⟨(two_zpow_pos _).le, ?_⟩
    have h3 : ∑ t ∈ g.nbhd u, w u t ^ 2 ≤ (g.nbhd u).card • ((2 : ℝ) ^ (400 : ℤ)) := by
      apply Finset.sum_le_card_nsmul
      intro t ht
      have h4 := pow_le_pow_left₀ ((two_zpow_pos _).le.trans (hm.low u hu t ht)) (hm.high u hu t ht) 2
      refine h4.trans (le_of_eq ?_)
      rw [← zpow_natCast, ← zpow_mul]; norm_num
    refine h3.trans ?_
    rw [nsmul_eq_mul]
    have h5 : ((g.nbhd u).card : ℝ) ≤ 2 ^ 50 := by exact_mod_cast hdeg.trans hm.small
    calc ((g.nbhd u).card : ℝ) * 2 ^ (400 : ℤ) ≤ 2 ^ 50 * 2 ^ (400 : ℤ) :=
          mul_le_mul_of_nonneg_right h5 (two_zpow_pos _).le
      _ = (2 ^ (225 : ℤ)) ^ 2 := by
          rw [← zpow_natCast, ← zpow_natCast, ← zpow_mul, ← zpow_add₀ (by norm_num)]; norm_num

theorem cosine_near {g : Graph V (Val ℝ)} (h : g.WF) {part : V → Prop} {w : V → V → ℝ} {N : ℕ} (hm : Moderate g part w N)
    {u v : V} (hu : part u) (hv : part v) (hne : (g.nbhd u ∩ g.nbhd v).Nonempty) :
    PyMath.rnd (roundedNorm round64 g w u * roundedNorm round64 g w v) ≠ 0 ∧
      Near (2 * N + 7) (roundedSimilarity round64 g .cosine w u v) (exactCosine g w u v) := by
  obtain ⟨d1, d2⟩ := dot_near h hm hu hv
  have d2 := d2 hne
  obtain ⟨_, a1, a2, a3, a4⟩ := norm_near h hm hu (hne.mono Finset.inter_subset_left)
  obtain ⟨_, b1, b2, b3, b4⟩ := norm_near h hm hv (hne.mono Finset.inter_subset_right)
  have e400 : (2 : ℝ) ^ (-400 : ℤ) = 2 ^ (-200 : ℤ) * 2 ^ (-200 : ℤ) := by rw [← zpow_add₀ (by norm_num)]; norm_num
  have p1 : (2 : ℝ) ^ (-400 : ℤ) ≤ roundedNorm round64 g w u * roundedNorm round64 g w v := by
    rw [e400]
    exact mul_le_mul a2 b2 (two_zpow_pos _).le ((two_zpow_pos _).le.trans a2)
  have p2 : (2 : ℝ) ^ (-400 : ℤ) ≤ round64 (roundedNorm round64 g w u * roundedNorm round64 g w v) := by
    have := round64_mono (two_zpow_pos _).le p1
    rwa [round64_float (two_zpow_pos _).le ⟨1, -400, by norm_num, by norm_num, by simp⟩] at this
  have hbig : (2 : ℝ) ^ (-1022 : ℤ) ≤ 2 ^ (-400 : ℤ) := zpow_le_zpow_right₀ (by norm_num) (by norm_num)
  have hP := (two_zpow_pos (K := ℝ) (-400)).trans_le p2
  refine ⟨hP.ne', ?_⟩
  set A := Real.sqrt (∑ t ∈ g.nbhd u, w u t ^ 2)
  set B := Real.sqrt (∑ t ∈ g.nbhd v, w v t ^ 2)
  have hA : 0 < A := (two_zpow_pos _).trans_le a3
  have hB : 0 < B := (two_zpow_pos _).trans_le b3
  have n1 : Near (N + 5) (round64 (roundedNorm round64 g w u * roundedNorm round64 g w v)) (A * B) :=
    ((near_round64 (hbig.trans p1)).trans (a1.mul b1)).mono (by omega)
  have n2 := d1.div n1 hP (mul_pos hA hB)
  have hsmall := hm.small
  have hP2 : round64 (roundedNorm round64 g w u * roundedNorm round64 g w v) ≤ 2 ^ (451 : ℤ) := by
    have h1 := n1.2.2.1
    have h2 : rho ^ (N + 5) ≤ 2 := by
      refine (rho_pow_le (by omega)).trans ?_
      have : ((N + 5 : ℕ) : ℝ) ≤ 2 ^ 52 := by exact_mod_cast (by omega : N + 5 ≤ 2 ^ 52)
      have : ((N + 5 : ℕ) : ℝ) / 2 ^ 52 ≤ 1 := by rw [div_le_one (by positivity)]; exact this
      linarith
    have h3 : A * B ≤ 2 ^ (450 : ℤ) := by
      have : (2 : ℝ) ^ (450 : ℤ) = 2 ^ (225 : ℤ) * 2 ^ (225 : ℤ) := by rw [← zpow_add₀ (by norm_num)]; norm_num
      rw [this]
      exact mul_le_mul a4 b4 hB.le (two_zpow_pos _).le
    calc _ ≤ rho ^ (N + 5) * (A * B) := h1
      _ ≤ 2 * 2 ^ (450 : ℤ) := mul_le_mul h2 h3 (mul_pos hA hB).le (by norm_num)
      _ = 2 ^ (451 : ℤ) := by
          nth_rewrite 1 [← zpow_one (2 : ℝ)]
          rw [← zpow_add₀ (by norm_num)]; norm_num
  have q1 : (2 : ℝ) ^ (-1022 : ℤ) ≤ roundedDot round64 (g.sharedList u v) (w u) (w v) /
      round64 (roundedNorm round64 g w u * roundedNorm round64 g w v) := by
    rw [le_div_iff₀ hP]
    calc (2 : ℝ) ^ (-1022 : ℤ) * _ ≤ 2 ^ (-1022 : ℤ) * 2 ^ (451 : ℤ) := mul_le_mul_of_nonneg_left hP2 (two_zpow_pos _).le
      _ = 2 ^ (-571 : ℤ) := by rw [← zpow_add₀ (by norm_num)]; norm_num
      _ ≤ 2 ^ (-400 : ℤ) := zpow_le_zpow_right₀ (by norm_num) (by norm_num)
      _ ≤ _ := d2
  exact ((near_round64 q1).trans n2).mono (by omega)

/-- C86.  The cosine projection of a graph with positive weights (between `2 ^ (-200)` and `2 ^ 200`, the nodes of the part
having at most `N` neighbors) is computed by doubles with a relative error of at most `(2 N + 7) / 2 ^ 52`.  The threshold
is compared with the computed similarity. -/
theorem cosine_float_error
    {g : Graph V (Val ℝ)} {part : Part V ℝ} {partAttr weightAttr : String} {check : Bool}
    {w : V → V → ℝ} (h : Projectable g part partAttr weightAttr .cosine check w) {N : ℕ}
    (hm : Moderate g (InPart g partAttr part) w N)
    {threshold : Option (Val ℝ)} (ht : ∀ v, threshold = some v → ∃ t, v.toNum = .ok t ∧ 0 < t) :
    ∃ m, monopartiteProjectionR round64 g part partAttr weightAttr (some "cosine") check threshold = .ok m ∧ m.WF ∧
      ∃ c : V → V → ℝ,
        (∀ u v, InPart g partAttr part u → InPart g partAttr part v → (g.nbhd u ∩ g.nbhd v).Nonempty →
          |c u v - exactCosine g w u v| ≤ (2 * N + 7) / 2 ^ 52 * exactCosine g w u v) ∧
        ∀ u v a, m.edge? u v (.int 0) = some a ↔
          u ≠ v ∧ InPart g partAttr part u ∧ InPart g partAttr part v ∧ (g.nbhd u ∩ g.nbhd v).Nonempty ∧
          ReachesThreshold threshold (c u v) ∧ a = [(.str "weight", .num (c u v))] := by
  have hwf := h.wf
  obtain ⟨m, h1, h2, h3⟩ := projection_weights_rounded round64 h (.inl rfl)
    (fun _ n hn hne => (norm_near hwf hm hn hne).1)
    (fun _ u v _ hu hv hne => (cosine_near hwf hm hu hv hne).1)
    (metric := some "cosine") (by simp [metricNames]) ht
  refine ⟨m, h1, h2, fun u v => roundedSimilarity round64 g .cosine w (min u v) (max u v), ?_, h3⟩
  intro u v hu hv hne
  have hcomm : exactCosine g w u v = exactCosine g w (min u v) (max u v) := by
    rcases le_total u v with hle | hle
    · rw [min_eq_left hle, max_eq_right hle]
    · rw [min_eq_right hle, max_eq_left hle]
      unfold exactCosine
      rw [Finset.inter_comm, mul_comm (Real.sqrt _)]
      simp only [mul_comm (w u _)]
  have hn : Near (2 * N + 7) (roundedSimilarity round64 g .cosine w (min u v) (max u v))
      (exactCosine g w (min u v) (max u v)) := by
    rcases le_total u v with hle | hle
    · rw [min_eq_left hle, max_eq_right hle]; exact (cosine_near hwf hm hu hv hne).2
    · rw [min_eq_right hle, max_eq_left hle]; exact (cosine_near hwf hm hv hu (by rwa [Finset.inter_comm])).2
  have hs := hm.small
  have := hn.abs_sub (by omega)
  rw [hcomm]
  push_cast at this
  exact this

/-- C86.  The same for the dot product: a relative error of at most `(N + 1) / 2 ^ 52`. -/
theorem dotProduct_float_error
    {g : Graph V (Val ℝ)} {part : Part V ℝ} {partAttr weightAttr : String} {check : Bool}
    {w : V → V → ℝ} (h : Projectable g part partAttr weightAttr .dotProduct check w) {N : ℕ}
    (hm : Moderate g (InPart g partAttr part) w N)
    {threshold : Option (Val ℝ)} (ht : ∀ v, threshold = some v → ∃ t, v.toNum = .ok t ∧ 0 < t) :
    ∃ m, monopartiteProjectionR round64 g part partAttr weightAttr (some "dot_product") check threshold = .ok m ∧ m.WF ∧
      ∃ c : V → V → ℝ,
        (∀ u v, InPart g partAttr part u → InPart g partAttr part v →
          |c u v - ∑ t ∈ g.nbhd u ∩ g.nbhd v, w u t * w v t| ≤
            (N + 1) / 2 ^ 52 * ∑ t ∈ g.nbhd u ∩ g.nbhd v, w u t * w v t) ∧
        ∀ u v a, m.edge? u v (.int 0) = some a ↔
          u ≠ v ∧ InPart g partAttr part u ∧ InPart g partAttr part v ∧ (g.nbhd u ∩ g.nbhd v).Nonempty ∧
          ReachesThreshold threshold (c u v) ∧ a = [(.str "weight", .num (c u v))] := by
  have hwf := h.wf
  obtain ⟨m, h1, h2, h3⟩ := projection_weights_rounded round64 h (.inr rfl)
    (fun hc => by cases hc) (fun hc => by cases hc) (metric := some "dot_product") (by simp [metricNames]) ht
  refine ⟨m, h1, h2, fun u v => roundedSimilarity round64 g .dotProduct w (min u v) (max u v), ?_, h3⟩
  intro u v hu hv
  have hcomm : (∑ t ∈ g.nbhd u ∩ g.nbhd v, w u t * w v t) =
      ∑ t ∈ g.nbhd (min u v) ∩ g.nbhd (max u v), w (min u v) t * w (max u v) t := by
    rcases le_total u v with hle | hle
    · rw [min_eq_left hle, max_eq_right hle]
    · rw [min_eq_right hle, max_eq_left hle, Finset.inter_comm]
      simp only [mul_comm (w u _)]
  have hn : Near (N + 1) (roundedSimilarity round64 g .dotProduct w (min u v) (max u v))
      (∑ t ∈ g.nbhd (min u v) ∩ g.nbhd (max u v), w (min u v) t * w (max u v) t) := by
    rcases le_total u v with hle | hle
    · rw [min_eq_left hle, max_eq_right hle]; exact (dot_near hwf hm hu hv).1
    · rw [min_eq_right hle, max_eq_left hle]; exact (dot_near hwf hm hv hu).1
  have hs := hm.small
  have := hn.abs_sub (by omega)
  rw [hcomm]
  push_cast at this
  exact this

/-- C86.  If the weights are natural numbers, and the dot products are below `2 ^ 53`, these are computed exactly, though
the weights be floats: the same graph is returned as without any rounding. -/
theorem dotProduct_integers_exact
    {g : Graph V (Val ℝ)} {part : Part V ℝ} {partAttr weightAttr : String} {check : Bool}
    {p : V → V → ℕ} (h : Projectable g part partAttr weightAttr .dotProduct check (fun u v => (p u v : ℝ)))
    (hs : ∀ u v, InPart g partAttr part u → InPart g partAttr part v →
      ∑ t ∈ g.nbhd u ∩ g.nbhd v, p u t * p v t < 2 ^ 53)
    {threshold : Option (Val ℝ)} (ht : ∀ v, threshold = some v → ∃ t, v.toNum = .ok t ∧ 0 < t) :
    ∃ m, monopartiteProjectionR round64 g part partAttr weightAttr (some "dot_product") check threshold = .ok m ∧ m.WF ∧
      ∀ u v a, m.edge? u v (.int 0) = some a ↔
        u ≠ v ∧ InPart g partAttr part u ∧ InPart g partAttr part v ∧ (g.nbhd u ∩ g.nbhd v).Nonempty ∧
        ReachesThreshold threshold ((∑ t ∈ g.nbhd u ∩ g.nbhd v, p u t * p v t : ℕ) : ℝ) ∧
        a = [(.str "weight", .num ((∑ t ∈ g.nbhd u ∩ g.nbhd v, p u t * p v t : ℕ) : ℝ))] := by
  have hwf := h.wf
  obtain ⟨m, h1, h2, h3⟩ := projection_weights_rounded round64 h (.inr rfl)
    (fun hc => by cases hc) (fun hc => by cases hc) (metric := some "dot_product") (by simp [metricNames]) ht
  have key : ∀ u v, InPart g partAttr part u → InPart g partAttr part v →
      roundedSimilarity round64 g .dotProduct (fun u v => (p u v : ℝ)) u v =
        ((∑ t ∈ g.nbhd u ∩ g.nbhd v, p u t * p v t : ℕ) : ℝ) := by
    intro u v hu hv
    obtain ⟨e1, e2⟩ := sharedList_toFinset hwf u v
    have hlt := hs u v hu hv
    rw [← e1, List.sum_toFinset _ e2] at hlt
    have := roundedDot_nat (l := g.sharedList u v) (a := fun t => (p u t : ℝ)) (b := fun t => (p v t : ℝ)) (p := p u)
      (q := p v) (fun _ _ => rfl) (fun _ _ => rfl) hlt
    refine Eq.trans this ?_
    rw [sum_sharedList hwf (fun t => (p u t : ℝ) * p v t)]
    push_cast
    rfl
  have key2 : ∀ u v, InPart g partAttr part u → InPart g partAttr part v →
      roundedSimilarity round64 g .dotProduct (fun u v => (p u v : ℝ)) (min u v) (max u v) =
        ((∑ t ∈ g.nbhd u ∩ g.nbhd v, p u t * p v t : ℕ) : ℝ) := by
    intro u v hu hv
    rcases le_total u v with hle | hle
    · rw [min_eq_left hle, max_eq_right hle]; exact key u v hu hv
    · rw [min_eq_right hle, max_eq_left hle, key v u hv hu, Finset.inter_comm]
      simp only [mul_comm (p v _)]
  refine ⟨m, h1, h2, fun u v a => (h3 u v a).trans ?_⟩
  constructor
  · rintro ⟨a1, a2, a3, a4, a5, a6⟩
    rw [key2 u v a2 a3] at a5 a6
    exact ⟨a1, a2, a3, a4, a5, a6⟩
  · rintro ⟨a1, a2, a3, a4, a5, a6⟩
    rw [key2 u v a2 a3]
    exact ⟨a1, a2, a3, a4, a5, a6⟩

end

end Pelote

/-! ### Cases -/
namespace Pelote
section
attribute [local instance] binary64

/-- Two nodes sharing one neighbor, with weights. -/
def weightedPair : Graph Nat (Val ℝ) :=
  ⟨false, false, [], [(1, []), (2, []), (10, []), (11, [])],
    [⟨1, 10, [(.int 0, [(.str "weight", .num 2)])]⟩, ⟨1, 11, [(.int 0, [(.str "weight", .num 3)])]⟩,
      ⟨2, 10, [(.int 0, [(.str "weight", .num 5)])]⟩]⟩

/-- The weights of the edges of `weightedPair`. -/
noncomputable def pairWeight (u v : Nat) : ℝ :=
  if (u, v) = (1, 10) ∨ (u, v) = (10, 1) then 2 else if (u, v) = (1, 11) ∨ (u, v) = (11, 1) then 3 else 5

/-- A case meeting the hypotheses of `cosine_float_error` and `dotProduct_float_error`. -/
theorem weightedPair_moderate (kind : Metric) (hk : kind = .cosine ∨ kind = .dotProduct) (check : Bool) :
    Projectable weightedPair (.collection [1, 2]) "part" "weight" kind check pairWeight ∧
      Moderate weightedPair (InPart weightedPair "part" (.collection [1, 2])) pairWeight 2 ∧
      (weightedPair.nbhd 1 ∩ weightedPair.nbhd 2).Nonempty := by
  have hwf : weightedPair.WF := by constructor <;> decide
  have n1 : weightedPair.nbhd 1 = {10, 11} := by decide
  have n2 : weightedPair.nbhd 2 = {10} := by decide
  have hp : ∀ n, InPart weightedPair "part" (.collection [1, 2]) n → n = 1 ∨ n = 2 := by
    rintro n ⟨_, hn⟩
    simpa using hn
  refine ⟨⟨hwf, rfl, rfl, by simp, ⟨1, by decide, by decide⟩, ?_, fun _ _ _ _ => rfl, ?_, by simp, ?_, ?_⟩,
    ⟨?_, ?_, ?_, by norm_num⟩, by decide⟩
  · intro u v he
    obtain ⟨d, hd⟩ := Option.isSome_iff_exists.1 he
    obtain ⟨l, hl, hs, rfl⟩ := (Graph.keydict?_eq_some hwf).1 hd
    have hs := samePair_iff.1 hs
    simp only [InPart, weightedPair, Graph.nodes, Dict.keys, List.map_cons, List.map_nil, List.mem_cons,
      List.not_mem_nil, or_false] at hl ⊢
    rcases hl with rfl | rfl | rfl <;> rcases hs with ⟨rfl, rfl⟩ | ⟨_, rfl, rfl⟩ <;> simp
  · intro n a ha _
    have : a = [] := by
      have := Dict.mem_of_get? ha
      simp only [weightedPair, List.mem_cons, Prod.mk.injEq, List.not_mem_nil, or_false] at this
      rcases this with h | h | h | h <;> exact h.2
    subst this
    intro k hk
    simp [Dict.erase, Dict.keys] at hk
  · intro _ u v a ha
    unfold Graph.edge? at ha
    rcases hd : weightedPair.keydict? u v with _ | d
    · rw [hd] at ha; cases ha
    rw [hd] at ha
    obtain ⟨l, hl, hs, rfl⟩ := (Graph.keydict?_eq_some hwf).1 hd
    have hs := samePair_iff.1 hs
    simp only [weightedPair, List.mem_cons, List.not_mem_nil, or_false] at hl
    rcases hl with rfl | rfl | rfl <;> rcases hs with ⟨rfl, rfl⟩ | ⟨_, rfl, rfl⟩ <;>
      (simp only [Option.bind_some, Dict.get?_cons, if_true, Option.some.injEq] at ha; subst ha;
       simp [HasWeight, pairWeight, Dict.get?_cons, Val.toNum])
  · rintro _ n hn _
    rcases hp n hn with rfl | rfl
    · exact ⟨10, by rw [n1]; simp, by simp [pairWeight]⟩
    · exact ⟨10, by rw [n2]; simp, by simp [pairWeight]⟩
  · intro u hu t ht
    have : (2 : ℝ) ^ (-200 : ℤ) ≤ 1 := zpow_le_one_of_nonpos₀ (by norm_num) (by norm_num)
    refine this.trans ?_
    unfold pairWeight
    split_ifs <;> norm_num
  · intro u hu t ht
    have : (2 : ℝ) ^ (3 : ℤ) ≤ 2 ^ (200 : ℤ) := zpow_le_zpow_right₀ (by norm_num) (by norm_num)
    refine le_trans ?_ this
    unfold pairWeight
    split_ifs <;> norm_num
  · intro u hu
    rcases hp u hu with rfl | rfl
    · rw [n1]; decide
    · rw [n2]; decide

end

/-! ### What is lost -/
section

/-- The square root is right for 0, 1 and `2 ^ (-1200)`, the only numbers it is used for below.  The logarithm is not used. -/
local instance rationalMath : PyMath ℚ := ⟨fun x => if x = 1 / 2 ^ 1200 then 1 / 2 ^ 600 else x, id, round64⟩

/-- Nodes 1 and 2 share neighbors 10, 11 and 12: the weights at 2 are 1, those at 1 are given, in order. -/
def listed (l : List (Nat × ℚ)) : Graph Nat (Val ℚ) :=
  ⟨false, false, [], [(1, []), (2, []), (10, []), (11, []), (12, [])],
    l.map (fun p => ⟨1, p.1, [(.int 0, [(.str "weight", .num p.2)])]⟩) ++
      [⟨2, 10, [(.int 0, [])]⟩, ⟨2, 11, [(.int 0, [])]⟩, ⟨2, 12, [(.int 0, [])]⟩]⟩

/-- The links of the projection onto nodes 1 and 2. -/
def linksOf (num : ℚ → ℚ) (g : Graph Nat (Val ℚ)) (metric : String) :
    Py (List (Nat × Nat × Attrs (Val ℚ))) :=
  (monopartiteProjectionR num g (.collection [1, 2]) "part" "weight" (some metric) true none).map (fun m => m.edgesData)

set_option synthInstance.maxSize 2000 in
/-- C86.  With float weights the dot product depends on the order in which the edges were added to the graph: the
same edges, listed in another order, give another weight.  Without rounding they do not. -/
theorem dotProduct_order_matters :
    linksOf round64 (listed [(10, 2 ^ 53), (11, 1), (12, 1)]) "dot_product" =
      .ok [(1, 2, [(.str "weight", .num (2 ^ 53))])] ∧
    linksOf round64 (listed [(11, 1), (12, 1), (10, 2 ^ 53)]) "dot_product" =
      .ok [(1, 2, [(.str "weight", .num (2 ^ 53 + 2))])] ∧
    linksOf id (listed [(10, 2 ^ 53), (11, 1), (12, 1)]) "dot_product" =
      linksOf id (listed [(11, 1), (12, 1), (10, 2 ^ 53)]) "dot_product" := by
  decide +kernel

set_option synthInstance.maxSize 2000 in
/-- C86.  With weights of both signs the error is not bounded by any fraction of the result: a dot product equal to 1 is
computed as 0. -/
theorem dotProduct_cancels :
    linksOf round64 (listed [(10, 2 ^ 53), (11, 1), (12, -2 ^ 53)]) "dot_product" =
      .ok [(1, 2, [(.str "weight", .num 0)])] ∧
    linksOf id (listed [(10, 2 ^ 53), (11, 1), (12, -2 ^ 53)]) "dot_product" =
      .ok [(1, 2, [(.str "weight", .num 1)])] := by
  decide +kernel

/-- Nodes 1 and 2 share neighbor 10; the weight at 2 is tiny. -/
def tinyPair : Graph Nat (Val ℚ) :=
  ⟨false, false, [], [(1, []), (2, []), (10, [])],
    [⟨1, 10, [(.int 0, [])]⟩, ⟨2, 10, [(.int 0, [(.str "weight", .num (1 / 2 ^ 600))])]⟩]⟩

set_option synthInstance.maxSize 2000 in
/-- C86.  With positive weights below the range the cosine projection may raise `KeyError`: the square of the weight
`2 ^ (-600)` is rounded to 0, and the node forgotten.  Without rounding it does not raise. -/
theorem cosine_underflow_raises :
    linksOf round64 tinyPair "cosine" = .error .keyError ∧ (linksOf id tinyPair "cosine").isOk = true := by
  constructor <;> decide +kernel

end
end Pelote
