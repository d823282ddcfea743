import Verif.Lemmas.ProjectionExact
import Mathlib.Algebra.Order.BigOperators.Group.Finset
import Mathlib.Algebra.Order.BigOperators.Ring.Finset
import Mathlib.Algebra.Order.Chebyshev
import Mathlib.Analysis.SpecialFunctions.Log.Basic
import Mathlib.Analysis.SpecialFunctions.Sqrt
import Mathlib.Tactic.Linarith
import Mathlib.Tactic.Positivity
import Mathlib.Tactic.FieldSimp
import Mathlib.Tactic.NormNum

/-! C38 - C42: the monopartite projection of a bipartite graph. -/
set_option linter.unusedSectionVars false
namespace Pelote
variable {V K : Type} [LinearOrder V] [Field K] [LinearOrder K]

theorem keeps_iff {g : Graph V (Val K)} {part : Part V K} {partAttr : String} (hf : ∀ ns r, part ≠ .frozen ns r)
    {n : V} {a : Attrs (Val K)} (ha : g.node.get? n = some a) :
    part.keeps partAttr n a = true ↔ InPart g partAttr part n := by
  cases part with
  | value x =>
    unfold Part.keeps InPart
    simp only [Part.asValue, Option.getD_some, pyEq_iff]
    constructor
    · exact fun h => ⟨a, ha, h⟩
    · rintro ⟨b, hb, h⟩
      rw [ha] at hb; cases hb; exact h
  | frozen ns r => exact absurd rfl (hf ns r)
  | collection ns =>
    unfold Part.keeps InPart
    simp only [decide_eq_true_eq]
    exact ⟨fun h => ⟨Dict.mem_keys_of_mem (Dict.mem_of_get? ha), h⟩, fun h => h.2⟩

theorem inPart_mem {g : Graph V (Val K)} {part : Part V K} {partAttr : String} {n : V}
    (h : InPart g partAttr part n) : n ∈ g.nodes := by
  cases part with
  | value x => obtain ⟨a, ha, _⟩ := h; exact Dict.mem_keys_of_mem (Dict.mem_of_get? ha)
  | frozen ns r => exact h.1
  | collection ns => exact h.1

/-- The nodes of the projection, specified: the nodes of the part in graph order, with their attributes
except the part attribute. -/
theorem get?_keptNodes {g : Graph V (Val K)} (h : g.WF) {part : Part V K} {partAttr : String}
    (hf : ∀ ns r, part ≠ .frozen ns r) (n : V) (a : Attrs (Val K)) :
    (keptNodes part partAttr g.node).get? n = some a ↔
      InPart g partAttr part n ∧ ∃ b, g.node.get? n = some b ∧ a = b.erase (.str partAttr) := by
  have hnd : (keptNodes part partAttr g.node).keys.Nodup := by
    unfold keptNodes Dict.keys
    rw [List.map_map]
    exact (h.nodup.sublist (List.filter_sublist.map Prod.fst))
  rw [Dict.get?_iff_mem hnd]
  unfold keptNodes
  simp only [List.mem_map, List.mem_filter, Prod.mk.injEq, Prod.exists]
  constructor
  · rintro ⟨n', b, ⟨hm, hk⟩, rfl, rfl⟩
    have hb := Dict.get?_of_mem h.nodup hm
    exact ⟨(keeps_iff hf hb).1 hk, b, hb, rfl⟩
  · rintro ⟨hp, b, hb, rfl⟩
    exact ⟨n, b, ⟨Dict.mem_of_get? hb, (keeps_iff hf hb).2 hp⟩, rfl, rfl⟩

open Classical in
theorem keys_keptNodes {g : Graph V (Val K)} (h : g.WF) {part : Part V K} {partAttr : String}
    (hf : ∀ ns r, part ≠ .frozen ns r) :
    (keptNodes part partAttr g.node).keys = g.nodes.filter (fun n => decide (InPart g partAttr part n)) := by
  unfold keptNodes Dict.keys Graph.nodes Dict.keys
  rw [List.map_map, List.filter_map]
  have : (Prod.fst ∘ fun p : V × Attrs (Val K) => (p.1, Dict.erase p.2 (PyKey.str partAttr))) = Prod.fst := rfl
  rw [this]
  congr 1
  apply List.filter_congr
  rintro ⟨n, a⟩ hp
  have := keeps_iff (partAttr := partAttr) hf (Dict.get?_of_mem h.nodup hp)
  by_cases hk : part.keeps partAttr n a = true
  · simp [hk, this.1 hk]
  · have h2 : ¬ InPart g partAttr part n := fun hh => hk (this.2 hh)
    simp [h2, hk]

/-- The metric names are exactly the documented ones; any other raises `TypeError`. -/
theorem instantiateMetric_exact (name : Option String) :
    (∀ kind, instantiateMetric name = .ok kind ↔ (name, kind) ∈ metricNames) ∧
      ((∀ kind, (name, kind) ∉ metricNames) → instantiateMetric name = .error (.typeError "unknown metric")) := by
  unfold instantiateMetric
  split <;> (constructor <;> simp [metricNames, *])
  all_goals (intro kind; cases kind <;> simp <;> assumption)

theorem checkThreshold_error {t : Option (Val K)} {e : PyErr} (h : checkThreshold t = .error e) :
    ∃ s, e = .typeError s := by
  unfold checkThreshold at h
  split at h
  · cases h
  · split at h
    · cases h; exact ⟨_, rfl⟩
    · split at h
      · cases h; exact ⟨_, rfl⟩
      · cases h

section
variable [PyOrd V] [PyMath K] [AttrVal (Val K)] (g : Graph V (Val K)) (part : Part V K)
  (partAttr weightAttr : String) (metric : Option String) (check : Bool) (threshold : Option (Val K))

/-- C38.  Whatever the graph (directed or not, simple or not), the metric and the threshold, a projection
that is returned is an undirected simple graph whose nodes are exactly the nodes of the part, in graph
order, with their attributes except the part attribute.  (The part is not given as a frozenset or tuple,
see `projection_frozenset_raises`.) -/
theorem projection_nodes_partial (h : g.WF) (hf : ∀ ns r, part ≠ .frozen ns r) {m : Graph V (Val K)}
    (hm : monopartiteProjection g part partAttr weightAttr metric check threshold = .ok m) :
    m.directed = false ∧ m.multi = false ∧ m.attrs = [] ∧
      (∀ n a, m.node.get? n = some a ↔
        InPart g partAttr part n ∧ ∃ b, g.node.get? n = some b ∧ a = b.erase (.str partAttr)) ∧
      m.nodes.Sublist g.nodes := by
  unfold monopartiteProjection at hm
  split at hm
  · cases hm
  · rename_i kind hk
    split at hm
    · cases hm
    · rename_i t ht
      split at hm
      · rename_i h0
        cases hm
        have : g.node = [] := List.eq_nil_of_length_eq_zero h0
        refine ⟨rfl, rfl, rfl, ?_, by simp [Graph.empty, Graph.nodes, Dict.keys]⟩
        intro n a
        simp only [Graph.empty, Dict.get?_nil, reduceCtorEq, false_iff, not_and]
        intro hp
        have := inPart_mem hp
        simp [Graph.nodes, *, Dict.keys] at this
      · split at hm
        · cases hm
        · rename_i r m1 mono1 b1 hpl
          obtain ⟨f1, f2, f3, f4, f5⟩ := partLoop_frame g part partAttr weightAttr check hpl h.nodup
            (by simp [Graph.empty, Graph.nodes, Dict.keys]) h.nodeAttrs
          split at hm
          · cases hm
          · have hmono : mono1.node = keptNodes part partAttr g.node := by
              rw [f2]; simp [Graph.empty]
            have fr := projectLoop_frame hm (by rw [f2]; rfl)
              (by
                intro n hn
                rcases f3 n hn with h' | h'
                · simp [OnlineMetric.init, Dict.keys] at h'
                · unfold Graph.nodes; rw [hmono]; exact h')
            refine ⟨?_, ?_, ?_, ?_, ?_⟩
            · rw [fr.directed, f2]; rfl
            · rw [fr.multi, f2]; rfl
            · rw [fr.attrs, f2]; rfl
            · intro n a
              rw [fr.node, hmono]
              exact get?_keptNodes h hf n a
            · unfold Graph.nodes
              rw [fr.node, hmono]
              unfold keptNodes Dict.keys
              rw [List.map_map]
              exact List.filter_sublist.map Prod.fst

/-- C38.  The null graph is projected onto the null graph. -/
theorem projection_null (hg : g.order = 0) (kind : Metric) (hk : (metric, kind) ∈ metricNames)
    (ht : ∀ v, threshold = some v → ∃ t, v.toNum = .ok t ∧ 0 < t) :
    monopartiteProjection g part partAttr weightAttr metric check threshold = .ok (Graph.empty false false []) := by
  unfold monopartiteProjection
  rw [((instantiateMetric_exact metric).1 kind).2 hk]
  have : ∃ t, checkThreshold threshold = .ok t := by
    cases threshold with
    | none => exact ⟨none, rfl⟩
    | some v =>
      obtain ⟨t, h1, h2⟩ := ht v rfl
      exact ⟨some t, by simp [checkThreshold, h1, not_le.2 h2]⟩
  obtain ⟨t, h1⟩ := this
  simp [h1, hg]

/-- C38.  A part without nodes raises `TypeError`, if the graph has nodes. -/
theorem projection_empty_part (h : g.WF) (hg : g.order ≠ 0) (hf : ∀ ns r, part ≠ .frozen ns r)
    (he : ∀ n, ¬ InPart g partAttr part n) :
    ∃ s, monopartiteProjection g part partAttr weightAttr metric check threshold = .error (.typeError s) := by
  unfold monopartiteProjection
  split
  · rename_i e hk
    unfold instantiateMetric at hk
    split at hk <;> cases hk
    exact ⟨_, rfl⟩
  · split
    · rename_i e ht
      obtain ⟨s, rfl⟩ := checkThreshold_error ht
      exact ⟨s, rfl⟩
    · rw [if_neg hg]
      split
      · rename_i e hpl
        obtain ⟨s, rfl⟩ := partLoop_error g part partAttr weightAttr check hpl
        exact ⟨s, rfl⟩
      · rename_i r m1 mono1 b1 hpl
        obtain ⟨f1, f2, f3, f4, f5⟩ := partLoop_frame g part partAttr weightAttr check hpl h.nodup
          (by simp [Graph.empty, Graph.nodes, Dict.keys]) h.nodeAttrs
        have : keptNodes part partAttr g.node = [] := by
          unfold keptNodes
          rw [List.map_eq_nil_iff, List.filter_eq_nil_iff]
          rintro ⟨n, a⟩ hp hk
          exact he n ((keeps_iff hf (Dict.get?_of_mem h.nodup hp)).1 hk)
        rw [this] at f4
        simp only [Bool.true_and, List.isEmpty_nil] at f4
        rw [f4]
        exact ⟨_, rfl⟩

/-- C41, when the part is given as a collection.  With `bipartition_check`, an edge leaving a node of the
part (in an undirected graph: an edge at it) and reaching a node of the part raises `TypeError`. -/
theorem projection_rejects_partial (h : g.WF) {ns : List V} {u v : V} (hu : u ∈ ns) (hv : v ∈ ns)
    (he : g.hasEdge u v = true) :
    ∃ s, monopartiteProjection g (.collection ns) partAttr weightAttr metric true threshold =
      .error (.typeError s) := by
  unfold monopartiteProjection
  split
  · rename_i e hk
    unfold instantiateMetric at hk
    split at hk <;> cases hk
    exact ⟨_, rfl⟩
  · split
    · rename_i e ht
      obtain ⟨s, rfl⟩ := checkThreshold_error ht
      exact ⟨s, rfl⟩
    · have hmem := (Graph.hasEdge_mem h he).1
      have hg : g.order ≠ 0 := by
        intro h0
        have : g.node = [] := List.eq_nil_of_length_eq_zero h0
        simp [Graph.nodes, this, Dict.keys] at hmem
      rw [if_neg hg]
      split
      · rename_i e hpl
        obtain ⟨s, rfl⟩ := partLoop_error g (.collection ns) partAttr weightAttr true hpl
        exact ⟨s, rfl⟩
      · rename_i r m1 mono1 b1 hpl
        obtain ⟨f1, f2, f3, f4, f5⟩ := partLoop_frame g (.collection ns) partAttr weightAttr true hpl h.nodup
          (by simp [Graph.empty, Graph.nodes, Dict.keys]) h.nodeAttrs
        obtain ⟨⟨u', a⟩, ha, rfl⟩ := List.mem_map.1 hmem
        obtain ⟨⟨v', d⟩, hd, rfl⟩ := List.mem_map.1 (Graph.mem_neighbors.2 he)
        have := f5 rfl (u', a) ha (by simp [Part.keeps, hu]) (v', d) hd
        simp [Part.clashes, hv] at this

/-- A non-positive or non-numeric threshold raises `TypeError`, even on the null graph. -/
theorem projection_bad_threshold {v : Val K} (hv : ∀ t, v.toNum = .ok t → t ≤ 0) :
    ∃ s, monopartiteProjection g part partAttr weightAttr metric check (some v) = .error (.typeError s) := by
  unfold monopartiteProjection
  split
  · rename_i e hk
    unfold instantiateMetric at hk
    split at hk <;> cases hk
    exact ⟨_, rfl⟩
  · have : ∃ s, checkThreshold (some v) = .error (.typeError s) := by
      unfold checkThreshold
      simp only
      split
      · exact ⟨_, rfl⟩
      · rename_i t ht
        rw [if_pos (hv t ht)]
        exact ⟨_, rfl⟩
    obtain ⟨s, hs⟩ := this
    rw [hs]
    exact ⟨s, rfl⟩

end

/-! ### Exact links -/
section
variable [IsStrictOrderedRing K]

theorem computeMetric_ok [PyMath K] (kind : Metric) (A B : Finset V)
    (a b : V → K) (hAB : (A ∩ B).Nonempty)
    (hno : NoUnderflow kind A B a b) :
    OnlineMetric.computeMetric kind (∑ t ∈ A ∩ B, kind.interTerm (a t) (b t))
      (OnlineMetric.finNorm kind (∑ t ∈ A, kind.normTerm (a t)))
      (OnlineMetric.finNorm kind (∑ t ∈ B, kind.normTerm (b t))) = .ok (similarity kind A B a b) := by
  have hcI : 0 < (A ∩ B).card := Finset.card_pos.2 hAB
  have hcA : 0 < A.card := lt_of_lt_of_le hcI (Finset.card_le_card Finset.inter_subset_left)
  have hcB : 0 < B.card := lt_of_lt_of_le hcI (Finset.card_le_card Finset.inter_subset_right)
  have kI : (0 : K) < (A ∩ B).card := by exact_mod_cast hcI
  have kA : (0 : K) < A.card := by exact_mod_cast hcA
  have kB : (0 : K) < B.card := by exact_mod_cast hcB
  have hunion : (A.card : K) + B.card - (A ∩ B).card = ((A ∪ B).card : K) := by
    have := Finset.card_union_add_card_inter A B
    have h2 : ((A ∪ B).card : K) + ((A ∩ B).card : K) = (A.card : K) + B.card := by exact_mod_cast this
    rw [← h2]; ring
  have hU : ((A ∪ B).card : K) ≠ 0 := by
    have : 0 < (A ∪ B).card := lt_of_lt_of_le hcA (Finset.card_le_card Finset.subset_union_left)
    exact_mod_cast this.ne'
  have hmin : min (A.card : K) (B.card : K) = ((min A.card B.card : Nat) : K) := (Nat.cast_min _ _).symm
  cases kind with
  | intersection => simp [OnlineMetric.computeMetric, similarity, Metric.interTerm]
  | jaccard =>
    simp only [OnlineMetric.computeMetric, similarity, Metric.interTerm, Metric.normTerm, OnlineMetric.finNorm,
      Finset.sum_const, nsmul_eq_mul, mul_one, fDiv, hunion, hU, if_false]
  | overlap =>
    have : ((min A.card B.card : Nat) : K) ≠ 0 := by
      have : 0 < min A.card B.card := lt_min hcA hcB
      exact_mod_cast this.ne'
    simp only [OnlineMetric.computeMetric, similarity, Metric.interTerm, Metric.normTerm, OnlineMetric.finNorm,
      Finset.sum_const, nsmul_eq_mul, mul_one, fDiv, hmin, this, if_false]
  | cosine =>
    change _ ≠ _ at hno
    simp only [OnlineMetric.computeMetric, similarity, Metric.interTerm, Metric.normTerm, OnlineMetric.finNorm,
      fDiv, hno, if_false]
  | dice =>
    have : (A.card : K) + B.card ≠ 0 := (add_pos kA kB).ne'
    simp only [OnlineMetric.computeMetric, similarity, Metric.interTerm, Metric.normTerm, OnlineMetric.finNorm,
      Finset.sum_const, nsmul_eq_mul, mul_one, fDiv, this, if_false, Nat.cast_add, mul_comm]
  | binaryCosine =>
    change _ ≠ _ at hno
    simp only [OnlineMetric.computeMetric, similarity, Metric.interTerm, Metric.normTerm, OnlineMetric.finNorm,
      Finset.sum_const, nsmul_eq_mul, mul_one, fDiv, hno, if_false]
  | dotProduct => simp [OnlineMetric.computeMetric, similarity, Metric.interTerm]
  | pmi =>
    have h1 : (A.card : K) * B.card ≠ 0 := (mul_pos kA kB).ne'
    have h2 : ¬ PyMath.rnd (((A ∩ B).card : K) / ((A.card : K) * B.card)) ≤ 0 :=
      not_le.2 hno
    simp only [OnlineMetric.computeMetric, similarity, Metric.interTerm, Metric.normTerm, OnlineMetric.finNorm,
      Finset.sum_const, nsmul_eq_mul, mul_one, fDiv, h1, if_false, mathLog, h2]

omit [IsStrictOrderedRing K] in
theorem similarity_comm [PyMath K] (kind : Metric) (A B : Finset V) (a b : V → K) :
    similarity kind A B a b = similarity kind B A b a := by
  cases kind <;>
    simp only [similarity, Finset.inter_comm A B, Finset.union_comm A B, min_comm A.card, add_comm A.card,
      mul_comm (a _), mul_comm (PyMath.sqrt (A.card : K)), mul_comm (A.card : K),
      mul_comm (PyMath.sqrt (∑ t ∈ A, _))]

theorem checkThreshold_ok {threshold : Option (Val K)} (ht : ∀ v, threshold = some v → ∃ t, v.toNum = .ok t ∧ 0 < t) :
    ∃ t, checkThreshold threshold = .ok t ∧ ∀ x, belowThreshold t x = false ↔ ReachesThreshold threshold x := by
  cases threshold with
  | none => exact ⟨none, rfl, fun x => by simp [belowThreshold, ReachesThreshold]⟩
  | some v =>
    obtain ⟨t, h1, h2⟩ := ht v rfl
    refine ⟨some t, by simp [checkThreshold, h1, not_le.2 h2], ?_⟩
    intro x
    simp only [belowThreshold, decide_eq_false_iff_not, not_lt, ReachesThreshold]
    constructor
    · rintro hx v' t' hv ht'
      cases hv
      rw [h1] at ht'; cases ht'; exact hx
    · intro hx
      exact hx v t rfl h1

theorem normTerm_pos {kind : Metric} {x : K} (h : kind = .cosine → x ≠ 0) : 0 < kind.normTerm x := by
  cases kind <;> simp [Metric.normTerm]
  exact h rfl

theorem normTerm_nonneg (kind : Metric) (x : K) : 0 ≤ kind.normTerm x := by
  cases kind <;> simp [Metric.normTerm]
  exact mul_self_nonneg x

/-- What a metric does on a simple undirected bipartite graph, in every case, whatever the rounding as long as no
denominator underflows.  Hypothesis `h` is that of another metric using the same weights: `.dotProduct` for cosine, whose
nodes of weight 0 are then allowed. -/
theorem projection_cases [PyOrd V] [PyMath K] [AttrVal (Val K)]
    {g : Graph V (Val K)} {part : Part V K} {partAttr weightAttr : String} {kind0 kind : Metric} {check : Bool}
    {w : V → V → K} (h : Projectable g part partAttr weightAttr kind0 check w)
    (hkind : kind.usesWeights = true → kind0.usesWeights = true)
    (hno : ∀ u v, InPart g partAttr part u → InPart g partAttr part v → (g.nbhd u ∩ g.nbhd v).Nonempty →
      Weighty kind g w u → Weighty kind g w v → NoUnderflow kind (g.nbhd u) (g.nbhd v) (w u) (w v))
    {metric : Option String} (hk : (metric, kind) ∈ metricNames)
    {threshold : Option (Val K)} (ht : ∀ v, threshold = some v → ∃ t, v.toNum = .ok t ∧ 0 < t) :
    ((∃ u v, u < v ∧ InPart g partAttr part u ∧ InPart g partAttr part v ∧ (g.nbhd u ∩ g.nbhd v).Nonempty ∧
        Weighty kind g w u ∧ ¬ Weighty kind g w v) →
      monopartiteProjection g part partAttr weightAttr metric check threshold = .error .keyError) ∧
    ((∀ u v, u < v → InPart g partAttr part u → InPart g partAttr part v → (g.nbhd u ∩ g.nbhd v).Nonempty →
        Weighty kind g w u → Weighty kind g w v) →
      ∃ m, monopartiteProjection g part partAttr weightAttr metric check threshold = .ok m ∧ m.WF ∧
        ∀ u v a, m.edge? u v (.int 0) = some a ↔
          u ≠ v ∧ InPart g partAttr part u ∧ InPart g partAttr part v ∧ (g.nbhd u ∩ g.nbhd v).Nonempty ∧
          Weighty kind g w u ∧ Weighty kind g w v ∧
          ReachesThreshold threshold (similarity kind (g.nbhd u) (g.nbhd v) (w u) (w v)) ∧
          a = [(.str "weight", .num (similarity kind (g.nbhd u) (g.nbhd v) (w u) (w v)))]) := by
  have hwf := h.wf
  obtain ⟨t, ht1, ht2⟩ := checkThreshold_ok ht
  have huses : kind.usesWeights = true → kind0 = .cosine ∨ kind0 = .dotProduct := by
    intro hu
    have := hkind hu
    revert this
    cases kind0 <;> simp [Metric.usesWeights]
  have hwt : kind.usesWeights = true → ∀ n, ∀ q ∈ g.adj n, (taWeight g q.2 weightAttr).toNum = .ok (w n q.1) :=
    fun hu n q hq => taWeight_ok hwf h.simple (h.weights (huses hu)) hq
  -- the first loop
  obtain ⟨m1, mono1, b1, p1, p2, p3⟩ := partLoop_ok (g := g) (part := part) (partAttr := partAttr)
    (weightAttr := weightAttr) (check := check) (w := w) (L := g.node) (OnlineMetric.init kind)
    (Graph.empty false false []) true hwf.nodup (by simp [OnlineMetric.init, Dict.keys])
    (by
      rintro ⟨n, a⟩ hp hkp
      have ha := Dict.get?_of_mem hwf.nodup hp
      exact h.names n a ha ((keeps_iff h.notFrozen ha).1 hkp))
    (by
      rintro hc ⟨n, a⟩ hp hkp ⟨v, d⟩ hq
      have ha := Dict.get?_of_mem hwf.nodup hp
      have hin := (keeps_iff h.notFrozen ha).1 hkp
      have he : g.hasEdge n v = true := Graph.mem_neighbors.1 (List.mem_map.2 ⟨_, hq, rfl⟩)
      have hnv := (h.bipartite n v he).1 hin
      obtain ⟨b, hb1, hb2⟩ := simple_get? hwf h.simple hq
      cases hpart : part with
      | value x =>
        have := h.edgeAttr hc x hpart n v b hb2
        rw [← Bool.not_eq_true]
        change ¬ (((g.taGet dictValue d partAttr).getD .none).pyEq x = true)
        rw [pyEq_iff, Graph.taGet, if_neg (by simp [h.simple]), hb1]
        exact this
      | frozen ns r => exact absurd hpart (h.notFrozen ns r)
      | collection ns =>
        rw [hpart] at hnv
        simp only [Part.clashes, decide_eq_false_iff_not]
        exact fun hm => hnv ⟨(Graph.hasEdge_mem hwf he).2, hm⟩)
    (by
      intro hu p _ q hq
      exact hwt hu p.1 q hq)
  obtain ⟨f1, f2, f3, f4, f5⟩ := partLoop_frame g part partAttr weightAttr check p1 hwf.nodup
    (by simp [Graph.empty, Graph.nodes, Dict.keys]) hwf.nodeAttrs
  have hmono1 : mono1 = { (Graph.empty false false [] : Graph V (Val K)) with
      node := keptNodes part partAttr g.node } := by
    rw [f2]; simp [Graph.empty]
  have hN : m1.norms = keptNorms g part partAttr kind w g.node := by
    rw [p3]; simp [OnlineMetric.init]
  have hNnd : (keptNorms g part partAttr kind w g.node).keys.Nodup := by
    unfold keptNorms Dict.keys
    rw [List.map_map]
    exact hwf.nodup.sublist (List.filter_sublist.map Prod.fst)
  have hNget : ∀ n, InPart g partAttr part n → (g.nbhd n).Nonempty → Weighty kind g w n →
      (keptNorms g part partAttr kind w g.node).get? n = some (OnlineMetric.finNorm kind (normSum g kind w n)) := by
    intro n hn hne hwy
    rw [Dict.get?_iff_mem hNnd]
    unfold keptNorms
    obtain ⟨⟨n', a⟩, hp, rfl⟩ := List.mem_map.1 (inPart_mem hn)
    refine List.mem_map.2 ⟨(n', a), List.mem_filter.2 ⟨hp, ?_⟩, rfl⟩
    have hpos : 0 < normSum g kind w n' := by
      rw [normSum_eq hwf]
      by_cases hc : kind = .cosine
      · obtain ⟨t, ht, hne⟩ := hwy hc
        exact Finset.sum_pos' (fun i _ => normTerm_nonneg _ _) ⟨t, ht, normTerm_pos (fun _ => hne)⟩
      · obtain ⟨t, ht⟩ := hne
        exact Finset.sum_pos' (fun i _ => normTerm_nonneg _ _) ⟨t, ht, normTerm_pos (fun hh => absurd hh hc)⟩
    simp only [Bool.and_eq_true]
    refine ⟨(keeps_iff h.notFrozen (Dict.get?_of_mem hwf.nodup hp)).2 hn, ?_⟩
    unfold Metric.keepsNorm
    split <;> simp [hpos, hpos.le]
  have hNwy : ∀ n, ∀ x, (keptNorms g part partAttr kind w g.node).get? n = some x → Weighty kind g w n := by
    intro n x hx hc
    subst hc
    have hm := Dict.mem_of_get? hx
    unfold keptNorms at hm
    obtain ⟨⟨n', a⟩, hq, he⟩ := List.mem_map.1 hm
    cases he
    have hq2 := (List.mem_filter.1 hq).2
    simp only [Bool.and_eq_true, Metric.keepsNorm, decide_eq_true_eq] at hq2
    by_contra hcon
    push Not at hcon
    have : normSum g .cosine w n' = 0 := by
      rw [normSum_eq hwf]
      refine Finset.sum_eq_zero fun t ht => ?_
      simp [Metric.normTerm, hcon t ht]
    rw [this] at hq2
    exact lt_irrefl _ hq2.2
  have hNin : ∀ n ∈ (keptNorms g part partAttr kind w g.node).keys, InPart g partAttr part n ∧
      (keptNorms g part partAttr kind w g.node).get? n = some (OnlineMetric.finNorm kind (normSum g kind w n)) := by
    intro n hn
    unfold keptNorms at hn
    obtain ⟨⟨n', x⟩, hp, rfl⟩ := List.mem_map.1 hn
    obtain ⟨⟨n'', a⟩, hq, he⟩ := List.mem_map.1 hp
    cases he
    obtain ⟨hq1, hq2⟩ := List.mem_filter.1 hq
    simp only [Bool.and_eq_true] at hq2
    refine ⟨(keeps_iff h.notFrozen (Dict.get?_of_mem hwf.nodup hq1)).1 hq2.1, ?_⟩
    rw [Dict.get?_iff_mem hNnd]
    exact List.mem_map.2 ⟨(n'', a), hq, rfl⟩
  have hreach : ∀ {u t v}, InPart g partAttr part u → g.hasEdge u t = true → g.hasEdge t v = true →
      InPart g partAttr part v := by
    intro u t v hu h1 h2
    have h3 := (h.bipartite u t h1).1 hu
    have h4 := h.bipartite t v h2
    by_contra hv
    exact h3 (h4.2 hv)
  have hshare : ∀ u v, (∃ t, g.hasEdge u t = true ∧ g.hasEdge t v = true) ↔ (g.nbhd u ∩ g.nbhd v).Nonempty := by
    intro u v
    constructor
    · rintro ⟨t, h1, h2⟩
      exact ⟨t, Finset.mem_inter.2 ⟨(mem_nbhd hwf).2 h1,
        (mem_nbhd hwf).2 (by rw [Graph.hasEdge_comm h.undirected]; exact h2)⟩⟩
    · rintro ⟨t, ht⟩
      obtain ⟨h1, h2⟩ := Finset.mem_inter.1 ht
      exact ⟨t, (mem_nbhd hwf).1 h1, by rw [Graph.hasEdge_comm h.undirected]; exact (mem_nbhd hwf).1 h2⟩
  have hord : ∀ n ∈ (keptNorms g part partAttr kind w g.node).keys, ∀ q ∈ g.adj n, ∀ p ∈ g.adj q.1, p.1 ≠ n →
      PyOrd.gt n p.1 = .ok (decide (p.1 < n)) := by
    rintro n hn ⟨t, d⟩ hq ⟨k, d'⟩ hp hne
    have e1 : g.hasEdge n t = true := Graph.mem_neighbors.1 (List.mem_map.2 ⟨_, hq, rfl⟩)
    have e2 : g.hasEdge t k = true := Graph.mem_neighbors.1 (List.mem_map.2 ⟨_, hp, rfl⟩)
    exact h.comparable n k (hNin n hn).1 (hreach (hNin n hn).1 e1 e2)
  have hsum : ∀ n ∈ (keptNorms g part partAttr kind w g.node).keys, ∀ k, n < k →
      (((contributions g kind w n (g.adj n)).filter (fun e => e.1 = k)).map Prod.snd).sum =
        ∑ t ∈ g.nbhd n ∩ g.nbhd k, kind.interTerm (w n t) (w k t) := by
    intro n hn k hlt
    exact sum_contributions hwf h.undirected hlt
      (fun hu t he => weights_symm hwf h.undirected h.simple (h.weights (huses hu)) he)
  have hmet : ∀ n ∈ (keptNorms g part partAttr kind w g.node).keys, ∀ k, n < k →
      (∃ t, g.hasEdge n t = true ∧ g.hasEdge t k = true) → Weighty kind g w k →
      ∃ b, (keptNorms g part partAttr kind w g.node).get? k = some b ∧
        OnlineMetric.computeMetric kind (∑ t ∈ g.nbhd n ∩ g.nbhd k, kind.interTerm (w n t) (w k t))
          (OnlineMetric.finNorm kind (normSum g kind w n)) b =
            .ok (similarity kind (g.nbhd n) (g.nbhd k) (w n) (w k)) := by
    rintro n hn k hlt ⟨t, h1, h2⟩ hwy
    have hkin := hreach (hNin n hn).1 h1 h2
    have hne := (hshare n k).1 ⟨t, h1, h2⟩
    have hn2 : (g.nbhd k).Nonempty := hne.mono Finset.inter_subset_right
    refine ⟨_, hNget k hkin hn2 hwy, ?_⟩
    rw [normSum_eq hwf, normSum_eq hwf]
    exact computeMetric_ok kind _ _ _ _ hne (hno n k (hNin n hn).1 hkin hne (hNwy n _ (hNin n hn).2) hwy)
  have hkept : keptNodes part partAttr g.node ≠ [] := by
    obtain ⟨n, hn⟩ := h.nonempty
    obtain ⟨⟨n', a⟩, hp, rfl⟩ := List.mem_map.1 (inPart_mem hn)
    intro hnil
    have : (n', a.erase (.str partAttr)) ∈ keptNodes part partAttr g.node :=
      List.mem_map.2 ⟨(n', a), List.mem_filter.2 ⟨hp,
        (keeps_iff h.notFrozen (Dict.get?_of_mem hwf.nodup hp)).2 hn⟩, rfl⟩
    rw [hnil] at this
    cases this
  have hb1 : b1 = false := by
    rw [f4]
    cases hc : keptNodes part partAttr g.node with
    | nil => exact absurd hc hkept
    | cons _ _ => rfl
  have horder : g.order ≠ 0 := by
    obtain ⟨n, hn⟩ := h.nonempty
    intro h0
    have h1 : g.node = [] := List.eq_nil_of_length_eq_zero h0
    have := inPart_mem hn
    simp [Graph.nodes, h1, Dict.keys] at this
  have hwf1 : mono1.WF := by
    rw [hmono1]
    constructor <;> simp [Graph.empty, Dict.keys]
    · have : (keptNodes part partAttr g.node).keys.Nodup := by
        unfold keptNodes Dict.keys
        rw [List.map_map]
        exact hwf.nodup.sublist (List.filter_sublist.map Prod.fst)
      exact this
    · intro n a ha
      unfold keptNodes at ha
      obtain ⟨⟨n', b⟩, hb, he⟩ := List.mem_map.1 ha
      cases he
      exact nodup_erase _ (hwf.nodeAttrs _ (List.mem_filter.1 hb).1)
  have hred : ∀ r, projectLoop g weightAttr t (keptNorms g part partAttr kind w g.node).keys m1 mono1 = r →
      monopartiteProjection g part partAttr weightAttr metric check threshold = r := by
    intro r hr
    unfold monopartiteProjection
    rw [((instantiateMetric_exact metric).1 kind).2 hk]
    simp only [ht1, horder, if_false, p1, hb1, Bool.false_eq_true]
    rw [hN]
    exact hr
  constructor
  · rintro ⟨u, v, huv, hu, hv, hne, hwu, hwv⟩
    refine hred _ (projectLoop_bad (g := g) (weightAttr := weightAttr) (t := t) (kind := kind)
      (N := keptNorms g part partAttr kind w g.node) (w := w)
      (S := fun u v => ∑ t ∈ g.nbhd u ∩ g.nbhd v, kind.interTerm (w u t) (w v t))
      (sim := fun u v => similarity kind (g.nbhd u) (g.nbhd v) (w u) (w v))
      _ m1 mono1 p2 hN (by rw [hmono1]; rfl) hord hwt hsum ?_ ?_)
    · intro n hn
      refine ⟨_, (hNin n hn).2, fun k hlt hs => ?_⟩
      by_cases hwk : Weighty kind g w k
      · exact .inr (hmet n hn k hlt hs hwk)
      · left
        rcases hg : (keptNorms g part partAttr kind w g.node).get? k with _ | x
        · rfl
        · exact absurd (hNwy k x hg) hwk
    · refine ⟨u, Dict.mem_keys_of_mem (Dict.mem_of_get? (hNget u hu (hne.mono Finset.inter_subset_left) hwu)), v, huv,
        (hshare u v).2 hne, ?_⟩
      rcases hg : (keptNorms g part partAttr kind w g.node).get? v with _ | x
      · rfl
      · exact absurd (hNwy v x hg) hwv
  intro hgood
  obtain ⟨E, hE, hmem⟩ := projectLoop_ok (g := g) (weightAttr := weightAttr) (t := t) (kind := kind)
    (N := keptNorms g part partAttr kind w g.node) (w := w)
    (S := fun u v => ∑ t ∈ g.nbhd u ∩ g.nbhd v, kind.interTerm (w u t) (w v t))
    (sim := fun u v => similarity kind (g.nbhd u) (g.nbhd v) (w u) (w v))
    (keptNorms g part partAttr kind w g.node).keys m1 mono1 p2 hN (by rw [hmono1]; rfl) hord hwt hsum
    (by
      intro n hn
      refine ⟨_, (hNin n hn).2, fun k hlt hs => hmet n hn k hlt hs ?_⟩
      obtain ⟨t, h1, h2⟩ := hs
      exact hgood n k hlt (hNin n hn).1 (hreach (hNin n hn).1 h1 h2) ((hshare n k).1 ⟨t, h1, h2⟩)
        (hNwy n _ (hNin n hn).2))
  refine ⟨addWeights mono1 E, hred _ hE, addWeights_wf hwf1 E, ?_⟩
  · intro u v a
    have hkd := addWeights_keydict (g := mono1) (by rw [hmono1]; rfl) (by rw [hmono1]; rfl)
      (f := fun u v => similarity kind (g.nbhd u) (g.nbhd v) (w u) (w v))
      (fun u v => similarity_comm _ _ _ _ _) E (fun e he => ((hmem e).1 he).2.2.2.1)
      (by
        intro u v d hd
        rw [hmono1] at hd
        simp [Graph.keydict?, Graph.empty] at hd) u v
    have hnone : mono1.keydict? u v = none := by rw [hmono1]; rfl
    rw [hnone] at hkd
    unfold Graph.edge?
    rw [hkd]
    have hiff : (∃ e ∈ E, samePair false e.1 e.2.1 u v = true) ↔
        (u ≠ v ∧ InPart g partAttr part u ∧ InPart g partAttr part v ∧ (g.nbhd u ∩ g.nbhd v).Nonempty ∧
          Weighty kind g w u ∧ Weighty kind g w v ∧
          ReachesThreshold threshold (similarity kind (g.nbhd u) (g.nbhd v) (w u) (w v))) := by
      constructor
      · rintro ⟨⟨x, y, z⟩, he, hs⟩
        obtain ⟨h1, h2, h3, h4, h5⟩ := (hmem _).1 he
        simp only at h1 h2 h3 h4 h5 hs
        have hx := (hNin x h1).1
        obtain ⟨t, ht, ht'⟩ := h3
        have hy := hreach hx ht ht'
        have hne := (hshare x y).1 ⟨t, ht, ht'⟩
        rw [h4, ht2] at h5
        have hwx := hNwy x _ (hNin x h1).2
        have hwy := hgood x y h2 hx hy hne hwx
        rcases samePair_iff.1 hs with ⟨rfl, rfl⟩ | ⟨_, rfl, rfl⟩
        · exact ⟨h2.ne, hx, hy, hne, hwx, hwy, h5⟩
        · refine ⟨h2.ne', hy, hx, by rwa [Finset.inter_comm], hwy, hwx, ?_⟩
          rwa [similarity_comm]
      · rintro ⟨h1, h2, h3, h4, hwu, hwv, h5⟩
        have hgo : ∀ x y, x < y → InPart g partAttr part x → (g.nbhd x ∩ g.nbhd y).Nonempty → Weighty kind g w x →
            ReachesThreshold threshold (similarity kind (g.nbhd x) (g.nbhd y) (w x) (w y)) →
            (x, y, similarity kind (g.nbhd x) (g.nbhd y) (w x) (w y)) ∈ E := by
          intro x y hlt hx hne hwx hr
          exact (hmem _).2 ⟨Dict.mem_keys_of_mem (Dict.mem_of_get? (hNget x hx (hne.mono Finset.inter_subset_left) hwx)),
            hlt, (hshare x y).2 hne, rfl, (ht2 _).2 hr⟩
        rcases lt_or_gt_of_ne h1 with hlt | hlt
        · exact ⟨_, hgo u v hlt h2 h4 hwu h5, samePair_refl _ _ _⟩
        · refine ⟨_, hgo v u hlt h3 (by rwa [Finset.inter_comm]) hwv (by rwa [similarity_comm]), ?_⟩
          simp [samePair]
    by_cases hc : ∃ e ∈ E, samePair false e.1 e.2.1 u v = true
    · rw [if_pos hc]
      have := hiff.1 hc
      simp only [Option.bind_some, weightDict, Dict.get?_cons, if_true, Option.some.injEq]
      constructor
      · rintro rfl
        exact ⟨this.1, this.2.1, this.2.2.1, this.2.2.2.1, this.2.2.2.2.1, this.2.2.2.2.2.1, this.2.2.2.2.2.2, rfl⟩
      · rintro ⟨_, _, _, _, _, _, _, rfl⟩; rfl
    · rw [if_neg hc]
      simp only [Option.bind_none, reduceCtorEq, false_iff]
      rintro ⟨a1, a2, a3, a4, a5, a6, a7, _⟩
      exact hc (hiff.2 ⟨a1, a2, a3, a4, a5, a6, a7⟩)

/-- C39 and C42.  On a simple undirected bipartite graph (see `Projectable`) no metric raises, and two
distinct nodes of the part are linked in the projection exactly when they share a neighbor and their
similarity reaches the threshold, if any; the weight is the documented metric of their neighborhoods, rounded.  Whatever
the rounding, as long as no denominator underflows. -/
theorem projection_rounded [PyOrd V] [PyMath K] [AttrVal (Val K)]
    {g : Graph V (Val K)} {part : Part V K} {partAttr weightAttr : String} {kind : Metric} {check : Bool}
    {w : V → V → K} (h : Projectable g part partAttr weightAttr kind check w)
    (hno : ∀ u v, InPart g partAttr part u → InPart g partAttr part v → (g.nbhd u ∩ g.nbhd v).Nonempty →
      NoUnderflow kind (g.nbhd u) (g.nbhd v) (w u) (w v))
    {metric : Option String} (hk : (metric, kind) ∈ metricNames)
    {threshold : Option (Val K)} (ht : ∀ v, threshold = some v → ∃ t, v.toNum = .ok t ∧ 0 < t) :
    ∃ m, monopartiteProjection g part partAttr weightAttr metric check threshold = .ok m ∧ m.WF ∧
      ∀ u v a, m.edge? u v (.int 0) = some a ↔
        u ≠ v ∧ InPart g partAttr part u ∧ InPart g partAttr part v ∧ (g.nbhd u ∩ g.nbhd v).Nonempty ∧
        ReachesThreshold threshold (similarity kind (g.nbhd u) (g.nbhd v) (w u) (w v)) ∧
        a = [(.str "weight", .num (similarity kind (g.nbhd u) (g.nbhd v) (w u) (w v)))] := by
  have hwy : ∀ n, InPart g partAttr part n → (g.nbhd n).Nonempty → Weighty kind g w n :=
    fun n hn hne hc => h.cosine hc n hn hne
  obtain ⟨m, h1, h2, h3⟩ := (projection_cases h (fun hu => hu) (fun u v hu hv hne _ _ => hno u v hu hv hne) hk ht).2
    (fun u v _ _ hv hne _ => hwy v hv (hne.mono Finset.inter_subset_right))
  refine ⟨m, h1, h2, fun u v a => (h3 u v a).trans ⟨?_, ?_⟩⟩
  · rintro ⟨a1, a2, a3, a4, _, _, a7, a8⟩
    exact ⟨a1, a2, a3, a4, a7, a8⟩
  · rintro ⟨a1, a2, a3, a4, a7, a8⟩
    exact ⟨a1, a2, a3, a4, hwy u a2 (a4.mono Finset.inter_subset_left), hwy v a3 (a4.mono Finset.inter_subset_right),
      a7, a8⟩

/-- C39 and C42.  On a simple undirected bipartite graph (see `Projectable`) no metric raises, and two
distinct nodes of the part are linked in the projection exactly when they share a neighbor and their
similarity reaches the threshold, if any; the weight is the documented metric of their neighborhoods. -/
theorem projection_exact [PyOrd V] [PyMath K] [AttrVal (Val K)] (hsqrt : ∀ x : K, 0 < x → 0 < PyMath.sqrt x)
    (hrnd : ∀ x : K, 0 < x → 0 < PyMath.rnd x)
    {g : Graph V (Val K)} {part : Part V K} {partAttr weightAttr : String} {kind : Metric} {check : Bool}
    {w : V → V → K} (h : Projectable g part partAttr weightAttr kind check w)
    {metric : Option String} (hk : (metric, kind) ∈ metricNames)
    {threshold : Option (Val K)} (ht : ∀ v, threshold = some v → ∃ t, v.toNum = .ok t ∧ 0 < t) :
    ∃ m, monopartiteProjection g part partAttr weightAttr metric check threshold = .ok m ∧ m.WF ∧
      ∀ u v a, m.edge? u v (.int 0) = some a ↔
        u ≠ v ∧ InPart g partAttr part u ∧ InPart g partAttr part v ∧ (g.nbhd u ∩ g.nbhd v).Nonempty ∧
        ReachesThreshold threshold (similarity kind (g.nbhd u) (g.nbhd v) (w u) (w v)) ∧
        a = [(.str "weight", .num (similarity kind (g.nbhd u) (g.nbhd v) (w u) (w v)))] := by
  refine projection_rounded h (fun u v hu hv hne => ?_) hk ht
  have hn1 : (g.nbhd u).Nonempty := hne.mono Finset.inter_subset_left
  have hn2 : (g.nbhd v).Nonempty := hne.mono Finset.inter_subset_right
  have k1 : (0 : K) < (g.nbhd u).card := by exact_mod_cast Finset.card_pos.2 hn1
  have k2 : (0 : K) < (g.nbhd v).card := by exact_mod_cast Finset.card_pos.2 hn2
  have k3 : (0 : K) < (g.nbhd u ∩ g.nbhd v).card := by exact_mod_cast Finset.card_pos.2 hne
  have hpos : ∀ (S : Finset V) (f : V → K), (∃ t ∈ S, f t ≠ 0) → 0 < ∑ t ∈ S, f t * f t := by
    rintro S f ⟨t, ht, hne⟩
    exact Finset.sum_pos' (fun i _ => mul_self_nonneg _) ⟨t, ht, mul_self_pos.2 hne⟩
  cases kind with
  | binaryCosine => exact (hrnd _ (mul_pos (hsqrt _ k1) (hsqrt _ k2))).ne'
  | cosine => exact (hrnd _ (mul_pos (hsqrt _ (hpos _ _ (h.cosine rfl u hu hn1))) (hsqrt _ (hpos _ _ (h.cosine rfl v hv hn2))))).ne'
  | pmi => exact hrnd _ (div_pos k3 (mul_pos k1 k2))
  | _ => trivial

end

end Pelote
