import Verif.Props.NullModel

/-! C115: how many edges of noise the multiscale backbone keeps. -/
set_option linter.unusedSectionVars false
namespace Pelote
open MeasureTheory

section
variable {V : Type} [LinearOrder V] [PyOrd V] [AttrVal (Val ℝ)]

/-- The number of edges of the multiscale backbone, 0 if it cannot be computed. -/
noncomputable def backboneSize (ulongMax : Nat) (g : Graph V (Val ℝ)) (alpha : ℝ) (attr : String) : ℝ :=
  match multiscaleBackbone ulongMax g alpha attr false with
  | .ok g' => (g'.edges.length : ℝ)
  | .error _ => 0

/-- The edge between `u` and `v` is significant at `u`: with probability at most `alpha`, a share of the strength of `u` cut at
random would be as large. -/
def Graph.SignificantAt (g : Graph V (Val ℝ)) (w : V → V → ℝ) (alpha : ℝ) (u v : V) : Prop := g.pValue w u v none ≤ alpha

/-- What the theorems below ask of a graph: simple, undirected, with positive weights `w` and usable attribute names. -/
structure Filterable (g : Graph V (Val ℝ)) (attr : String) (w : V → V → ℝ) : Prop where
  wf : g.WF
  undirected : g.directed = false
  simple : g.multi = false
  symmetric : ∀ u v, w u v = w v u
  weighted : g.Weighted attr w
  positive : ∀ u v, g.hasEdge u v = true → 0 < w u v
  names : ∀ e ∈ g.edgesData, Graph.EdgeKwSafe g.multi e.2.2

open Classical in
theorem backboneSize_eq (ulongMax : Nat) (ho : OrderedKeys V) {g : Graph V (Val ℝ)} {attr : String} {w : V → V → ℝ}
    (h : Filterable g attr w) (alpha : ℝ) :
    backboneSize ulongMax g alpha attr = (g.edges.map (fun e =>
      if g.SignificantAt w alpha e.1 e.2 ∨ g.SignificantAt w alpha e.2 e.1 then (1 : ℝ) else 0)).sum := by
  obtain ⟨g', h1, -, -, -, -, -, p, h2, h3⟩ := multiscaleBackbone_pValue ulongMax ho h.wf h.undirected h.simple h.symmetric h.weighted
    h.positive alpha h.names
  have he : ∀ g : Graph V (Val ℝ), g.edges = g.edgesData.map (fun e => (e.1, e.2.1)) := by
    intro g
    unfold Graph.edges Graph.edgesData
    rw [List.map_map]
    rfl
  unfold backboneSize
  rw [h1]
  simp only
  rw [he, he, List.length_map, h2, List.map_map]
  have h3 : ∀ e ∈ g.edgesData, (p e = true ↔ g.SignificantAt w alpha e.1 e.2.1 ∨ g.SignificantAt w alpha e.2.1 e.1) :=
    fun e hm => h3 e hm none none
  generalize g.edgesData = l at h3
  induction l with
  | nil => simp
  | cons e l ih =>
    have ih := ih (fun a ha => h3 a (by simp [ha]))
    have := h3 e (by simp)
    rw [List.filter_cons, List.map_cons, List.sum_cons, ← ih]
    by_cases hp : p e = true
    · rw [if_pos hp, List.length_cons]
      simp only [Function.comp]
      rw [if_pos (this.1 hp)]
      push_cast
      ring
    · rw [if_neg hp]
      simp only [Function.comp]
      rw [if_neg (fun h => hp (this.2 h)), zero_add]

variable {Ω : Type} [MeasurableSpace Ω] {μ : Measure Ω} [IsProbabilityMeasure μ]

open Classical in
theorem integral_count {ι : Type} (l : List ι) (S : ι → Set Ω) (hS : ∀ i ∈ l, NullMeasurableSet (S i) μ) :
    Integrable (fun ω => (l.map (fun i => if ω ∈ S i then (1 : ℝ) else 0)).sum) μ ∧
    ∫ ω, (l.map (fun i => if ω ∈ S i then (1 : ℝ) else 0)).sum ∂μ = (l.map (fun i => μ.real (S i))).sum := by
  induction l with
  | nil => simp
  | cons i l ih =>
    obtain ⟨h1, h2⟩ := ih (fun j hj => hS j (by simp [hj]))
    have hi := hS i (by simp)
    have e : (fun ω => if ω ∈ S i then (1 : ℝ) else 0) = (S i).indicator (fun _ => 1) := by
      funext ω
      simp [Set.indicator]
    have hI : Integrable (fun ω => if ω ∈ S i then (1 : ℝ) else 0) μ := by
      rw [e]; exact (integrable_const 1).indicator₀ hi
    simp only [List.map_cons, List.sum_cons]
    refine ⟨hI.add h1, ?_⟩
    rw [integral_add hI h1, h2, e, integral_indicator₀ hi]
    simp

/-- C115.  The expected size of the backbone of a graph with given edges `E` and random weights is the sum of the probabilities
that the edges are significant at one of their ends. -/
theorem backboneSize_expected (ulongMax : Nat) (ho : OrderedKeys V) {G : Ω → Graph V (Val ℝ)} {w : Ω → V → V → ℝ} {attr : String}
    {E : List (V × V)} (hG : ∀ᵐ ω ∂μ, Filterable (G ω) attr (w ω) ∧ (G ω).edges = E) (alpha : ℝ)
    (hS : ∀ e ∈ E, NullMeasurableSet {ω | (G ω).SignificantAt (w ω) alpha e.1 e.2 ∨ (G ω).SignificantAt (w ω) alpha e.2 e.1} μ) :
    ∫ ω, backboneSize ulongMax (G ω) alpha attr ∂μ =
      (E.map (fun e => μ.real {ω | (G ω).SignificantAt (w ω) alpha e.1 e.2 ∨ (G ω).SignificantAt (w ω) alpha e.2 e.1})).sum := by
  classical
  rw [← (integral_count E _ hS).2]
  refine integral_congr_ae ?_
  filter_upwards [hG] with ω h
  rw [backboneSize_eq ulongMax ho h.1, h.2]
  refine congrArg List.sum (List.map_congr_left fun e _ => ?_)
  congr

/-- C115.  Noise: if each edge is significant at each of its ends with probability at most `alpha`, as under the null model, the
backbone keeps at most `2 * alpha` of the edges on average. -/
theorem backboneSize_noise (ulongMax : Nat) (ho : OrderedKeys V) {G : Ω → Graph V (Val ℝ)} {w : Ω → V → V → ℝ} {attr : String}
    {E : List (V × V)} (hG : ∀ᵐ ω ∂μ, Filterable (G ω) attr (w ω) ∧ (G ω).edges = E) (alpha : ℝ)
    (hS : ∀ e ∈ E, NullMeasurableSet {ω | (G ω).SignificantAt (w ω) alpha e.1 e.2} μ ∧
      NullMeasurableSet {ω | (G ω).SignificantAt (w ω) alpha e.2 e.1} μ)
    (h : ∀ e ∈ E, μ.real {ω | (G ω).SignificantAt (w ω) alpha e.1 e.2} ≤ alpha ∧
      μ.real {ω | (G ω).SignificantAt (w ω) alpha e.2 e.1} ≤ alpha) :
    ∫ ω, backboneSize ulongMax (G ω) alpha attr ∂μ ≤ 2 * alpha * E.length := by
  rw [backboneSize_expected ulongMax ho hG alpha (fun e he => (hS e he).1.union (hS e he).2)]
  have : ∀ e ∈ E, μ.real {ω | (G ω).SignificantAt (w ω) alpha e.1 e.2 ∨ (G ω).SignificantAt (w ω) alpha e.2 e.1} ≤ 2 * alpha := by
    intro e he
    refine (measureReal_union_le (μ := μ) {ω | (G ω).SignificantAt (w ω) alpha e.1 e.2} {ω | (G ω).SignificantAt (w ω) alpha e.2 e.1}).trans ?_
    have := h e he
    linarith
  clear hG hS h
  induction E with
  | nil => simp
  | cons e E ih =>
    rw [List.map_cons, List.sum_cons, List.length_cons]
    have h1 := this e (by simp)
    have h2 := ih (fun a ha => this a (by simp [ha]))
    push_cast
    linarith

theorem nullModel_probability (n : Nat) : IsProbabilityMeasure (nullModel n) :=
  ProbabilityTheory.cond_isProbabilityMeasure_of_finite (cuts_volume_ne_zero n) (cuts_volume_ne_top n)

/-- A graph with random weights made of a star: the strength `s` of `u` is cut at random into the weights of its edges, which lead to
leaves. -/
def RandomStar {n : Nat} (G : (Fin n → ℝ) → Graph V (Val ℝ)) (w : (Fin n → ℝ) → V → V → ℝ) (attr : String) (u : V) (s : ℝ)
    (leaves : List (V × Option (Fin n))) : Prop :=
  ∀ y ∈ cuts n, (∀ j, 0 < share y j) → Filterable (G y) attr (w y) ∧ (G y).edges = leaves.map (fun l => (u, l.1)) ∧
    (G y).degree u = n + 1 ∧ (G y).nodeStrength (w y) u = s ∧ ∀ l ∈ leaves, (G y).degree l.1 = 1 ∧ w y u l.1 = share y l.2 * s

section
variable {n : Nat} {G : (Fin n → ℝ) → Graph V (Val ℝ)} {w : (Fin n → ℝ) → V → V → ℝ} {attr : String} {u : V} {s : ℝ}
  {leaves : List (V × Option (Fin n))} {alpha : ℝ}

theorem RandomStar.ae (hG : RandomStar G w attr u s leaves) :
    ∀ᵐ y ∂nullModel n, Filterable (G y) attr (w y) ∧ (G y).edges = leaves.map (fun l => (u, l.1)) := by
  filter_upwards [share_pos_ae n, ProbabilityTheory.ae_cond_mem (cuts_measurable n)] with y hy hc
  obtain ⟨g1, g2, -⟩ := hG y hc hy
  exact ⟨g1, g2⟩

theorem RandomStar.events (hG : RandomStar G w attr u s leaves) (h1 : alpha < 1) {l : V × Option (Fin n)} (hl : l ∈ leaves) :
    ({y | (G y).SignificantAt (w y) alpha u l.1} : Set (Fin n → ℝ)) =ᵐ[nullModel n] {y | (1 - share y l.2) ^ n ≤ alpha} ∧
    ({y | (G y).SignificantAt (w y) alpha l.1 u} : Set (Fin n → ℝ)) =ᵐ[nullModel n] (∅ : Set (Fin n → ℝ)) := by
  have key : ∀ᵐ y ∂nullModel n, ((G y).SignificantAt (w y) alpha u l.1 ↔ (1 - share y l.2) ^ n ≤ alpha) ∧
      ¬ (G y).SignificantAt (w y) alpha l.1 u := by
    filter_upwards [share_pos_ae n, ProbabilityTheory.ae_cond_mem (cuts_measurable n)] with y hy hc
    obtain ⟨g1, g2, g3, g4, g5⟩ := hG y hc hy
    obtain ⟨g6, g7⟩ := g5 l hl
    have he : (G y).hasEdge u l.1 = true := by
      refine (hasEdge_listed g1.wf).2 (.inl ?_)
      rw [g2]
      exact List.mem_map.2 ⟨l, hl, rfl⟩
    have he' : (G y).hasEdge l.1 u = true := by rwa [Graph.hasEdge_comm g1.undirected]
    have hs : 0 < s := by
      have := g1.positive u l.1 he
      rw [g7] at this
      exact (pos_iff_pos_of_mul_pos this).1 (hy l.2)
    unfold Graph.SignificantAt
    rw [pValue_eq g1.wf g1.symmetric g1.positive he, pValue_eq g1.wf g1.symmetric g1.positive he', g3, g4, g6, g7,
      mul_div_assoc, div_self hs.ne', mul_one]
    simp only [Nat.add_sub_cancel, Nat.sub_self, pow_zero]
    exact ⟨by simp, not_le.2 h1⟩
  constructor
  · filter_upwards [key] with y hy
    exact propext hy.1
  · filter_upwards [key] with y hy
    exact eq_false hy.2

/-- C115.  On a star, the expected size of the backbone is `alpha` times the number of edges, exactly. -/
theorem backboneSize_star (ulongMax : Nat) (ho : OrderedKeys V) (hn : n ≠ 0) (hG : RandomStar G w attr u s leaves)
    (h0 : 0 ≤ alpha) (h1 : alpha < 1) :
    ∫ y, backboneSize ulongMax (G y) alpha attr ∂nullModel n = alpha * leaves.length := by
  have := nullModel_probability n
  have key : ∀ l ∈ leaves, ({y | (G y).SignificantAt (w y) alpha u l.1 ∨ (G y).SignificantAt (w y) alpha l.1 u} : Set (Fin n → ℝ))
      =ᵐ[nullModel n] {y | (1 - share y l.2) ^ n ≤ alpha} := by
    intro l hl
    have := (hG.events h1 hl).1.union (hG.events h1 hl).2
    rwa [Set.union_empty] at this
  rw [backboneSize_expected (μ := nullModel n) (E := leaves.map (fun l => (u, l.1))) ulongMax ho (w := w) hG.ae alpha ?_]
  · rw [List.map_map]
    have : ∀ l ∈ leaves, ((fun e : V × V => (nullModel n).real {y | (G y).SignificantAt (w y) alpha e.1 e.2 ∨
        (G y).SignificantAt (w y) alpha e.2 e.1}) ∘ fun l : V × Option (Fin n) => (u, l.1)) l = alpha := by
      intro l hl
      exact (measureReal_congr (key l hl)).trans (nullModel_level hn l.2 h0 h1.le)
    rw [List.map_congr_left this, List.map_const', List.sum_replicate, nsmul_eq_mul, mul_comm]
  · intro e he
    obtain ⟨l, hl, rfl⟩ := List.mem_map.1 he
    exact (score_measurable l.2 alpha).nullMeasurableSet.congr (key l hl).symm

/-- A star meets the hypotheses of `backboneSize_noise`. -/
theorem RandomStar.noise (hn : n ≠ 0) (hG : RandomStar G w attr u s leaves) (h0 : 0 ≤ alpha) (h1 : alpha < 1) :
    ∀ e ∈ leaves.map (fun l => (u, l.1)), (NullMeasurableSet {y | (G y).SignificantAt (w y) alpha e.1 e.2} (nullModel n) ∧
      NullMeasurableSet {y | (G y).SignificantAt (w y) alpha e.2 e.1} (nullModel n)) ∧
      (nullModel n).real {y | (G y).SignificantAt (w y) alpha e.1 e.2} ≤ alpha ∧
      (nullModel n).real {y | (G y).SignificantAt (w y) alpha e.2 e.1} ≤ alpha := by
  intro e he
  obtain ⟨l, hl, rfl⟩ := List.mem_map.1 he
  obtain ⟨e1, e2⟩ := hG.events h1 hl
  refine ⟨⟨(score_measurable l.2 alpha).nullMeasurableSet.congr e1.symm, MeasurableSet.empty.nullMeasurableSet.congr e2.symm⟩, ?_, ?_⟩
  · rw [measureReal_congr e1, nullModel_level hn l.2 h0 h1.le]
  · rw [measureReal_congr e2]
    simpa using h0

end
end

theorem cutPath_star [AttrVal (Val ℝ)] : RandomStar cutPath cutPathWeights "weight" 0 10 [(1, some 0), (2, none)] := by
  intro y _ hy
  obtain ⟨c1, c2, c3, c4, c5, c6, c7, c8, c9, c10, c11⟩ := cutPath_meets y hy
  refine ⟨⟨c1, c2, c3, c4, c5, c6, ?_⟩, rfl, c8, c10, ?_⟩
  · intro e he
    have hed : (cutPath y).edgesData = [(0, 1, [(.str "weight", .num (share y (some 0) * 10))]),
      (0, 2, [(.str "weight", .num (share y none * 10))])] := rfl
    rw [hed] at he
    simp only [List.mem_cons, List.not_mem_nil, or_false] at he
    rcases he with rfl | rfl <;> (intro k hk; simp [Dict.keys] at hk; subst hk; simp [cutPath])
  · intro l hl
    simp only [List.mem_cons, List.not_mem_nil, or_false] at hl
    rcases hl with rfl | rfl
    · exact ⟨rfl, rfl⟩
    · exact ⟨rfl, rfl⟩

/-- A node with two leaves, whose strength 10 is cut at random: one edge in ten is kept at the level 1/10. -/
theorem backboneSize_cutPath [AttrVal (Val ℝ)] (ulongMax : Nat) :
    ∫ y, backboneSize ulongMax (cutPath y) (1 / 10) "weight" ∂nullModel 1 = 1 / 5 := by
  rw [backboneSize_star ulongMax (fun _ _ => rfl) one_ne_zero cutPath_star (by norm_num) (by norm_num)]
  norm_num

/-- Hence the hypotheses of `backboneSize_noise` hold there. -/
example [AttrVal (Val ℝ)] (ulongMax : Nat) : ∫ y, backboneSize ulongMax (cutPath y) (1 / 10) "weight" ∂nullModel 1 ≤ 2 * (1 / 10) * 2 := by
  have := nullModel_probability 1
  have hn := cutPath_star.noise one_ne_zero (alpha := 1 / 10) (by norm_num) (by norm_num)
  exact backboneSize_noise ulongMax (fun _ _ => rfl) cutPath_star.ae _ (fun e he => (hn e he).1) (fun e he => (hn e he).2)

end Pelote
