import Verif.Lemmas.Sparsification
import Verif.Spec.Sparsification
import Verif.Spec.Components
import Verif.Props.GraphEdit
import Verif.Props.SpanningTrees
import Verif.Props.Disparity

/-! C32-C37 and C59: sparsification. -/
set_option linter.unusedSectionVars false
namespace Pelote
open Graph
open scoped List
variable {V K : Type} [DecidableEq V] [Field K] [LinearOrder K]

/-- The predicate made for `g` by the factory answers `p` on every edge of `g`, without raising. -/
def FactoryAnswers {A : Type} (factory : PredFactory V A) (g : Graph V A) (p : V → V → Attrs A → Bool) : Prop :=
  ∃ pred, factory g = .ok pred ∧ EdgeAnswers g pred p

theorem edges_eq_map {A : Type} (g : Graph V A) : g.edges = g.edgesData.map (fun e => (e.1, e.2.1)) := by
  simp [edges, edgesData]

theorem answers_keyed {A : Type} {g : Graph V A} {pred : EdgePred V A} {p : V → V → Attrs A → Bool}
    (h : EdgeAnswers g pred p) : ∀ e ∈ g.edgesKeys, pred e.1 e.2.1 e.2.2.2 = .ok (p e.1 e.2.1 e.2.2.2) :=
  fun e he => h (e.1, e.2.1, e.2.2.2) (List.mem_map.2 ⟨e, he, rfl⟩)

/-- Is the pair among the edges of the union of maximum spanning trees? -/
def inUmst (ulongMax : Nat) (g : Graph V (Val K)) (u v : V) : Bool :=
  decide ((u, v) ∈ (unionOfMaximumSpanningTrees ulongMax g "weight").yields.map (fun e => (e.1, e.2.1)))

theorem decorated_answers {ulongMax : Nat} {factory : PredFactory V (Val K)} {g : Graph V (Val K)}
    {p : V → V → Attrs (Val K) → Bool} (hF : FactoryAnswers factory g p)
    (hu : (unionOfMaximumSpanningTrees ulongMax g "weight").err = none) :
    FactoryAnswers (decorateWithUmst ulongMax factory) g (fun u v a => p u v a || inUmst ulongMax g u v) := by
  obtain ⟨pred, h1, h2⟩ := hF
  unfold FactoryAnswers decorateWithUmst
  rw [h1, hu]
  refine ⟨_, rfl, ?_⟩
  intro e he
  simp only [h2 e he]
  cases p e.1 e.2.1 e.2.2 <;> rfl

theorem default_generator {A : Type} {factory : PredFactory V A} {g : Graph V A} {p : V → V → Attrs A → Bool}
    (hF : FactoryAnswers factory g p) (want : Bool) :
    defaultGenerator want factory g = ⟨g.edgesKeys.filter (fun e => p e.1 e.2.1 e.2.2.2 == want), none⟩ := by
  obtain ⟨pred, h1, h2⟩ := hF
  unfold defaultGenerator
  rw [h1]
  exact yieldWhen_ok want (answers_keyed h2)

/-- The verdict of a sparsifier built from a predicate: the predicate, or the spanning trees when
`keep_connected` is set. -/
def verdict (ulongMax : Nat) (g : Graph V (Val K)) (keepConnected : Bool) (p : V → V → Attrs (Val K) → Bool) :
    V → V → Attrs (Val K) → Bool :=
  fun u v a => p u v a || (keepConnected && inUmst ulongMax g u v)

theorem make_factory [PyOrd V] {ulongMax : Nat} {factory : PredFactory V (Val K)} {keepConnected : Bool}
    {s : Sparsifier V (Val K)} (hs : Sparsifier.make ulongMax (some factory) none none keepConnected = .ok s) :
    s.relevant = defaultGenerator true s.factory ∧ s.redundant = defaultGenerator false s.factory ∧
      s.factory = if keepConnected then decorateWithUmst ulongMax factory else factory := by
  simp only [Sparsifier.make] at hs
  cases hs
  exact ⟨rfl, rfl, rfl⟩

theorem make_answers [PyOrd V] {ulongMax : Nat} {factory : PredFactory V (Val K)} {keepConnected : Bool}
    {s : Sparsifier V (Val K)} (hs : Sparsifier.make ulongMax (some factory) none none keepConnected = .ok s)
    {g : Graph V (Val K)} {p : V → V → Attrs (Val K) → Bool} (hF : FactoryAnswers factory g p)
    (hu : keepConnected = true → (unionOfMaximumSpanningTrees ulongMax g "weight").err = none) :
    FactoryAnswers s.factory g (verdict ulongMax g keepConnected p) := by
  rw [(make_factory hs).2.2]
  cases keepConnected with
  | false =>
    obtain ⟨pred, h1, h2⟩ := hF
    refine ⟨pred, h1, ?_⟩
    intro e he
    rw [h2 e he]
    simp [verdict]
  | true =>
    obtain ⟨pred, h1, h2⟩ := decorated_answers hF (hu rfl)
    refine ⟨pred, h1, ?_⟩
    intro e he
    rw [h2 e he]
    simp [verdict]

theorem filter_eq [AttrVal (Val K)] {s : Sparsifier V (Val K)} (hs : s.relevant = defaultGenerator true s.factory)
    {g : Graph V (Val K)} {pred : EdgePred V (Val K)} (hp : s.factory g = .ok pred) :
    s.filter g = filterEdges g pred := by
  unfold Sparsifier.filter filterEdges
  rw [hs]
  unfold defaultGenerator
  rw [hp]
  exact filterLoop_eq pred g.edgesKeys g.createEmptyCopy

theorem remove_eq {s : Sparsifier V (Val K)} (hs : s.redundant = defaultGenerator false s.factory)
    {g : Graph V (Val K)} (hm : g.multi = false) {pred : EdgePred V (Val K)} (hp : s.factory g = .ok pred) :
    s.remove g = removeEdges g pred := by
  unfold Sparsifier.remove removeEdges
  rw [hs, ← edgesKeys_strip, edgesToDrop_eq]
  unfold defaultGenerator
  rw [hp]
  simp only
  cases (yieldWhen false pred g.edgesKeys).err with
  | some e => rfl
  | none => simp [hm]

/-! ### C34: relevant and redundant edges -/

/-- A sparsifier can be built from anything but three `None`s. -/
theorem sparsifier_needs_argument [PyOrd V] (ulongMax : Nat) (factory : Option (PredFactory V (Val K)))
    (relevant redundant : Option (EdgeGen V (Val K))) (keepConnected : Bool) :
    (∃ m, Sparsifier.make ulongMax factory relevant redundant keepConnected = .error (.typeError m)) ↔
      factory = none ∧ relevant = none ∧ redundant = none := by
  rcases factory with _ | f <;> rcases relevant with _ | r <;> rcases redundant with _ | d <;>
    simp [Sparsifier.make]

/-- C34.  Generators given to the constructor are used as they are; a missing one follows the predicate
factory, if there is one. -/
theorem sparsifier_given_generators [PyOrd V] {ulongMax : Nat} {factory : Option (PredFactory V (Val K))}
    {relevant redundant : Option (EdgeGen V (Val K))} {keepConnected : Bool} {s : Sparsifier V (Val K)}
    (hs : Sparsifier.make ulongMax factory relevant redundant keepConnected = .ok s) :
    (∀ r, relevant = some r → s.relevant = r) ∧ (∀ d, redundant = some d → s.redundant = d) ∧
      (relevant = none → s.relevant = defaultGenerator true s.factory) ∧
      (redundant = none → s.redundant = defaultGenerator false s.factory) ∧
      (∀ f, factory = some f → s.factory = if keepConnected then decorateWithUmst ulongMax f else f) := by
  unfold Sparsifier.make at hs
  cases factory <;> cases relevant <;> cases redundant <;> cases hs <;> simp

/-- C34.  For a sparsifier built from a predicate, with `keep_connected` or not, on any kind of graph: the
relevant and the redundant edges are the edges on which one and the same verdict is positive and negative, in
listing order; the verdict is that of the predicate, except that `keep_connected` also accepts the pairs of
the union of maximum spanning trees. -/
theorem sparsifier_partition [PyOrd V] (ulongMax : Nat) (factory : PredFactory V (Val K)) (keepConnected : Bool) :
    ∃ s, Sparsifier.make ulongMax (some factory) none none keepConnected = .ok s ∧
      ∀ (g : Graph V (Val K)) (p : V → V → Attrs (Val K) → Bool), FactoryAnswers factory g p →
        (keepConnected = true → (unionOfMaximumSpanningTrees ulongMax g "weight").err = none) →
        ∃ q : KeyedEdge V (Val K) → Bool,
          (∀ u v k a, q (u, v, k, a) = true ↔ p u v a = true ∨
            keepConnected = true ∧ ∃ b, (u, v, b) ∈ (unionOfMaximumSpanningTrees ulongMax g "weight").yields) ∧
          s.relevant g = ⟨g.edgesKeys.filter q, none⟩ ∧
          s.redundant g = ⟨g.edgesKeys.filter (fun e => !q e), none⟩ := by
  refine ⟨_, rfl, ?_⟩
  intro g p hF hu
  have hA := make_answers (s := _) rfl hF hu
  refine ⟨fun e => verdict ulongMax g keepConnected p e.1 e.2.1 e.2.2.2, ?_, ?_, ?_⟩
  · intro u v k a
    simp [verdict, inUmst]
  · refine (default_generator hA true).trans ?_
    congr 1
    apply List.filter_congr
    intro e _
    simp
  · refine (default_generator hA false).trans ?_
    congr 1
    apply List.filter_congr
    intro e _
    simp

/-- C34, raising included: the two generators end in the same way. -/
theorem sparsifier_same_error [PyOrd V] {ulongMax : Nat} {factory : PredFactory V (Val K)} {keepConnected : Bool}
    {s : Sparsifier V (Val K)} (hs : Sparsifier.make ulongMax (some factory) none none keepConnected = .ok s)
    (g : Graph V (Val K)) : (s.relevant g).err = (s.redundant g).err := by
  obtain ⟨h1, h2, -⟩ := make_factory hs
  rw [h1, h2]
  unfold defaultGenerator
  cases s.factory g with
  | error e => rfl
  | ok pred => exact yieldWhen_err _ _ _ _

/-- C34.  `filter` returns a copy with the same nodes and exactly the relevant edges. -/
theorem sparsifier_filter [PyOrd V] [AttrVal (Val K)] {ulongMax : Nat} {factory : PredFactory V (Val K)}
    {keepConnected : Bool} {s : Sparsifier V (Val K)}
    (hs : Sparsifier.make ulongMax (some factory) none none keepConnected = .ok s)
    {g : Graph V (Val K)} (h : g.WF) {p : V → V → Attrs (Val K) → Bool} (hF : FactoryAnswers factory g p)
    (hu : keepConnected = true → (unionOfMaximumSpanningTrees ulongMax g "weight").err = none)
    (hkw : ∀ e ∈ g.edgesData, EdgeKwSafe g.multi e.2.2) :
    ∃ g', s.filter g = .ok g' ∧ g'.WF ∧ g'.directed = g.directed ∧ g'.multi = g.multi ∧ g'.attrs = g.attrs ∧
      g'.node = g.node ∧ g'.edgesData = (s.relevant g).yields.map (fun e => (e.1, e.2.1, e.2.2.2)) := by
  have hA := make_answers hs hF hu
  obtain ⟨h1, -, -⟩ := make_factory hs
  have hrel : (s.relevant g).yields = g.edgesKeys.filter
      (fun e => verdict ulongMax g keepConnected p e.1 e.2.1 e.2.2.2 == true) := by
    rw [h1, default_generator hA true]
  obtain ⟨pred, hp, ha⟩ := hA
  rw [filter_eq h1 hp]
  obtain ⟨g', e1, e2, e3, e4, e5, e6, e7⟩ := filterEdges_exact h ha (fun e he _ => hkw e he)
  refine ⟨g', e1, e2, e3, e4, e5, e6, ?_⟩
  rw [e7, hrel]
  unfold edgesData
  rw [List.filter_map]
  congr 1
  apply List.filter_congr
  intro e _
  simp

/-! ### C32: global threshold -/

theorem hasNumber_toNum {attr : String} {a : Attrs (Val K)} {w : K} :
    HasNumber attr a w ↔ ∃ x, a.get? (.str attr) = some x ∧ x.toNum = .ok w := by
  unfold HasNumber
  constructor
  · rintro (h | ⟨h, rfl⟩ | ⟨h, rfl⟩)
    · exact ⟨_, h, rfl⟩
    · exact ⟨_, h, rfl⟩
    · exact ⟨_, h, rfl⟩
  · rintro ⟨x, h, hx⟩
    cases x with
    | none => cases hx
    | bool b => cases b <;> cases hx <;> simp [h]
    | num k => cases hx; simp [h]
    | str s => cases hx
    | obj a b => cases hx

theorem HasNumber.unique {attr : String} {a : Attrs (Val K)} {w w' : K} (h : HasNumber attr a w)
    (h' : HasNumber attr a w') : w = w' := by
  rw [hasNumber_toNum] at h h'
  obtain ⟨x, h1, h2⟩ := h
  obtain ⟨y, h3, h4⟩ := h'
  rw [h1] at h3
  cases h3
  rw [h2] at h4
  cases h4
  rfl

open Classical in
theorem threshold_answers {g : Graph V (Val K)} {attr : String} (t : K) (reverse : Bool)
    (hw : ∀ e ∈ g.edgesData, ∃ w, HasNumber attr e.2.2 w) :
    FactoryAnswers (fun _ => .ok (thresholdPredicate (V := V) t attr reverse)) g
      (fun _ _ a => decide (Reaches t attr reverse a)) := by
  refine ⟨_, rfl, ?_⟩
  intro e he
  obtain ⟨w, hw⟩ := hw e he
  obtain ⟨x, h1, h2⟩ := hasNumber_toNum.1 hw
  unfold thresholdPredicate Dict.getItem
  simp only [h1, h2]
  congr 1
  have : Reaches t attr reverse e.2.2 ↔ if reverse = true then w ≤ t else t ≤ w := by
    unfold Reaches
    constructor
    · rintro ⟨w', h3, h4⟩
      rw [hw.unique h3]; exact h4
    · exact fun h => ⟨w, hw, h⟩
  rw [Bool.eq_iff_iff, decide_eq_true_eq, this]
  cases reverse <;> simp

open Classical in
/-- C32.  When every edge carries a number under the attribute: the result has the same kind, graph attributes
and nodes, and its edges are exactly the edges of weight at least `t` (at most `t` with `reverse`), in order;
with `keep_connected`, the pairs of the union of maximum spanning trees as well. -/
theorem globalThreshold_exact [PyOrd V] [AttrVal (Val K)] (ulongMax : Nat) {g : Graph V (Val K)} (h : g.WF) (t : K)
    {attr : String} (reverse keepConnected : Bool) (hw : ∀ e ∈ g.edgesData, ∃ w, HasNumber attr e.2.2 w)
    (hu : keepConnected = true → (unionOfMaximumSpanningTrees ulongMax g "weight").err = none)
    (hkw : ∀ e ∈ g.edgesData, EdgeKwSafe g.multi e.2.2) :
    ∃ g', globalThresholdSparsification ulongMax g t attr reverse keepConnected = .ok g' ∧ g'.WF ∧
      g'.directed = g.directed ∧ g'.multi = g.multi ∧ g'.attrs = g.attrs ∧ g'.node = g.node ∧
      g'.edgesData = g.edgesData.filter (fun e => decide (Reaches t attr reverse e.2.2 ∨ keepConnected = true ∧
        ∃ b, (e.1, e.2.1, b) ∈ (unionOfMaximumSpanningTrees ulongMax g "weight").yields)) := by
  obtain ⟨s, hs, hpart⟩ := sparsifier_partition ulongMax
    (fun _ => .ok (thresholdPredicate (V := V) t attr reverse)) keepConnected
  have hA := threshold_answers t reverse hw
  obtain ⟨g', e1, e2, e3, e4, e5, e6, e7⟩ := sparsifier_filter hs h hA hu hkw
  refine ⟨g', ?_, e2, e3, e4, e5, e6, ?_⟩
  · unfold globalThresholdSparsification globalThresholdSparsifier
    rw [hs]; exact e1
  · obtain ⟨q, hq, hrel, -⟩ := hpart g _ hA hu
    rw [e7, hrel]
    unfold edgesData
    rw [List.filter_map]
    congr 1
    apply List.filter_congr
    rintro ⟨u, v, k, a⟩ _
    rw [Bool.eq_iff_iff, hq]
    simp

theorem reaches_mono {t t' : K} {attr : String} {a : Attrs (Val K)} (ht : t ≤ t') (h : Reaches t' attr false a) :
    Reaches t attr false a := by
  obtain ⟨w, h1, h2⟩ := h
  exact ⟨w, h1, ht.trans h2⟩

/-- C32.  A higher threshold keeps a subset of the edges. -/
theorem globalThreshold_monotone [PyOrd V] [AttrVal (Val K)] (ulongMax : Nat) {g : Graph V (Val K)} (h : g.WF)
    {t t' : K} (ht : t ≤ t') {attr : String} (hw : ∀ e ∈ g.edgesData, ∃ w, HasNumber attr e.2.2 w)
    (hkw : ∀ e ∈ g.edgesData, EdgeKwSafe g.multi e.2.2) :
    ∃ g₁ g₂, globalThresholdSparsification ulongMax g t attr false false = .ok g₁ ∧
      globalThresholdSparsification ulongMax g t' attr false false = .ok g₂ ∧ g₂.edgesData <+ g₁.edgesData := by
  classical
  obtain ⟨g₁, a1, -, -, -, -, -, a2⟩ := globalThreshold_exact ulongMax h t false false hw (by simp) hkw
  obtain ⟨g₂, b1, -, -, -, -, -, b2⟩ := globalThreshold_exact ulongMax h t' false false hw (by simp) hkw
  refine ⟨g₁, g₂, a1, b1, ?_⟩
  rw [a2, b2]
  apply List.monotone_filter_right
  intro e he
  simp only [Bool.false_eq_true, false_and, or_false, decide_eq_true_eq] at he ⊢
  exact reaches_mono ht he

/-- C32.  Sparsifying again with the same threshold changes nothing. -/
theorem globalThreshold_idempotent [PyOrd V] [AttrVal (Val K)] (ulongMax : Nat) {g : Graph V (Val K)} (h : g.WF) (t : K)
    {attr : String} (reverse : Bool) (hw : ∀ e ∈ g.edgesData, ∃ w, HasNumber attr e.2.2 w)
    (hkw : ∀ e ∈ g.edgesData, EdgeKwSafe g.multi e.2.2) :
    ∃ g₁ g₂, globalThresholdSparsification ulongMax g t attr reverse false = .ok g₁ ∧
      globalThresholdSparsification ulongMax g₁ t attr reverse false = .ok g₂ ∧
      g₂.directed = g₁.directed ∧ g₂.multi = g₁.multi ∧ g₂.attrs = g₁.attrs ∧ g₂.node = g₁.node ∧
      g₂.edgesData = g₁.edgesData := by
  classical
  obtain ⟨g₁, a1, a2, -, a3, -, -, a4⟩ := globalThreshold_exact ulongMax h t reverse false hw (by simp) hkw
  have hsub : ∀ e ∈ g₁.edgesData, e ∈ g.edgesData := by
    intro e he; rw [a4] at he; exact (List.mem_filter.1 he).1
  obtain ⟨g₂, b1, -, b2, b3, b4, b5, b6⟩ := globalThreshold_exact ulongMax a2 t reverse false
    (fun e he => hw e (hsub e he)) (by simp) (fun e he => by rw [a3]; exact hkw e (hsub e he))
  refine ⟨g₁, g₂, a1, b1, b2, b3, b4, b5, ?_⟩
  rw [b6, List.filter_eq_self]
  intro e he
  rw [a4] at he
  have := (List.mem_filter.1 he).2
  simpa using this

theorem filterEdgesLoop_raises {A : Type} [AttrVal A] {pred : EdgePred V A} {err : PyErr}
    {es : List (V × V × Attrs A)} {copy : Graph V A}
    (hp : ∀ e ∈ es, pred e.1 e.2.1 e.2.2 = .error err ∨ ∃ b, pred e.1 e.2.1 e.2.2 = .ok b)
    (hkw : ∀ e ∈ es, EdgeKwSafe copy.multi e.2.2) (hbad : ∃ e ∈ es, pred e.1 e.2.1 e.2.2 = .error err) :
    filterEdgesLoop pred es copy = .error err := by
  induction es generalizing copy with
  | nil => obtain ⟨e, he, -⟩ := hbad; cases he
  | cons e es ih =>
    obtain ⟨u, v, a⟩ := e
    simp only [filterEdgesLoop]
    rcases hp (u, v, a) (by simp) with h1 | ⟨b, h1⟩
    · simp only at h1; rw [h1]
    · simp only at h1
      have hbad' : ∃ e ∈ es, pred e.1 e.2.1 e.2.2 = .error err := by
        obtain ⟨e, he, he'⟩ := hbad
        rcases List.mem_cons.1 he with rfl | he
        · simp only at he'; rw [h1] at he'; cases he'
        · exact ⟨e, he, he'⟩
      rw [h1]
      cases b with
      | false => exact ih (fun e he => hp e (by simp [he])) (fun e he => hkw e (by simp [he])) hbad'
      | true =>
        simp only
        rw [addEdge_ok (hkw (u, v, a) (by simp))]
        refine ih (fun e he => hp e (by simp [he])) (fun e he => ?_) hbad'
        rw [addEdgeCore_multi]; exact hkw e (by simp [he])

/-- C32.  `KeyError` is raised exactly when some edge lacks the attribute (the attribute being a number where
it is present). -/
theorem globalThreshold_keyError [PyOrd V] [AttrVal (Val K)] (ulongMax : Nat) {g : Graph V (Val K)} (h : g.WF) (t : K)
    {attr : String} (reverse : Bool)
    (hw : ∀ e ∈ g.edgesData, e.2.2.get? (.str attr) = none ∨ ∃ w, HasNumber attr e.2.2 w)
    (hkw : ∀ e ∈ g.edgesData, EdgeKwSafe g.multi e.2.2) :
    globalThresholdSparsification ulongMax g t attr reverse false = .error .keyError ↔
      ∃ e ∈ g.edgesData, e.2.2.get? (.str attr) = none := by
  constructor
  · intro hk
    by_contra hne
    push Not at hne
    obtain ⟨g', h1, -⟩ := globalThreshold_exact ulongMax h t reverse false
      (fun e he => (hw e he).resolve_left (hne e he)) (by simp) hkw
    rw [hk] at h1
    cases h1
  · rintro ⟨e, he, hn⟩
    have hnone : ∀ e : V × V × Attrs (Val K), e.2.2.get? (.str attr) = none →
        thresholdPredicate t attr reverse e.1 e.2.1 e.2.2 = .error .keyError := by
      intro e hn
      unfold thresholdPredicate Dict.getItem
      rw [hn]
    obtain ⟨s, hs, -⟩ := sparsifier_partition ulongMax
      (fun _ => .ok (thresholdPredicate (V := V) t attr reverse)) false
    have hf : s.factory = fun _ => .ok (thresholdPredicate (V := V) t attr reverse) := (make_factory hs).2.2
    unfold globalThresholdSparsification globalThresholdSparsifier
    rw [hs]
    simp only
    rw [filter_eq (make_factory hs).1 (g := g) (pred := thresholdPredicate t attr reverse) (by rw [hf])]
    refine filterEdgesLoop_raises (fun e he => ?_) hkw ⟨e, he, hnone e hn⟩
    rcases hw e he with h1 | ⟨w, h1⟩
    · exact .inl (hnone e h1)
    · obtain ⟨x, h2, h3⟩ := hasNumber_toNum.1 h1
      right
      unfold thresholdPredicate Dict.getItem
      simp only [h2, h3]
      exact ⟨_, rfl⟩

/-! ### C33: multiscale backbone -/

section
variable {W : Type} [LinearOrder W]

theorem disparity_comm {g : Graph W (Val K)} {w : W → W → K} (hsym : ∀ u v, w u v = w v u) (u v : W) :
    g.disparity w u v = g.disparity w v u := by
  unfold Graph.disparity
  rw [hsym v u, min_comm]

theorem disparity_answers [IsStrictOrderedRing K] [PyOrd W] (ho : OrderedKeys W) {g : Graph W (Val K)}
    (h : g.WF) (hd : g.directed = false) (hm : g.multi = false) {attr : String} {w : W → W → K}
    (hsym : ∀ u v, w u v = w v u) (hw : g.Weighted attr w)
    (hpos : ∀ u v, g.hasEdge u v = true → 0 < w u v) (alpha : K) :
    FactoryAnswers (backboneFactory alpha attr) g
      (fun u v _ => decide (g.disparity w u v ≤ alpha)) := by
  obtain ⟨d, h1, -, h3, -⟩ := edgeDisparity_positive ho h hd hm hsym hw hpos
  refine ⟨disparityPredicate d alpha, by rw [backboneFactory, backboneFactoryA]; rw [backboneFactoryN]; simp only [edgeDisparity, edgeDisparityA] at h1; simp only [h1], ?_⟩
  rintro ⟨u, v, a⟩ he
  have hedge : g.hasEdge u v = true :=
    (hasEdge_listed h).2 (.inl (by rw [edges_eq_map]; exact List.mem_map.2 ⟨_, he, rfl⟩))
  unfold disparityPredicate Dict.getItem
  simp only [ho u v]
  by_cases hlt : v < u
  · have : d.get? (v, u) = some (g.disparity w v u) :=
      (h3 _ _ _).2 ⟨hlt.le, by rw [Graph.hasEdge_comm hd]; exact hedge, rfl⟩
    simp only [decide_eq_true hlt, if_true, this, disparity_comm hsym v u]
  · have : d.get? (u, v) = some (g.disparity w u v) := (h3 _ _ _).2 ⟨not_lt.1 hlt, hedge, rfl⟩
    simp only [decide_eq_false hlt, Bool.false_eq_true, if_false, this]

open Classical in
/-- C33.  On a simple undirected graph with positive weights: the backbone has the same nodes, and its edges
are exactly the edges of disparity at most `alpha`, in order; with `keep_connected`, the pairs of the union of
maximum spanning trees as well. -/
theorem multiscaleBackbone_exact [IsStrictOrderedRing K] [PyOrd W] [AttrVal (Val K)]
    (ulongMax : Nat) (ho : OrderedKeys W) {g : Graph W (Val K)}
    (h : g.WF) (hd : g.directed = false) (hm : g.multi = false) {attr : String} {w : W → W → K}
    (hsym : ∀ u v, w u v = w v u) (hw : g.Weighted attr w)
    (hpos : ∀ u v, g.hasEdge u v = true → 0 < w u v) (alpha : K) (keepConnected : Bool)
    (hu : keepConnected = true → (unionOfMaximumSpanningTrees ulongMax g "weight").err = none)
    (hkw : ∀ e ∈ g.edgesData, EdgeKwSafe g.multi e.2.2) :
    ∃ g', multiscaleBackbone ulongMax g alpha attr keepConnected = .ok g' ∧ g'.WF ∧
      g'.directed = g.directed ∧ g'.multi = g.multi ∧ g'.attrs = g.attrs ∧ g'.node = g.node ∧
      g'.edgesData = g.edgesData.filter (fun e => decide (g.disparity w e.1 e.2.1 ≤ alpha ∨ keepConnected = true ∧
        ∃ b, (e.1, e.2.1, b) ∈ (unionOfMaximumSpanningTrees ulongMax g "weight").yields)) := by
  have hA := disparity_answers ho h hd hm hsym hw hpos alpha
  obtain ⟨s, hs, hpart⟩ := sparsifier_partition ulongMax
    (backboneFactory (V := W) alpha attr) keepConnected
  obtain ⟨g', e1, e2, e3, e4, e5, e6, e7⟩ := sparsifier_filter hs h hA hu hkw
  refine ⟨g', ?_, e2, e3, e4, e5, e6, ?_⟩
  · unfold multiscaleBackbone multiscaleBackboneSparsifier
    rw [hs]; exact e1
  · obtain ⟨q, hq, hrel, -⟩ := hpart g _ hA hu
    rw [e7, hrel]
    unfold edgesData
    rw [List.filter_map]
    congr 1
    apply List.filter_congr
    rintro ⟨u, v, k, a⟩ _
    rw [Bool.eq_iff_iff, hq]
    simp

/-- C33.  Raising `alpha` keeps a superset of the edges. -/
theorem multiscaleBackbone_monotone [IsStrictOrderedRing K] [PyOrd W] [AttrVal (Val K)]
    (ulongMax : Nat) (ho : OrderedKeys W) {g : Graph W (Val K)}
    (h : g.WF) (hd : g.directed = false) (hm : g.multi = false) {attr : String} {w : W → W → K}
    (hsym : ∀ u v, w u v = w v u) (hw : g.Weighted attr w)
    (hpos : ∀ u v, g.hasEdge u v = true → 0 < w u v) {alpha beta : K} (hab : alpha ≤ beta)
    (hkw : ∀ e ∈ g.edgesData, EdgeKwSafe g.multi e.2.2) :
    ∃ g₁ g₂, multiscaleBackbone ulongMax g alpha attr false = .ok g₁ ∧
      multiscaleBackbone ulongMax g beta attr false = .ok g₂ ∧ g₁.edgesData <+ g₂.edgesData := by
  classical
  obtain ⟨g₁, a1, -, -, -, -, -, a2⟩ :=
    multiscaleBackbone_exact ulongMax ho h hd hm hsym hw hpos alpha false (by simp) hkw
  obtain ⟨g₂, b1, -, -, -, -, -, b2⟩ :=
    multiscaleBackbone_exact ulongMax ho h hd hm hsym hw hpos beta false (by simp) hkw
  refine ⟨g₁, g₂, a1, b1, ?_⟩
  rw [a2, b2]
  apply List.monotone_filter_right
  intro e he
  simp only [Bool.false_eq_true, false_and, or_false, decide_eq_true_eq] at he ⊢
  exact he.trans hab

/-- C33.  The extreme values: nothing is dropped from `alpha = 1` on, and below 0 everything is. -/
theorem multiscaleBackbone_extremes [IsStrictOrderedRing K] [PyOrd W] [AttrVal (Val K)]
    (ulongMax : Nat) (ho : OrderedKeys W) {g : Graph W (Val K)}
    (h : g.WF) (hd : g.directed = false) (hm : g.multi = false) {attr : String} {w : W → W → K}
    (hsym : ∀ u v, w u v = w v u) (hw : g.Weighted attr w)
    (hpos : ∀ u v, g.hasEdge u v = true → 0 < w u v) {alpha : K}
    (hkw : ∀ e ∈ g.edgesData, EdgeKwSafe g.multi e.2.2) :
    ∃ g', multiscaleBackbone ulongMax g alpha attr false = .ok g' ∧
      (1 ≤ alpha → g'.edgesData = g.edgesData) ∧ (alpha < 0 → g'.edgesData = []) := by
  classical
  obtain ⟨g', a1, -, -, -, -, -, a2⟩ :=
    multiscaleBackbone_exact ulongMax ho h hd hm hsym hw hpos alpha false (by simp) hkw
  have hr : ∀ e ∈ g.edgesData, 0 ≤ g.disparity w e.1 e.2.1 ∧ g.disparity w e.1 e.2.1 ≤ 1 := by
    intro e he
    exact (disparity_range h hd hsym hpos ((hasEdge_listed h).2 (.inl (by
      rw [edges_eq_map]; exact List.mem_map.2 ⟨_, he, rfl⟩)))).2
  refine ⟨g', a1, ?_, ?_⟩
  · intro h1
    rw [a2, List.filter_eq_self]
    intro e he
    simp [(hr e he).2.trans h1]
  · intro h1
    rw [a2, List.filter_eq_nil_iff]
    intro e he
    simp [h1.trans_le (hr e he).1]

/-- C33.  Directed graphs and multigraphs are refused. -/
theorem multiscaleBackbone_kind [PyOrd W] [AttrVal (Val K)] (ulongMax : Nat) {g : Graph W (Val K)} (alpha : K)
    (attr : String) (keepConnected : Bool) (hk : g.directed = true ∨ g.multi = true) :
    ∃ m, multiscaleBackbone ulongMax g alpha attr keepConnected = .error (.typeError m) := by
  obtain ⟨m, hm⟩ := edgeDisparity_kind g attr false hk
  refine ⟨m, ?_⟩
  unfold edgeDisparity edgeDisparityA at hm
  unfold multiscaleBackbone multiscaleBackboneSparsifier
  simp only [Sparsifier.make, Sparsifier.filter, defaultGenerator]
  cases keepConnected <;> simp [decorateWithUmst, backboneFactory, backboneFactoryA, backboneFactoryN, hm, Sparsifier.filterLoop]

end

/-! ### C35: in-place sparsification -/

/-- C35 for simple graphs: `remove` leaves the graph `filter` returns.  Missing for the full claim:
multigraphs (refuted below). -/
theorem sparsifier_remove_partial [PyOrd V] [AttrVal (Val K)] {ulongMax : Nat} {factory : PredFactory V (Val K)}
    {keepConnected : Bool} {s : Sparsifier V (Val K)}
    (hs : Sparsifier.make ulongMax (some factory) none none keepConnected = .ok s)
    {g : Graph V (Val K)} (h : g.WF) (hm : g.multi = false) {p : V → V → Attrs (Val K) → Bool}
    (hF : FactoryAnswers factory g p)
    (hu : keepConnected = true → (unionOfMaximumSpanningTrees ulongMax g "weight").err = none)
    (hkw : ∀ e ∈ g.edgesData, EdgeKwSafe g.multi e.2.2) :
    ∃ g₁ g₂, s.filter g = .ok g₁ ∧ s.remove g = (g₂, .ok ()) ∧ g₂.WF ∧ g₂.directed = g₁.directed ∧
      g₂.multi = g₁.multi ∧ g₂.attrs = g₁.attrs ∧ g₂.node = g₁.node ∧ g₂.edgesData = g₁.edgesData := by
  obtain ⟨h1, h2, -⟩ := make_factory hs
  obtain ⟨pred, hp, ha⟩ := make_answers hs hF hu
  rw [filter_eq h1 hp, remove_eq h2 hm hp]
  obtain ⟨g₁, a1, -, a2, a3, a4, a5, a6⟩ := filterEdges_exact h ha (fun e he _ => hkw e he)
  obtain ⟨g₂, b1, b2, b3, b4, b5, b6, b7⟩ := removeEdges_simple h hm ha
  refine ⟨g₁, g₂, a1, b1, b2, b3.trans a2.symm, b4.trans a3.symm, b5.trans a4.symm, b6.trans a5.symm, ?_⟩
  rw [a6]
  unfold edgesData
  rw [b7, List.filter_map]
  rfl

/-- A predicate that raises leaves the graph untouched. -/
theorem sparsifier_remove_raises {A : Type} {s : Sparsifier V A} {g : Graph V A} {e : PyErr}
    (h : (s.redundant g).err = some e) : s.remove g = (g, .error e) := by
  unfold Sparsifier.remove
  rw [h]

/-- C35 is false on every multigraph with a redundant edge: `remove` raises `TypeError` and removes nothing. -/
theorem sparsifier_remove_multi {A : Type} {s : Sparsifier V A} {g : Graph V A} (h : g.WF) (hm : g.multi = true)
    (herr : (s.redundant g).err = none)
    (hred : ∃ e ∈ (s.redundant g).yields, e ∈ g.edgesKeys) :
    ∃ m, s.remove g = (g, .error (.typeError m)) := by
  have key : ∀ es : List (KeyedEdge V A), (∃ e ∈ es, e ∈ g.edgesKeys) →
      ∃ m, Sparsifier.removeTriplesMulti g es = .error (.typeError m) := by
    intro es
    induction es with
    | nil => rintro ⟨e, he, -⟩; cases he
    | cons e es ih =>
      obtain ⟨u, v, k, a⟩ := e
      rintro ⟨e, he, hg⟩
      simp only [Sparsifier.removeTriplesMulti]
      split
      · exact ⟨_, rfl⟩
      · rename_i hne
        rcases List.mem_cons.1 he with rfl | he
        · exact absurd ((hasEdge_listed h).2 (.inl (List.mem_map.2 ⟨_, hg, rfl⟩))) hne
        · exact ih ⟨e, he, hg⟩
  obtain ⟨m, hm'⟩ := key _ hred
  refine ⟨m, ?_⟩
  unfold Sparsifier.remove
  rw [herr, hm']
  simp [hm]

/-! ### C36: keep_connected -/

theorem numeric_weights {g : Graph V (Val K)} {attr : String} (hw : ∀ e ∈ g.edgesData, ∃ w, HasWeight attr e.2.2 w) :
    ∃ w, g.Weights attr w := by
  choose w hw using fun i : Fin g.edgesData.length => hw g.edgesData[i] (List.getElem_mem _)
  exact ⟨w, hw⟩

omit [DecidableEq V] in
theorem componentOrders_congr [DecidableEq V] (nodes : List V) {P Q : List (V × V)}
    (h : ∀ x y, Linked P x y ↔ Linked Q x y) : componentOrders nodes P = componentOrders nodes Q := by
  have h1 : Linked P = Linked Q := by funext x y; exact propext (h x y)
  unfold componentOrders firstNodes componentOf
  rw [h1]

/-- C36, for graphs of any kind with numeric weights (a missing weight counts as 1), whenever the spanning trees can be
computed (`keepConnected_iff` says when): whatever the predicate, two nodes are linked in the sparse graph exactly when they
are in the original; the connected components are the same. -/
theorem keepConnected_ok [IsStrictOrderedRing K] [PyOrd V] [AttrVal (Val K)] {ulongMax : Nat}
    (hu : 2^32 - 1 ≤ ulongMax) {factory : PredFactory V (Val K)} {s : Sparsifier V (Val K)}
    (hs : Sparsifier.make ulongMax (some factory) none none true = .ok s)
    {g : Graph V (Val K)} (h : g.WF) {p : V → V → Attrs (Val K) → Bool} (hF : FactoryAnswers factory g p)
    (hw : ∀ e ∈ g.edgesData, ∃ w, HasWeight "weight" e.2.2 w) (hcap : g.order ≤ 2^64)
    (herr : (unionOfMaximumSpanningTrees ulongMax g "weight").err = none)
    (hkw : ∀ e ∈ g.edgesData, EdgeKwSafe g.multi e.2.2) :
    ∃ g', s.filter g = .ok g' ∧ g'.node = g.node ∧ (∀ x y, Linked g'.edges x y ↔ Linked g.edges x y) ∧
      componentOrders g'.nodes g'.edges = componentOrders g.nodes g.edges := by
  obtain ⟨w, hw⟩ := numeric_weights hw
  obtain ⟨is, -, -, hy, hlink, -⟩ := unionOfMaximumSpanningTrees_connectivity_ok hu h hw hcap herr
  obtain ⟨s', hs', hpart⟩ := sparsifier_partition ulongMax factory true
  rw [hs] at hs'
  cases hs'
  obtain ⟨q, hq, hrel, -⟩ := hpart g p hF (fun _ => herr)
  obtain ⟨g', e1, -, -, -, -, e2, e3⟩ := sparsifier_filter hs h hF (fun _ => herr) hkw
  have hL : ∀ x y, Linked g'.edges x y ↔ Linked g.edges x y := by
    intro x y
    constructor
    · unfold Linked
      apply Relation.EqvGen.mono
      intro a b hab
      rw [edges_eq_map, e3, hrel] at hab
      simp only [List.map_map, List.mem_map, List.mem_filter, Function.comp] at hab
      obtain ⟨e, ⟨he, -⟩, heq⟩ := hab
      exact List.mem_map.2 ⟨e, he, heq⟩
    · intro hxy
      have := (hlink x y).2 hxy
      unfold LinkedBy at this
      unfold Linked
      revert this
      apply Relation.EqvGen.mono
      rintro a b ⟨i, hi, hab⟩
      have hmem : g.edgesData[i] ∈ g.edgesData := List.getElem_mem _
      obtain ⟨e, he, heq⟩ := List.mem_map.1 hmem
      rw [edges_eq_map, e3, hrel]
      simp only [List.map_map, List.mem_map, List.mem_filter, Function.comp]
      have h1 : e.1 = a ∧ e.2.1 = b := by
        unfold Graph.endsAt at hab
        rw [← heq] at hab
        simpa using hab
      refine ⟨e, ⟨he, ?_⟩, by rw [h1.1, h1.2]⟩
      obtain ⟨u, v, k, c⟩ := e
      rw [hq]
      right
      refine ⟨rfl, c, ?_⟩
      rw [hy]
      exact List.mem_map.2 ⟨i, hi, heq.symm⟩
  refine ⟨g', e1, e2, hL, ?_⟩
  have hn : g'.nodes = g.nodes := by unfold nodes; rw [e2]
  rw [hn]
  exact componentOrders_congr _ hL

/-- C36, for graphs of any kind with numeric weights (a missing weight counts as 1) and of an order at which
the spanning trees can be computed: whatever the predicate, two nodes are linked in the sparse graph exactly
when they are in the original; the connected components are the same.  Missing for the full claim: weights
that are not numbers, and the orders 256, 65536, 2^32 (refuted below). -/
theorem keepConnected_partial [IsStrictOrderedRing K] [PyOrd V] [AttrVal (Val K)] {ulongMax : Nat}
    (hu : 2^32 - 1 ≤ ulongMax) {factory : PredFactory V (Val K)} {s : Sparsifier V (Val K)}
    (hs : Sparsifier.make ulongMax (some factory) none none true = .ok s)
    {g : Graph V (Val K)} (h : g.WF) {p : V → V → Attrs (Val K) → Bool} (hF : FactoryAnswers factory g p)
    (hw : ∀ e ∈ g.edgesData, ∃ w, HasWeight "weight" e.2.2 w) (hord : SafeOrder ulongMax g.order)
    (hkw : ∀ e ∈ g.edgesData, EdgeKwSafe g.multi e.2.2) :
    ∃ g', s.filter g = .ok g' ∧ g'.node = g.node ∧ (∀ x y, Linked g'.edges x y ↔ Linked g.edges x y) ∧
      componentOrders g'.nodes g'.edges = componentOrders g.nodes g.edges := by
  obtain ⟨w, hw'⟩ := numeric_weights hw
  exact keepConnected_ok hu hs h hF hw hord.1.le (unionOfMaximumSpanningTrees_never_raises_partial hu h hw' hord) hkw

theorem decorated_raises [PyOrd V] [AttrVal (Val K)] {ulongMax : Nat} {g : Graph V (Val K)} {factory : PredFactory V (Val K)}
    {pred : EdgePred V (Val K)} {e : PyErr} (hf : factory g = .ok pred)
    (h : (unionOfMaximumSpanningTrees ulongMax g "weight").err = some e) :
    Sparsifier.filter ⟨decorateWithUmst ulongMax factory, defaultGenerator true (decorateWithUmst ulongMax factory),
      defaultGenerator false (decorateWithUmst ulongMax factory)⟩ g = .error e := by
  have : decorateWithUmst ulongMax factory g = .error e := by
    unfold decorateWithUmst
    rw [hf, h]
  unfold Sparsifier.filter defaultGenerator
  simp only
  rw [this]
  rfl

/-- C36.  With numeric weights, sparsifying raises exactly when computing the spanning trees does, and the same error (C25
says when this happens). -/
theorem keepConnected_iff [IsStrictOrderedRing K] [PyOrd V] [AttrVal (Val K)] {ulongMax : Nat}
    {factory : PredFactory V (Val K)} {s : Sparsifier V (Val K)}
    (hs : Sparsifier.make ulongMax (some factory) none none true = .ok s)
    {g : Graph V (Val K)} (h : g.WF) {p : V → V → Attrs (Val K) → Bool} (hF : FactoryAnswers factory g p)
    (hkw : ∀ e ∈ g.edgesData, EdgeKwSafe g.multi e.2.2) (e : PyErr) :
    s.filter g = .error e ↔ (unionOfMaximumSpanningTrees ulongMax g "weight").err = some e := by
  cases herr : (unionOfMaximumSpanningTrees ulongMax g "weight").err with
  | none =>
    obtain ⟨g', e1, -⟩ := sparsifier_filter hs h hF (fun _ => herr) hkw
    rw [e1]
    simp
  | some e' =>
    obtain ⟨pred, hp, -⟩ := hF
    have := decorated_raises hp herr
    cases hs
    simp only [if_true]
    rw [this]
    simp

/-- C36 is false as stated: at 256 nodes, with numeric weights and a predicate that accepts every edge,
`OverflowError` is raised. -/
theorem keepConnected_raises_at_256 {ulongMax : Nat} (hu : 2^32 - 1 ≤ ulongMax) :
    star256.WF ∧ ∃ s : Sparsifier Nat (Val ℚ),
      Sparsifier.make ulongMax (some (fun _ => .ok (fun _ _ _ => .ok true))) none none true = .ok s ∧
      s.filter star256 = .error .overflowError := by
  obtain ⟨h1, -, h2⟩ := unionOfMaximumSpanningTrees_raises_at_256 hu
  refine ⟨h1, ⟨_, _, _⟩, rfl, ?_⟩
  exact decorated_raises (factory := fun _ => .ok (fun _ _ _ => .ok true)) (g := star256) rfl h2

/-! ### C37: flagging -/

/-- An edge with the attribute set. -/
def flagged (attr : String) (b : Bool) (e : KeyedEdge V (Val K)) : KeyedEdge V (Val K) :=
  (e.1, e.2.1, e.2.2.1, e.2.2.2.set (.str attr) (.bool b))

theorem flag_loops {pred : EdgePred V (Val K)} {q : V → V → Attrs (Val K) → Bool} {g : Graph V (Val K)} (h : g.WF)
    (ha : EdgeAnswers g pred q) (attr : String) (want : Bool) :
    (∃ g', Sparsifier.flagLoop attr (g.edgesKeys.filter (fun e => q e.1 e.2.1 e.2.2.2 == want)) none g = (g', .ok ()) ∧
      g'.WF ∧ g'.directed = g.directed ∧ g'.multi = g.multi ∧ g'.attrs = g.attrs ∧ g'.node = g.node ∧
      g'.edgesKeys = g.edgesKeys.map (fun e => if q e.1 e.2.1 e.2.2.2 == want then flagged attr true e else e)) ∧
    (∃ g', Sparsifier.flagFullLoop attr (!want) pred g.edgesKeys g = (g', .ok ()) ∧
      g'.WF ∧ g'.directed = g.directed ∧ g'.multi = g.multi ∧ g'.attrs = g.attrs ∧ g'.node = g.node ∧
      g'.edgesKeys = g.edgesKeys.map (fun e => flagged attr (q e.1 e.2.1 e.2.2.2 == want) e)) := by
  constructor
  · refine ⟨_, flagLoop_eq attr _ g none, setAll_wf _ _ h, (setAll_frame _ _ _).1, (setAll_frame _ _ _).2.1,
      (setAll_frame _ _ _).2.2.1, (setAll_frame _ _ _).2.2.2, ?_⟩
    exact setAll_listed h attr _ (fun _ => .bool true)
  · refine ⟨_, flagFullLoop_ok attr (!want) (answers_keyed ha) g, setAll_wf _ _ h, (setAll_frame _ _ _).1,
      (setAll_frame _ _ _).2.1, (setAll_frame _ _ _).2.2.1, (setAll_frame _ _ _).2.2.2, ?_⟩
    have := setAll_listed h attr (fun _ => true) (fun e => Val.bool (q e.1 e.2.1 e.2.2.2 != !want))
    rw [List.filter_eq_self.2 (fun _ _ => rfl)] at this
    rw [this]
    apply List.map_congr_left
    intro e _
    have hb : (q e.1 e.2.1 e.2.2.2 != !want) = (q e.1 e.2.1 e.2.2.2 == want) := by
      cases q e.1 e.2.1 e.2.2.2 <;> cases want <;> rfl
    simp [flagged, hb]

/-- C37.  For a sparsifier built from a predicate, on a graph of any kind: `flag_relevant_edges` sets the
attribute to `True` on exactly the relevant edges, to `False` on the other ones with `full`, and changes
nothing else. -/
theorem flagRelevant_exact [PyOrd V] {ulongMax : Nat} {factory : PredFactory V (Val K)} {keepConnected : Bool}
    {s : Sparsifier V (Val K)} (hs : Sparsifier.make ulongMax (some factory) none none keepConnected = .ok s)
    {g : Graph V (Val K)} (h : g.WF) {p : V → V → Attrs (Val K) → Bool} (hF : FactoryAnswers factory g p)
    (hu : keepConnected = true → (unionOfMaximumSpanningTrees ulongMax g "weight").err = none)
    (attr : String) (full : Bool) :
    ∃ g', s.flagRelevant g attr full = (g', .ok ()) ∧ g'.WF ∧ g'.directed = g.directed ∧ g'.multi = g.multi ∧
      g'.attrs = g.attrs ∧ g'.node = g.node ∧
      g'.edgesKeys = g.edgesKeys.map (fun e =>
        if e ∈ (s.relevant g).yields then flagged attr true e
        else if full then flagged attr false e else e) := by
  have hA := make_answers hs hF hu
  have hrel := default_generator hA true
  rw [← (make_factory hs).1] at hrel
  obtain ⟨pred, hp, ha⟩ := hA
  unfold Sparsifier.flagRelevant
  rw [hp, hrel]
  obtain ⟨⟨g₁, a1, a2, a3, a4, a5, a6, a7⟩, ⟨g₂, b1, b2, b3, b4, b5, b6, b7⟩⟩ := flag_loops h ha attr true
  cases full with
  | false =>
    refine ⟨g₁, a1, a2, a3, a4, a5, a6, ?_⟩
    rw [a7]
    apply List.map_congr_left
    intro e he
    simp [List.mem_filter, he]
  | true =>
    refine ⟨g₂, b1, b2, b3, b4, b5, b6, ?_⟩
    rw [b7]
    apply List.map_congr_left
    intro e he
    simp only [List.mem_filter, he, true_and]
    cases hv : verdict ulongMax g keepConnected p e.1 e.2.1 e.2.2.2 <;> simp

/-- C37.  `flag_redundant_edges` sets the attribute to `True` on exactly the redundant edges, to `False` on the
other ones with `full`, and changes nothing else. -/
theorem flagRedundant_exact [PyOrd V] {ulongMax : Nat} {factory : PredFactory V (Val K)} {keepConnected : Bool}
    {s : Sparsifier V (Val K)} (hs : Sparsifier.make ulongMax (some factory) none none keepConnected = .ok s)
    {g : Graph V (Val K)} (h : g.WF) {p : V → V → Attrs (Val K) → Bool} (hF : FactoryAnswers factory g p)
    (hu : keepConnected = true → (unionOfMaximumSpanningTrees ulongMax g "weight").err = none)
    (attr : String) (full : Bool) :
    ∃ g', s.flagRedundant g attr full = (g', .ok ()) ∧ g'.WF ∧ g'.directed = g.directed ∧ g'.multi = g.multi ∧
      g'.attrs = g.attrs ∧ g'.node = g.node ∧
      g'.edgesKeys = g.edgesKeys.map (fun e =>
        if e ∈ (s.redundant g).yields then flagged attr true e
        else if full then flagged attr false e else e) := by
  have hA := make_answers hs hF hu
  have hrel := default_generator hA false
  rw [← (make_factory hs).2.1] at hrel
  obtain ⟨pred, hp, ha⟩ := hA
  unfold Sparsifier.flagRedundant
  rw [hp, hrel]
  obtain ⟨⟨g₁, a1, a2, a3, a4, a5, a6, a7⟩, ⟨g₂, b1, b2, b3, b4, b5, b6, b7⟩⟩ := flag_loops h ha attr false
  cases full with
  | false =>
    refine ⟨g₁, a1, a2, a3, a4, a5, a6, ?_⟩
    rw [a7]
    apply List.map_congr_left
    intro e he
    simp [List.mem_filter, he]
  | true =>
    refine ⟨g₂, b1, b2, b3, b4, b5, b6, ?_⟩
    rw [b7]
    apply List.map_congr_left
    intro e he
    simp only [List.mem_filter, he, true_and]
    cases hv : verdict ulongMax g keepConnected p e.1 e.2.1 e.2.2.2 <;> simp

/-- C37, for every sparsifier (custom generators included) and every outcome (raising included): the flagging
methods touch the given attribute of edges only. -/
theorem flag_frame (s : Sparsifier V (Val K)) (g : Graph V (Val K)) (attr : String) (full : Bool) :
    ∀ g' ∈ [(s.flagRelevant g attr full).1, (s.flagRedundant g attr full).1],
      g'.directed = g.directed ∧ g'.multi = g.multi ∧ g'.attrs = g.attrs ∧ g'.node = g.node ∧
      g'.edgesKeys.map (fun e => (e.1, e.2.1, e.2.2.1, e.2.2.2.erase (.str attr))) =
        g.edgesKeys.map (fun e => (e.1, e.2.1, e.2.2.1, e.2.2.2.erase (.str attr))) := by
  have key : ∀ g', (∃ l, g' = setAll attr l g) →
      g'.directed = g.directed ∧ g'.multi = g.multi ∧ g'.attrs = g.attrs ∧ g'.node = g.node ∧
      g'.edgesKeys.map (fun e => (e.1, e.2.1, e.2.2.1, e.2.2.2.erase (.str attr))) =
        g.edgesKeys.map (fun e => (e.1, e.2.1, e.2.2.1, e.2.2.2.erase (.str attr))) := by
    rintro g' ⟨l, rfl⟩
    obtain ⟨h1, h2, h3, h4⟩ := setAll_frame attr l g
    exact ⟨h1, h2, h3, h4, setAll_erase attr l g⟩
  intro g' hg'
  refine key g' ?_
  simp only [List.mem_cons, List.not_mem_nil, or_false] at hg'
  rcases hg' with rfl | rfl
  · unfold Sparsifier.flagRelevant
    cases full with
    | false => exact ⟨_, by simp only [Bool.false_eq_true, if_false]; rw [flagLoop_eq]⟩
    | true =>
      simp only [if_true]
      cases s.factory g with
      | error e => exact ⟨[], rfl⟩
      | ok pred => exact flagFullLoop_sets _ _ _ _ _
  · unfold Sparsifier.flagRedundant
    cases full with
    | false => exact ⟨_, by simp only [Bool.false_eq_true, if_false]; rw [flagLoop_eq]⟩
    | true =>
      simp only [if_true]
      cases s.factory g with
      | error e => exact ⟨[], rfl⟩
      | ok pred => exact flagFullLoop_sets _ _ _ _ _

/-! ### C59: sparsifiers built from an edge generator -/

section
variable {W : Type} [LinearOrder W] [PyOrd W]

/-- The pair as the factories built from generators store it. -/
def storedPair (directed : Bool) (u v : W) : W × W := if directed then (u, v) else if v < u then (v, u) else (u, v)

theorem orderedPair_eq {A : Type} (ho : OrderedKeys W) (g : Graph W A) (u v : W) :
    orderedPair g u v = .ok (storedPair g.directed u v) := by
  unfold orderedPair storedPair
  cases g.directed with
  | true => rfl
  | false =>
    simp only [Bool.false_eq_true, if_false, ho u v]
    by_cases h : v < u <;> simp [h]

theorem storedPair_eq_iff (d : Bool) (u v x y : W) :
    storedPair d u v = storedPair d x y ↔ samePair d x y u v = true := by
  rw [samePair_iff]
  unfold storedPair
  cases d with
  | true => simp [eq_comm]
  | false =>
    simp only [Bool.false_eq_true, if_false, true_and]
    by_cases h1 : v < u <;> by_cases h2 : y < x <;> simp only [h1, h2, if_true, if_false, Prod.mk.injEq]
    · constructor
      · rintro ⟨rfl, rfl⟩; simp
      · rintro (⟨rfl, rfl⟩ | ⟨rfl, rfl⟩)
        · simp
        · exact absurd h1 (lt_asymm h2)
    · constructor
      · rintro ⟨rfl, rfl⟩; simp
      · rintro (⟨rfl, rfl⟩ | ⟨rfl, rfl⟩)
        · exact absurd h1 h2
        · simp
    · constructor
      · rintro ⟨rfl, rfl⟩; simp
      · rintro (⟨rfl, rfl⟩ | ⟨rfl, rfl⟩)
        · exact absurd h2 h1
        · simp
    · constructor
      · rintro ⟨rfl, rfl⟩; simp
      · rintro (⟨rfl, rfl⟩ | ⟨rfl, rfl⟩)
        · simp
        · have : x = y := le_antisymm (not_lt.1 h2) (not_lt.1 h1)
          simp [this]

theorem collectPairs_ok {A : Type} (ho : OrderedKeys W) (g : Graph W A) (es : List (KeyedEdge W A)) :
    collectPairs g es none = .ok (es.map (fun e => storedPair g.directed e.1 e.2.1)) := by
  induction es with
  | nil => rfl
  | cons e es ih =>
    obtain ⟨u, v, k, a⟩ := e
    simp only [collectPairs, orderedPair_eq ho, ih, List.map_cons]

theorem collectPairs_error {A : Type} (ho : OrderedKeys W) (g : Graph W A) (es : List (KeyedEdge W A)) (err : PyErr) :
    collectPairs g es (some err) = .error err := by
  induction es with
  | nil => rfl
  | cons e es ih =>
    obtain ⟨u, v, k, a⟩ := e
    simp only [collectPairs, orderedPair_eq ho, ih]

/-- C59.  A sparsifier built from one generator raises what the generator raises: its other generator yields nothing and
raises, so that `filter` returns nothing, and `remove` and the flagging methods leave the graph as it was; `keep_connected`
changes nothing to this. -/
theorem sparsifier_generator_raises (ulongMax : Nat) (ho : OrderedKeys W) (generator : EdgeGen W (Val K)) (keepConnected : Bool) :
    ∃ s s', Sparsifier.make ulongMax none (some generator) none keepConnected = .ok s ∧
      Sparsifier.make ulongMax none none (some generator) keepConnected = .ok s' ∧
      ∀ g err, (generator g).err = some err →
        s.redundant g = ⟨[], some err⟩ ∧ s.remove g = (g, .error err) ∧
          (∀ attr full, (full = true → s.flagRelevant g attr full = (g, .error err)) ∧
            s.flagRedundant g attr full = (g, .error err)) ∧
        s'.relevant g = ⟨[], some err⟩ ∧ s'.remove g = (g, .error err) ∧
          (∀ [AttrVal (Val K)], s'.filter g = .error err) ∧
          ∀ attr full, s'.flagRelevant g attr full = (g, .error err) ∧
            (full = true → s'.flagRedundant g attr full = (g, .error err)) := by
  refine ⟨_, _, rfl, rfl, ?_⟩
  intro g err herr
  have hf : ∀ member, (if keepConnected then decorateWithUmst ulongMax (factoryFromGenerator member generator)
      else factoryFromGenerator member generator) g = .error err := by
    intro member
    have h0 : factoryFromGenerator member generator g = .error err := by
      unfold factoryFromGenerator
      rw [herr, collectPairs_error ho]
    cases keepConnected
    · exact h0
    · simp only [if_true, decorateWithUmst, h0]
  refine ⟨?_, ?_, fun attr full => ⟨fun hfull => ?_, ?_⟩, ?_, ?_, ?_, fun attr full => ⟨?_, fun hfull => ?_⟩⟩
  · simp only [defaultGenerator, hf]
  · simp only [Sparsifier.remove, defaultGenerator, hf]
  · subst hfull
    simp only [Sparsifier.flagRelevant, if_true, hf]
  · cases full <;> simp [Sparsifier.flagRedundant, defaultGenerator, hf, Sparsifier.flagLoop]
  · simp only [defaultGenerator, hf]
  · simp only [Sparsifier.remove, herr]
  · intro _
    simp only [Sparsifier.filter, defaultGenerator, hf, Sparsifier.filterLoop]
  · cases full <;> simp [Sparsifier.flagRelevant, defaultGenerator, hf, Sparsifier.flagLoop]
  · subst hfull
    simp only [Sparsifier.flagRedundant, if_true, hf]

theorem generator_answers (ho : OrderedKeys W) (member : Bool) {generator : EdgeGen W (Val K)} {g : Graph W (Val K)}
    (herr : (generator g).err = none) :
    FactoryAnswers (factoryFromGenerator member generator) g (fun u v _ =>
      decide (∃ x ∈ (generator g).yields, samePair g.directed x.1 x.2.1 u v = true) == member) := by
  unfold FactoryAnswers factoryFromGenerator
  rw [herr, collectPairs_ok ho]
  refine ⟨_, rfl, ?_⟩
  intro e he
  simp only [orderedPair_eq ho]
  congr 2
  rw [decide_eq_decide]
  simp only [List.mem_map]
  constructor
  · rintro ⟨x, hx, heq⟩
    exact ⟨x, hx, (storedPair_eq_iff _ _ _ _ _).1 heq.symm⟩
  · rintro ⟨x, hx, heq⟩
    exact ⟨x, hx, ((storedPair_eq_iff _ _ _ _ _).2 heq).symm⟩

/-- C59.  A sparsifier built from a generator of relevant edges yields as redundant exactly the edges of the
graph that join no pair of nodes the generator yielded (in either direction if the graph is undirected), in
listing order. -/
theorem sparsifier_from_relevant (ulongMax : Nat) (ho : OrderedKeys W) (generator : EdgeGen W (Val K)) :
    ∃ s, Sparsifier.make ulongMax none (some generator) none false = .ok s ∧ s.relevant = generator ∧
      ∀ g, (generator g).err = none →
        s.redundant g = ⟨g.edgesKeys.filter (fun e =>
          !decide (∃ x ∈ (generator g).yields, samePair g.directed x.1 x.2.1 e.1 e.2.1 = true)), none⟩ := by
  refine ⟨_, rfl, rfl, ?_⟩
  intro g herr
  refine (default_generator (generator_answers ho true herr) false).trans ?_
  congr 1
  apply List.filter_congr
  intro e _
  cases decide (∃ x ∈ (generator g).yields, samePair g.directed x.1 x.2.1 e.1 e.2.1 = true) <;> rfl

/-- C59.  A sparsifier built from a generator of redundant edges yields as relevant exactly the edges of the
graph that join no pair of nodes the generator yielded; `keep_connected` adds the pairs of the union of
maximum spanning trees. -/
theorem sparsifier_from_redundant (ulongMax : Nat) (ho : OrderedKeys W) (generator : EdgeGen W (Val K))
    (keepConnected : Bool) :
    ∃ s, Sparsifier.make ulongMax none none (some generator) keepConnected = .ok s ∧ s.redundant = generator ∧
      ∀ g, (generator g).err = none →
        (keepConnected = true → (unionOfMaximumSpanningTrees ulongMax g "weight").err = none) →
        s.relevant g = ⟨g.edgesKeys.filter (fun e =>
          !decide (∃ x ∈ (generator g).yields, samePair g.directed x.1 x.2.1 e.1 e.2.1 = true) ||
            (keepConnected && inUmst ulongMax g e.1 e.2.1)), none⟩ := by
  refine ⟨_, rfl, rfl, ?_⟩
  intro g herr hu
  have hA := generator_answers ho false herr
  cases keepConnected with
  | false =>
    refine (default_generator hA true).trans ?_
    congr 1
    apply List.filter_congr
    intro e _
    cases decide (∃ x ∈ (generator g).yields, samePair g.directed x.1 x.2.1 e.1 e.2.1 = true) <;> rfl
  | true =>
    refine (default_generator (decorated_answers hA (hu rfl)) true).trans ?_
    congr 1
    apply List.filter_congr
    intro e _
    cases decide (∃ x ∈ (generator g).yields, samePair g.directed x.1 x.2.1 e.1 e.2.1 = true) <;> simp
end

/-- The path 1 - 2 - 3 with weights 3 and 1. -/
def pathGraph : Graph Int (Val ℚ) :=
  ⟨false, false, [], [(1, []), (2, []), (3, [])],
    [⟨1, 2, [(.int 0, [(.str "weight", .num 3)])]⟩, ⟨2, 3, [(.int 0, [(.str "weight", .num 1)])]⟩]⟩

/-- C59 is false with `keep_connected` for a generator of relevant edges: `filter` ignores `keep_connected`, so
that the sparse graph is disconnected, and an edge can be neither relevant nor redundant. -/
theorem keepConnected_ignored_by_relevant :
    ∃ s g', Sparsifier.make (2^64 - 1) none (some (fun _ => ⟨[], none⟩)) none true = .ok s ∧
      s.filter pathGraph = .ok g' ∧ g'.edges = [] ∧ pathGraph.edges = [(1, 2), (2, 3)] ∧
      (s.relevant pathGraph).yields = [] ∧ (s.redundant pathGraph).yields = [] := by
  refine ⟨_, _, rfl, rfl, ?_⟩
  decide +kernel

set_option synthInstance.maxSize 1000 in
/-- C59 is false with `keep_connected` for a generator of redundant edges: an edge can be both relevant and
redundant, and `remove` disconnects the graph. -/
theorem keepConnected_ignored_by_redundant :
    ∃ s, Sparsifier.make (2^64 - 1) none none (some (fun g => ⟨g.edgesKeys, none⟩)) true = .ok s ∧
      (s.relevant pathGraph).yields = pathGraph.edgesKeys ∧ (s.redundant pathGraph).yields = pathGraph.edgesKeys ∧
      (s.remove pathGraph).1.edges = [] := by
  refine ⟨_, rfl, ?_⟩
  decide +kernel

/-- With both generators and no predicate factory, the `full` flagging raises `TypeError`. -/
theorem flag_full_needs_factory [PyOrd V] (ulongMax : Nat) (relevant redundant : EdgeGen V (Val K)) (keepConnected : Bool) :
    ∃ s, Sparsifier.make ulongMax none (some relevant) (some redundant) keepConnected = .ok s ∧
      ∀ g attr, ∃ m, s.flagRelevant g attr true = (g, .error (.typeError m)) := by
  refine ⟨_, rfl, ?_⟩
  intro g attr
  unfold Sparsifier.flagRelevant
  cases keepConnected <;> exact ⟨_, rfl⟩

/-! ### Examples: the hypotheses hold on concrete graphs -/

theorem pathGraph_wf : pathGraph.WF := by constructor <;> decide

theorem pathGraph_numbers : ∀ e ∈ pathGraph.edgesData, ∃ w : ℚ, HasNumber "weight" e.2.2 w := by
  intro e he
  have : e ∈ [((1 : Int), (2 : Int), ([(.str "weight", .num 3)] : Attrs (Val ℚ))), (2, 3, [(.str "weight", .num 1)])] := he
  simp only [List.mem_cons, List.not_mem_nil, or_false] at this
  rcases this with rfl | rfl
  · exact ⟨3, .inl rfl⟩
  · exact ⟨1, .inl rfl⟩

theorem pathGraph_kw : ∀ e ∈ pathGraph.edgesData, EdgeKwSafe pathGraph.multi e.2.2 := by
  intro e he k hk
  have : e ∈ [((1 : Int), (2 : Int), ([(.str "weight", .num 3)] : Attrs (Val ℚ))), (2, 3, [(.str "weight", .num 1)])] := he
  simp only [List.mem_cons, List.not_mem_nil, or_false] at this
  rcases this with rfl | rfl <;> exact ⟨"weight", by simpa [Dict.keys] using hk, by decide⟩

/-- The answer as a list of edges. -/
def edgesOk (r : Py (Graph Int (Val ℚ))) : Option (List (Int × Int)) :=
  match r with
  | .ok g => some g.edges
  | .error _ => none

example : edgesOk (globalThresholdSparsification (2^64-1) pathGraph 2 "weight" false false) = some [(1, 2)] ∧
    edgesOk (globalThresholdSparsification (2^64-1) pathGraph 2 "weight" true false) = some [(2, 3)] ∧
    edgesOk (globalThresholdSparsification (2^64-1) pathGraph 3 "weight" false false) = some [(1, 2)] ∧
    edgesOk (globalThresholdSparsification (2^64-1) pathGraph 4 "weight" false false) = some [] ∧
    edgesOk (globalThresholdSparsification (2^64-1) pathGraph 4 "weight" false true) = some [(1, 2), (2, 3)] := by
  decide +kernel

example : edgesOk (multiscaleBackbone (2^64-1) weightedPath (1/2) "weight" false) = some [(1, 2)] ∧
    edgesOk (multiscaleBackbone (2^64-1) weightedPath (1/4) "weight" false) = some [(1, 2)] ∧
    edgesOk (multiscaleBackbone (2^64-1) weightedPath (1/5) "weight" false) = some [] ∧
    edgesOk (multiscaleBackbone (2^64-1) weightedPath (1/5) "weight" true) = some [(1, 2), (2, 3)] := by
  decide +kernel

example : SafeOrder (2^64-1) pathGraph.order ∧ ∀ e ∈ pathGraph.edgesData, ∃ w : ℚ, HasWeight "weight" e.2.2 w := by
  refine ⟨by unfold SafeOrder; decide, ?_⟩
  intro e he
  obtain ⟨w, h | h | h⟩ := pathGraph_numbers e he
  · exact ⟨w, .inr (.inl h)⟩
  · exact ⟨w, .inr (.inr (.inl h))⟩
  · exact ⟨w, .inr (.inr (.inr h))⟩

set_option synthInstance.maxSize 1000 in
example : (globalThresholdSparsifier (V := Int) (2^64-1) (2 : ℚ) "weight" false false).toOption.map
    (fun s => ((s.flagRelevant pathGraph "keep" true).1.edgesData, (s.flagRedundant pathGraph "drop" false).1.edgesData)) =
    some ([(1, 2, [(.str "weight", .num 3), (.str "keep", .bool true)]),
        (2, 3, [(.str "weight", .num 1), (.str "keep", .bool false)])],
      [(1, 2, [(.str "weight", .num 3)]), (2, 3, [(.str "weight", .num 1), (.str "drop", .bool true)])]) := by
  decide +kernel

end Pelote
