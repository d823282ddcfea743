import Verif.Props.Sparsification
import Verif.Props.ReorderProjection
import Verif.Props.Binary64

/-! C77: edge disparities and the multiscale backbone computed with floats. -/
set_option linter.unusedSectionVars false
namespace Pelote
open Graph
open scoped List

section
variable {K : Type} [Field K] [LinearOrder K] [IsStrictOrderedRing K]

/-- What is used of rounding: it is monotone on nonnegative numbers, leaves 0, 1 and its own results unchanged. -/
structure Rounding (rnd : K → K) : Prop where
  zero : rnd 0 = 0
  one : rnd 1 = 1
  mono : ∀ {x y}, 0 ≤ x → x ≤ y → rnd x ≤ rnd y
  idem : ∀ {x}, 0 ≤ x → rnd (rnd x) = rnd x

/-- What is used of `**`: a number between 0 and 1 has its powers between 0 and 1. -/
def UnitPow (pow : K → Nat → K) : Prop := ∀ x n, 0 ≤ x → x ≤ 1 → 0 ≤ pow x n ∧ pow x n ≤ 1

theorem Rounding.nonneg {rnd : K → K} (hr : Rounding rnd) {x : K} (hx : 0 ≤ x) : 0 ≤ rnd x := by
  have := hr.mono le_rfl hx
  rwa [hr.zero] at this

theorem Rounding.le_one {rnd : K → K} (hr : Rounding rnd) {x : K} (hx : 0 ≤ x) (h1 : x ≤ 1) : rnd x ≤ 1 := by
  have := hr.mono hx h1
  rwa [hr.one] at this

/-- A sum of nonnegative numbers, rounded at every step, is no less than any of them. -/
theorem foldl_rounded {α : Type} {rnd : K → K} (hr : Rounding rnd) (f : α → K) (l : List α)
    (hf : ∀ e ∈ l, 0 ≤ f e ∧ rnd (f e) = f e) {s : K} (hs : 0 ≤ s) (hfix : rnd s = s) :
    s ≤ l.foldl (fun s e => rnd (s + f e)) s ∧ rnd (l.foldl (fun s e => rnd (s + f e)) s) = l.foldl (fun s e => rnd (s + f e)) s ∧
      ∀ e ∈ l, f e ≤ l.foldl (fun s e => rnd (s + f e)) s := by
  induction l generalizing s with
  | nil => exact ⟨le_rfl, hfix, by simp⟩
  | cons e l ih =>
    obtain ⟨he0, hefix⟩ := hf e (by simp)
    have h1 : s ≤ rnd (s + f e) := by
      have := hr.mono hs (le_add_of_nonneg_right he0 : s ≤ s + f e)
      rwa [hfix] at this
    have h2 : f e ≤ rnd (s + f e) := by
      have := hr.mono he0 (le_add_of_nonneg_left hs : f e ≤ s + f e)
      rwa [hefix] at this
    obtain ⟨k1, k2, k3⟩ := ih (fun e he => hf e (by simp [he])) (hs.trans h1) (hr.idem (add_nonneg hs he0))
    refine ⟨h1.trans k1, k2, ?_⟩
    intro e' he'
    rcases List.mem_cons.1 he' with rfl | he'
    · exact h2.trans k1
    · exact k3 e' he'

variable {V : Type} [LinearOrder V]

/-- The rounded strength of a node is no less than the weight of any of its edges. -/
theorem weight_le_roundedStrength {rnd : K → K} (hr : Rounding rnd) {g : Graph V (Val K)} (h : g.WF)
    {w : V → V → K} (hpos : ∀ u v, g.hasEdge u v = true → 0 < w u v ∧ rnd (w u v) = w u v) {u v : V}
    (he : g.hasEdge u v = true) : w u v ≤ g.roundedStrength rnd w u := by
  have hedge : ∀ e ∈ g.edgesOf u, g.hasEdge u e.2.1 = true := by
    rintro ⟨x, m, k, a⟩ he
    obtain ⟨_, l, hl, hs, _⟩ := (mem_edgesOf h).1 he
    exact Graph.hasEdge_iff.2 ⟨l, hl, hs⟩
  have hf : ∀ e ∈ g.edgesOf u, 0 ≤ w u e.2.1 ∧ rnd (w u e.2.1) = w u e.2.1 :=
    fun e he => ⟨(hpos _ _ (hedge e he)).1.le, (hpos _ _ (hedge e he)).2⟩
  obtain ⟨k1, k2, k3⟩ := foldl_rounded hr (fun e : V × V × PyKey × Attrs (Val K) => w u e.2.1) (g.edgesOf u) hf le_rfl hr.zero
  obtain ⟨j1, -, -⟩ := foldl_rounded hr (fun e : V × V × PyKey × Attrs (Val K) => w u e.2.1)
    ((g.edgesOf u).filter (fun e => e.2.1 = u)) (fun e he => hf e (List.mem_filter.1 he).1) k1 k2
  obtain ⟨l, hl, hs⟩ := Graph.hasEdge_iff.1 he
  obtain ⟨⟨k, a⟩, hka⟩ := List.exists_mem_of_ne_nil _ (h.nonempty l hl)
  exact (k3 _ ((mem_edgesOf h).2 ⟨rfl, l, hl, hs, hka⟩ : (u, v, k, a) ∈ g.edgesOf u)).trans j1

theorem sideScore_range {rnd : K → K} {pow : K → Nat → K} (hr : Rounding rnd) (hp : UnitPow pow) {w s : K} (hw : 0 < w)
    (hs : w ≤ s) (d : Nat) : 0 ≤ sideScore rnd pow w s d ∧ sideScore rnd pow w s d ≤ 1 := by
  have hs0 := lt_of_lt_of_le hw hs
  have h1 : 0 ≤ w / s := div_nonneg hw.le hs0.le
  have h2 : w / s ≤ 1 := (div_le_one hs0).2 hs
  have h3 := hr.nonneg h1
  have h4 := hr.le_one h1 h2
  have h5 : 0 ≤ 1 - rnd (w / s) := sub_nonneg.2 h4
  have h6 : 1 - rnd (w / s) ≤ 1 := sub_le_self _ h3
  exact hp _ _ (hr.nonneg h5) (hr.le_one h5 h6)

/-- The strengths are positive and the disparities, reversed or not, between 0 and 1. -/
theorem roundedDisparity_range {rnd : K → K} {pow : K → Nat → K} (hr : Rounding rnd) (hp : UnitPow pow)
    {g : Graph V (Val K)} (h : g.WF) (hd : g.directed = false) {w : V → V → K} (hsym : ∀ u v, w u v = w v u)
    (hpos : ∀ u v, g.hasEdge u v = true → 0 < w u v ∧ rnd (w u v) = w u v) {u v : V} (he : g.hasEdge u v = true)
    (reverse : Bool) : 0 < g.roundedStrength rnd w u ∧ 0 ≤ g.roundedDisparity rnd pow reverse w u v ∧
      g.roundedDisparity rnd pow reverse w u v ≤ 1 := by
  have he' : g.hasEdge v u = true := by rwa [Graph.hasEdge_comm hd]
  have h1 := weight_le_roundedStrength hr h hpos he
  have h2 := weight_le_roundedStrength hr h hpos he'
  rw [hsym v u] at h2
  have hw := (hpos u v he).1
  obtain ⟨a1, a2⟩ := sideScore_range hr hp hw h1 (g.degree u)
  obtain ⟨b1, b2⟩ := sideScore_range hr hp hw h2 (g.degree v)
  refine ⟨lt_of_lt_of_le hw h1, ?_⟩
  unfold Graph.roundedDisparity
  cases reverse
  · exact ⟨le_min a1 b1, (min_le_left _ _).trans a2⟩
  · simp only [if_true]
    have a3 : 0 ≤ 1 - sideScore rnd pow (w u v) (g.roundedStrength rnd w u) (g.degree u) := sub_nonneg.2 a2
    have b3 : 0 ≤ 1 - sideScore rnd pow (w u v) (g.roundedStrength rnd w v) (g.degree v) := sub_nonneg.2 b2
    exact ⟨(hr.nonneg a3).trans (le_max_left _ _),
      max_le (hr.le_one a3 (sub_le_self _ a1)) (hr.le_one b3 (sub_le_self _ b1))⟩

/-- C77.  With positive weights that rounding leaves unchanged, `edge_disparity` never raises, gives exactly one score to every
edge, under the ordered pair of its ends, by the documented formula with every operation rounded, and every score is between 0
and 1, reversed or not. -/
theorem edgeDisparityA_positive [PyOrd V] {ar : Arith K} (hr : Rounding ar.rnd) (hp : UnitPow ar.pow)
    (ho : OrderedKeys V) {g : Graph V (Val K)} (h : g.WF) (hd : g.directed = false) (hm : g.multi = false) {attr : String}
    {w : V → V → K} (hsym : ∀ u v, w u v = w v u) (hw : g.Weighted attr w)
    (hpos : ∀ u v, g.hasEdge u v = true → 0 < w u v ∧ ar.rnd (w u v) = w u v) (reverse : Bool) :
    ∃ d, edgeDisparityA ar g attr reverse = .ok d ∧ d.keys.Nodup ∧
      (∀ u v x, d.get? (u, v) = some x ↔
        u ≤ v ∧ g.hasEdge u v = true ∧ x = g.roundedDisparity ar.rnd ar.pow reverse w u v) ∧
      ∀ k x, d.get? k = some x → 0 ≤ x ∧ x ≤ 1 := by
  obtain ⟨d, h1, h2, h3⟩ := edgeDisparityA_exact ar ho h hd hm hsym hw
    (fun u v he => (roundedDisparity_range hr hp h hd hsym hpos he reverse).1.ne') reverse
  refine ⟨d, h1, h2, h3, ?_⟩
  rintro ⟨u, v⟩ x hx
  obtain ⟨_, he, rfl⟩ := (h3 u v x).1 hx
  exact (roundedDisparity_range hr hp h hd hsym hpos he reverse).2

/-- C77.  The reversed scores are 1 minus the scores, rounded. -/
theorem edgeDisparityA_reverse [PyOrd V] {ar : Arith K} (hr : Rounding ar.rnd) (hp : UnitPow ar.pow)
    (ho : OrderedKeys V) {g : Graph V (Val K)} (h : g.WF) (hd : g.directed = false) (hm : g.multi = false) {attr : String}
    {w : V → V → K} (hsym : ∀ u v, w u v = w v u) (hw : g.Weighted attr w)
    (hpos : ∀ u v, g.hasEdge u v = true → 0 < w u v ∧ ar.rnd (w u v) = w u v) :
    ∃ d d', edgeDisparityA ar g attr false = .ok d ∧ edgeDisparityA ar g attr true = .ok d' ∧
      ∀ k, d'.get? k = (d.get? k).map (fun x => ar.rnd (1 - x)) := by
  obtain ⟨d, h1, _, h3, _⟩ := edgeDisparityA_positive hr hp ho h hd hm hsym hw hpos false
  obtain ⟨d', h1', _, h3', _⟩ := edgeDisparityA_positive hr hp ho h hd hm hsym hw hpos true
  refine ⟨d, d', h1, h1', ?_⟩
  rintro ⟨u, v⟩
  apply Option.ext
  intro x
  rw [h3']
  simp only [Option.map_eq_some_iff, h3]
  have key : g.hasEdge u v = true → g.roundedDisparity ar.rnd ar.pow true w u v =
      ar.rnd (1 - g.roundedDisparity ar.rnd ar.pow false w u v) := by
    intro he
    have he' : g.hasEdge v u = true := by rwa [Graph.hasEdge_comm hd]
    have k1 := weight_le_roundedStrength hr h hpos he
    have k2 := weight_le_roundedStrength hr h hpos he'
    rw [hsym v u] at k2
    have hw := (hpos u v he).1
    have a2 := (sideScore_range hr hp hw k1 (g.degree u)).2
    have b2 := (sideScore_range hr hp hw k2 (g.degree v)).2
    unfold Graph.roundedDisparity
    simp only [if_true, Bool.false_eq_true, if_false]
    rcases le_total (sideScore ar.rnd ar.pow (w u v) (g.roundedStrength ar.rnd w u) (g.degree u))
      (sideScore ar.rnd ar.pow (w u v) (g.roundedStrength ar.rnd w v) (g.degree v)) with hle | hle
    · rw [min_eq_left hle, max_eq_left (hr.mono (sub_nonneg.2 b2) (sub_le_sub_left hle 1))]
    · rw [min_eq_right hle, max_eq_right (hr.mono (sub_nonneg.2 a2) (sub_le_sub_left hle 1))]
  constructor
  · rintro ⟨a, b, rfl⟩; exact ⟨_, ⟨a, b, rfl⟩, (key b).symm⟩
  · rintro ⟨_, ⟨a, b, rfl⟩, rfl⟩; exact ⟨a, b, (key b).symm⟩

theorem roundedDisparity_comm (rnd : K → K) (pow : K → Nat → K) {g : Graph V (Val K)} {w : V → V → K}
    (hsym : ∀ u v, w u v = w v u) (u v : V) :
    g.roundedDisparity rnd pow false w u v = g.roundedDisparity rnd pow false w v u := by
  unfold Graph.roundedDisparity
  simp only [Bool.false_eq_true, if_false]
  rw [hsym v u, min_comm]

open Classical in
/-- Whatever the operations on numbers, once the scores are known the backbone is made of the edges whose score does not exceed
`alpha`, plus those of the maximum spanning trees if asked to. -/
theorem multiscaleBackboneN_exact [PyOrd V] [AttrVal (Val K)] {ops : NumOps K} (ulongMax : Nat)
    (ho : OrderedKeys V) {g : Graph V (Val K)} (h : g.WF) (hd : g.directed = false) {attr : String} {f : V → V → K}
    (hf : ∀ u v, f u v = f v u) {d : Dict (V × V) K} (h1 : edgeDisparityN ops g attr false = .ok d)
    (h3 : ∀ u v x, d.get? (u, v) = some x ↔ u ≤ v ∧ g.hasEdge u v = true ∧ x = f u v) (alpha : K) (keepConnected : Bool)
    (hu : keepConnected = true → (unionOfMaximumSpanningTrees ulongMax g "weight").err = none)
    (hkw : ∀ e ∈ g.edgesData, EdgeKwSafe g.multi e.2.2) :
    ∃ g', multiscaleBackboneN ops ulongMax g alpha attr keepConnected = .ok g' ∧ g'.WF ∧
      g'.directed = g.directed ∧ g'.multi = g.multi ∧ g'.attrs = g.attrs ∧ g'.node = g.node ∧
      g'.edgesData = g.edgesData.filter (fun e => decide (f e.1 e.2.1 ≤ alpha ∨
        keepConnected = true ∧ ∃ b, (e.1, e.2.1, b) ∈ (unionOfMaximumSpanningTrees ulongMax g "weight").yields)) := by
  have hA : FactoryAnswers (backboneFactoryN ops alpha attr) g (fun u v _ => decide (f u v ≤ alpha)) := by
    refine ⟨disparityPredicate d alpha, by simp only [backboneFactoryN, h1], ?_⟩
    rintro ⟨u, v, a⟩ he
    have hedge : g.hasEdge u v = true :=
      (hasEdge_listed h).2 (.inl (by rw [edges_eq_map]; exact List.mem_map.2 ⟨_, he, rfl⟩))
    unfold disparityPredicate Dict.getItem
    simp only [ho u v]
    by_cases hlt : v < u
    · have : d.get? (v, u) = some (f v u) := (h3 _ _ _).2 ⟨hlt.le, by rw [Graph.hasEdge_comm hd]; exact hedge, rfl⟩
      simp only [decide_eq_true hlt, if_true, this, hf v u]
    · have : d.get? (u, v) = some (f u v) := (h3 _ _ _).2 ⟨not_lt.1 hlt, hedge, rfl⟩
      simp only [decide_eq_false hlt, Bool.false_eq_true, if_false, this]
  obtain ⟨s, hs, hpart⟩ := sparsifier_partition ulongMax (backboneFactoryN (V := V) ops alpha attr) keepConnected
  obtain ⟨g', e1, e2, e3, e4, e5, e6, e7⟩ := sparsifier_filter hs h hA hu hkw
  refine ⟨g', ?_, e2, e3, e4, e5, e6, ?_⟩
  · unfold multiscaleBackboneN
    rw [hs]; exact e1
  · obtain ⟨q, hq, hrel, -⟩ := hpart g _ hA hu
    rw [e7, hrel]
    unfold edgesData
    rw [List.filter_map]
    congr 1
    apply List.filter_congr
    rintro ⟨u, v, k, a⟩ _
    rw [Bool.eq_iff_iff, hq]
    simp

open Classical in
/-- C77.  The backbone keeps exactly the edges whose rounded score is at most `alpha` (and, with `keep_connected`, those of the
maximum spanning trees). -/
theorem multiscaleBackboneA_exact [PyOrd V] [AttrVal (Val K)] {ar : Arith K} (hr : Rounding ar.rnd) (hp : UnitPow ar.pow)
    (ulongMax : Nat) (ho : OrderedKeys V) {g : Graph V (Val K)} (h : g.WF) (hd : g.directed = false) (hm : g.multi = false)
    {attr : String} {w : V → V → K} (hsym : ∀ u v, w u v = w v u) (hw : g.Weighted attr w)
    (hpos : ∀ u v, g.hasEdge u v = true → 0 < w u v ∧ ar.rnd (w u v) = w u v) (alpha : K) (keepConnected : Bool)
    (hu : keepConnected = true → (unionOfMaximumSpanningTrees ulongMax g "weight").err = none)
    (hkw : ∀ e ∈ g.edgesData, EdgeKwSafe g.multi e.2.2) :
    ∃ g', multiscaleBackboneA ar ulongMax g alpha attr keepConnected = .ok g' ∧ g'.WF ∧
      g'.directed = g.directed ∧ g'.multi = g.multi ∧ g'.attrs = g.attrs ∧ g'.node = g.node ∧
      g'.edgesData = g.edgesData.filter (fun e => decide (g.roundedDisparity ar.rnd ar.pow false w e.1 e.2.1 ≤ alpha ∨
        keepConnected = true ∧ ∃ b, (e.1, e.2.1, b) ∈ (unionOfMaximumSpanningTrees ulongMax g "weight").yields)) := by
  obtain ⟨d, h1, -, h3, -⟩ := edgeDisparityA_positive hr hp ho h hd hm hsym hw hpos false
  exact multiscaleBackboneN_exact ulongMax ho h hd (fun u v => roundedDisparity_comm _ _ hsym u v) h1 h3 alpha keepConnected hu hkw

/-- C77.  Raising `alpha` keeps a superset of the edges; from 1 on everything is kept, and nothing below 0. -/
theorem multiscaleBackboneA_monotone [PyOrd V] [AttrVal (Val K)] {ar : Arith K} (hr : Rounding ar.rnd) (hp : UnitPow ar.pow)
    (ulongMax : Nat) (ho : OrderedKeys V) {g : Graph V (Val K)} (h : g.WF) (hd : g.directed = false) (hm : g.multi = false)
    {attr : String} {w : V → V → K} (hsym : ∀ u v, w u v = w v u) (hw : g.Weighted attr w)
    (hpos : ∀ u v, g.hasEdge u v = true → 0 < w u v ∧ ar.rnd (w u v) = w u v) {alpha beta : K} (hab : alpha ≤ beta)
    (hkw : ∀ e ∈ g.edgesData, EdgeKwSafe g.multi e.2.2) :
    ∃ g₁ g₂, multiscaleBackboneA ar ulongMax g alpha attr false = .ok g₁ ∧
      multiscaleBackboneA ar ulongMax g beta attr false = .ok g₂ ∧ g₁.edgesData <+ g₂.edgesData ∧
      (1 ≤ beta → g₂.edgesData = g.edgesData) ∧ (alpha < 0 → g₁.edgesData = []) := by
  classical
  obtain ⟨g₁, a1, -, -, -, -, -, a2⟩ :=
    multiscaleBackboneA_exact hr hp ulongMax ho h hd hm hsym hw hpos alpha false (by simp) hkw
  obtain ⟨g₂, b1, -, -, -, -, -, b2⟩ :=
    multiscaleBackboneA_exact hr hp ulongMax ho h hd hm hsym hw hpos beta false (by simp) hkw
  have hrange : ∀ e ∈ g.edgesData, 0 ≤ g.roundedDisparity ar.rnd ar.pow false w e.1 e.2.1 ∧
      g.roundedDisparity ar.rnd ar.pow false w e.1 e.2.1 ≤ 1 := by
    intro e he
    exact (roundedDisparity_range hr hp h hd hsym hpos ((hasEdge_listed h).2 (.inl (by
      rw [edges_eq_map]; exact List.mem_map.2 ⟨_, he, rfl⟩))) false).2
  refine ⟨g₁, g₂, a1, b1, ?_, ?_, ?_⟩
  · rw [a2, b2]
    apply List.monotone_filter_right
    intro e he
    simp only [Bool.false_eq_true, false_and, or_false, decide_eq_true_eq] at he ⊢
    exact he.trans hab
  · intro h1
    rw [b2, List.filter_eq_self]
    intro e he
    simp [(hrange e he).2.trans h1]
  · intro h1
    rw [a2, List.filter_eq_nil_iff]
    intro e he
    simp [h1.trans_le (hrange e he).1]

/-- Rounding to doubles is such a rounding. -/
theorem round64_rounding [FloorRing K] : Rounding (round64 : K → K) where
  zero := round64_zero
  one := round64_one
  mono := round64_mono
  idem := fun hx => round64_float (round64_nonneg hx) (round64_isFloat _)

/-- Correctly rounded powers are such powers. -/
theorem pow64_unit [FloorRing K] : UnitPow (fun (x : K) n => round64 (x ^ n)) := by
  intro x n h0 h1
  exact ⟨round64_nonneg (pow_nonneg h0 n), round64_rounding.le_one (pow_nonneg h0 n) (pow_le_one₀ h0 h1)⟩

end

/-! ### Order of edges -/

/-- Double precision, with correctly rounded powers. -/
def arith64 : Arith ℚ := ⟨round64, fun x n => round64 (x ^ n)⟩

/-- A star whose center 0 has an edge of weight `2 ^ 53` and two of weight 1. -/
def heavyFirst : Graph Int (Val ℚ) :=
  ⟨false, false, [], [(0, []), (1, []), (2, []), (3, [])],
    [⟨0, 1, [(.int 0, [(.str "weight", .num (2 ^ 53))])]⟩, ⟨0, 2, [(.int 0, [(.str "weight", .num 1)])]⟩,
     ⟨0, 3, [(.int 0, [(.str "weight", .num 1)])]⟩]⟩

/-- The same star, its heavy edge being added last. -/
def heavyLast : Graph Int (Val ℚ) :=
  ⟨false, false, [], [(0, []), (1, []), (2, []), (3, [])],
    [⟨0, 2, [(.int 0, [(.str "weight", .num 1)])]⟩, ⟨0, 3, [(.int 0, [(.str "weight", .num 1)])]⟩,
     ⟨0, 1, [(.int 0, [(.str "weight", .num (2 ^ 53))])]⟩]⟩

/-- The weights of these stars, which are floats. -/
def heavyWeights (u v : Int) : ℚ := if u = 1 ∨ v = 1 then 2 ^ 53 else 1

/-- C77, a case: the theorems above apply to both stars.  C74 is false of floats: the score of the heavy edge is 0 or not
depending on the order in which the edges were added, so that the backbone of level 0 keeps it or not. -/
theorem edgeDisparity64_order :
    heavyFirst.WF ∧ heavyLast.WF ∧ heavyFirst.Same heavyLast ∧
    (heavyFirst.Weighted "weight" heavyWeights ∧ heavyLast.Weighted "weight" heavyWeights) ∧
    (∀ u v, heavyWeights u v = heavyWeights v u ∧ 0 < heavyWeights u v ∧ round64 (heavyWeights u v) = heavyWeights u v) ∧
    (edgeDisparityA arith64 heavyFirst "weight" false).map (fun d => d.get? (0, 1)) = .ok (some 0) ∧
    (edgeDisparityA arith64 heavyLast "weight" false).map (fun d => (d.get? (0, 1)).map (fun x => decide (0 < x))) =
      .ok (some true) ∧
    (multiscaleBackboneA arith64 (2^64-1) heavyFirst 0 "weight" false).map (·.edges) = .ok [(0, 1)] ∧
    (multiscaleBackboneA arith64 (2^64-1) heavyLast 0 "weight" false).map (·.edges) = .ok [] := by
  have h : heavyFirst.WF := by constructor <;> decide
  have h' : heavyLast.WF := by constructor <;> decide
  have hl : heavyFirst.links.Perm heavyLast.links := by
    show [_, _, _].Perm [_, _, _]
    exact (List.Perm.swap _ _ _).trans (List.Perm.cons _ (List.Perm.swap _ _ _))
  refine ⟨h, h', ⟨rfl, rfl, rfl, fun _ => rfl, ?_⟩, ⟨?_, ?_⟩, ?_, by decide +kernel, by decide +kernel, by decide +kernel,
    by decide +kernel⟩
  · intro u v k
    unfold Graph.edge?
    congr 1
    apply Option.ext
    intro d
    rw [Graph.keydict?_eq_some h, Graph.keydict?_eq_some h']
    simp only [hl.mem_iff]
    rfl
  · have : ∀ e ∈ heavyFirst.edgesData, ∃ x ∈ e.2.2.get? (.str "weight"), x.toNum = .ok (heavyWeights e.1 e.2.1) := by
      decide +kernel
    intro e he
    obtain ⟨x, hx, hn⟩ := this e he
    exact ⟨x, hx, hn⟩
  · have : ∀ e ∈ heavyLast.edgesData, ∃ x ∈ e.2.2.get? (.str "weight"), x.toNum = .ok (heavyWeights e.1 e.2.1) := by
      decide +kernel
    intro e he
    obtain ⟨x, hx, hn⟩ := this e he
    exact ⟨x, hx, hn⟩
  · intro u v
    refine ⟨by unfold heavyWeights; simp only [or_comm], ?_, ?_⟩
    · unfold heavyWeights; split <;> norm_num
    · unfold heavyWeights
      split
      · have := round64_float (K := ℚ) (x := 2 ^ 53) (by norm_num) ⟨1, 53, by norm_num, by norm_num, by norm_num⟩
        exact this
      · exact round64_one

end Pelote
