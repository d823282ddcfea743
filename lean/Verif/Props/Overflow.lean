import Verif.Lemmas.Overflow
import Verif.Props.NonFiniteDisparity

/-! C105: edge disparity and the multiscale backbone when strengths overflow the floats. -/
set_option linter.unusedSectionVars false
namespace Pelote
open Graph

section
variable {V K : Type} [LinearOrder V] [Field K] [LinearOrder K] [IsStrictOrderedRing K] [FloorRing K]
open XNum

theorem hasEdge_mem {g : Graph V (Val K)} (h : g.WF) {u v : V} (he : g.hasEdge u v = true) : u ∈ g.nodes := by
  obtain ⟨l, hl, hs⟩ := Graph.hasEdge_iff.1 he
  obtain ⟨h1, h2⟩ := h.ends l hl
  rcases samePair_iff.1 hs with e | e <;> simp_all

theorem capped_atLeast {s w : K} (h : w ≤ s) : (capped s).AtLeast w := by
  unfold capped
  split
  · exact .inr ⟨s, rfl, h⟩
  · exact .inl rfl

theorem sideOf_capped (pow : K → Nat → K) (g : Graph V (Val K)) (w : V → V → K) (n : V) (x : K) :
    sideOf pow x (capped (g.roundedStrength round64 w n)) (g.degree n) = g.overflowSide pow w n x := by
  unfold capped overflowSide
  by_cases h : g.roundedStrength round64 w n < 2 ^ 1024
  · rw [if_pos h, if_neg (not_le.2 h)]; rfl
  · rw [if_neg h, if_pos (not_lt.1 h)]; rfl

/-- C105.  On a simple undirected graph whose weights are positive floats, `edge_disparity` computed with floats up to Python
3.11 never raises and gives exactly one score to each edge, a number: the usual one, except that seen from a node the strength
of which overflows every edge has the score 1, the score of the least significant ones. -/
theorem edgeDisparity_overflow [PyOrd V] {pow : K → ℕ → K} (hp : UnitPow pow) (hp1 : ∀ n, pow 1 n = 1)
    (ho : OrderedKeys V) {g : Graph V (Val K)} (h : g.WF) (hd : g.directed = false) (hm : g.multi = false) {attr : String}
    {w : V → V → K} (hsym : ∀ u v, w u v = w v u) (hw : g.Weighted attr w)
    (hpos : ∀ u v, g.hasEdge u v = true → 0 < w u v ∧ IsFloat64 (w u v)) (reverse : Bool) :
    ∃ d, edgeDisparityN (ops64 pow) (g.mapAttrs Val.toX) attr reverse = .ok d ∧ d.keys.Nodup ∧
      ∀ u v x, d.get? (u, v) = some x ↔ u ≤ v ∧ g.hasEdge u v = true ∧
        x = .fin (scoreOf reverse (g.overflowSide pow w u (w u v)) (g.overflowSide pow w v (w u v))) := by
  have hpos' : ∀ u v, g.hasEdge u v = true → 0 < w u v ∧ round64 (w u v) = w u v := fun u v he =>
    ⟨(hpos u v he).1, round64_fix (hpos u v he).2⟩
  have := edgeDisparityN_exact (ops64 pow) ho (wf_mapAttrs Val.toX h) hd hm (w := fun u v => .fin (w u v))
    (fun u v => by rw [hsym]) (weighted_toX hw) reverse
    (f := fun u v => .fin (scoreOf reverse (g.overflowSide pow w u (w u v)) (g.overflowSide pow w v (w u v)))) (by
      intro u v x he hx
      rw [hasEdge_mapAttrs] at he
      have h1 := weight_le_roundedStrength round64_rounding h hpos' he
      have h2 := weight_le_roundedStrength round64_rounding h hpos' (u := v) (v := u) (by rwa [Graph.hasEdge_comm hd])
      rw [hsym v u] at h2
      rw [strength64 pow h hpos, strength64 pow h hpos, degree_mapAttrs _ _ _ hd, degree_mapAttrs _ _ _ hd,
        disparityScore64 hp hp1 (hpos u v he).1 (capped_atLeast h1) (capped_atLeast h2) reverse hx, sideOf_capped, sideOf_capped])
  simpa only [hasEdge_mapAttrs] using this

/-- C105.  The strength of a node overflows if and only if the weights of its edges, added up one after the other and rounded
at each addition, reach `2 ** 1024`; it does not when the exact strength is at most `2 ** 1023`. -/
theorem roundedStrength_lt_top {g : Graph V (Val K)} (h : g.WF) (hd : g.directed = false) {w : V → V → K}
    (hsym : ∀ u v, w u v = w v u) (hpos : ∀ u v, g.hasEdge u v = true → 0 < w u v ∧ IsFloat64 (w u v)) {n m : V}
    (he : g.hasEdge n m = true) (hdeg : g.degree n ≤ 2 ^ 52) (hS : g.nodeStrength w n ≤ 2 ^ 1023) :
    g.roundedStrength round64 w n < 2 ^ 1024 := by
  have hS0 : 0 < g.nodeStrength w n :=
    (hpos n m he).1.trans_le (weight_le_nodeStrength h hsym (fun u v he => (hpos u v he).1.le) he)
  obtain ⟨h1, h2⟩ := roundedStrength_error h hd hsym hpos he
  -- one addition less than the degree
  have hk : ((g.degree n - 1 : ℕ) : K) * (1 / 2 ^ 53) ≤ 1 / 2 - 1 / 2 ^ 53 := by
    have hdeg1 : 1 ≤ g.degree n := by
      rw [degree_eq_terms hd]
      obtain ⟨l, hl, hs⟩ := Graph.hasEdge_iff.1 he
      obtain ⟨⟨k, at'⟩, hka⟩ := List.exists_mem_of_ne_nil _ (h.nonempty l hl)
      have := List.length_pos_of_mem ((mem_edgesOf h).2 ⟨rfl, l, hl, hs, hka⟩ : (n, m, k, at') ∈ g.edgesOf n)
      omega
    have h3 : g.degree n - 1 ≤ 2 ^ 52 - 1 := by omega
    have h4 : ((g.degree n - 1 : ℕ) : K) ≤ (2 ^ 52 - 1 : ℕ) := by exact_mod_cast h3
    refine (mul_le_mul_of_nonneg_right h4 (by positivity)).trans ?_
    norm_num
  have hb := (relative_bounds (by positivity) (by norm_num) (hk.trans (by norm_num)) hS0 h1 h2).2.2
  rw [sub_le_iff_le_add, div_le_iff₀ hS0] at hb
  have h5 : 2 * (((g.degree n - 1 : ℕ) : K) * (1 / 2 ^ 53)) + 1 < 2 := by
    have : (0 : K) < 1 / 2 ^ 53 := by positivity
    linarith
  have h6 := mul_lt_mul_of_pos_right h5 hS0
  have h7 : 2 * g.nodeStrength w n ≤ 2 * 2 ^ 1023 := mul_le_mul_of_nonneg_left hS (by norm_num)
  have htop : (2 : K) * 2 ^ 1023 = 2 ^ 1024 := (pow_succ' _ _).symm
  rw [htop] at h7
  exact (hb.trans_lt h6).trans_le h7

/-- C105.  If no strength is above `2 ** 1023` and no degree above `2 ** 52`, nothing overflows up to Python 3.11: the scores are
those of floats without a largest exponent, of which C77, C92 and C104 tell. -/
theorem edgeDisparity_no_overflow [PyOrd V] {pow : K → ℕ → K} (hp : UnitPow pow) (hp1 : ∀ n, pow 1 n = 1)
    (ho : OrderedKeys V) {g : Graph V (Val K)} (h : g.WF) (hd : g.directed = false) (hm : g.multi = false) {attr : String}
    {w : V → V → K} (hsym : ∀ u v, w u v = w v u) (hw : g.Weighted attr w)
    (hpos : ∀ u v, g.hasEdge u v = true → 0 < w u v ∧ IsFloat64 (w u v)) (hdeg : ∀ n ∈ g.nodes, g.degree n ≤ 2 ^ 52)
    (hS : ∀ n ∈ g.nodes, g.nodeStrength w n ≤ 2 ^ 1023) (reverse : Bool) :
    ∃ d d', edgeDisparityA ⟨round64, pow⟩ g attr reverse = .ok d ∧
      edgeDisparityN (ops64 pow) (g.mapAttrs Val.toX) attr reverse = .ok d' ∧ d'.keys.Nodup ∧
      ∀ k, d'.get? k = (d.get? k).map XNum.fin := by
  have hpos' : ∀ u v, g.hasEdge u v = true → 0 < w u v ∧ round64 (w u v) = w u v := fun u v he =>
    ⟨(hpos u v he).1, round64_fix (hpos u v he).2⟩
  obtain ⟨d, e1, -, e2⟩ := edgeDisparityA_exact ⟨round64, pow⟩ ho h hd hm hsym hw (fun u v he =>
    ((hpos u v he).1.trans_le (weight_le_roundedStrength round64_rounding h hpos' he)).ne') reverse
  obtain ⟨d', f1, f2, f3⟩ := edgeDisparity_overflow hp hp1 ho h hd hm hsym hw hpos reverse
  refine ⟨d, d', e1, f1, f2, ?_⟩
  have hsc : ∀ u v, g.hasEdge u v = true → scoreOf reverse (g.overflowSide pow w u (w u v)) (g.overflowSide pow w v (w u v)) =
      g.roundedDisparity round64 pow reverse w u v := by
    intro u v he
    unfold overflowSide scoreOf roundedDisparity
    rw [if_neg (not_le.2 (roundedStrength_lt_top h hd hsym hpos he (hdeg u (hasEdge_mem h he)) (hS u (hasEdge_mem h he)))),
      if_neg (not_le.2 (roundedStrength_lt_top h hd hsym hpos (n := v) (m := u) (by rwa [Graph.hasEdge_comm hd])
        (hdeg v (hasEdge_mem h (by rwa [Graph.hasEdge_comm hd]))) (hS v (hasEdge_mem h (by rwa [Graph.hasEdge_comm hd])))))]
  rintro ⟨u, v⟩
  rcases hg : d.get? (u, v) with _ | x
  · rcases hg' : d'.get? (u, v) with _ | y
    · rfl
    · obtain ⟨k1, k2, -⟩ := (f3 u v y).1 hg'
      rw [(e2 u v _).2 ⟨k1, k2, rfl⟩] at hg
      cases hg
  · obtain ⟨k1, k2, rfl⟩ := (e2 u v x).1 hg
    exact (f3 u v _).2 ⟨k1, k2, by rw [hsc u v k2]⟩

/-- C105.  The same from Python 3.12 on, no degree being above `2 ** 24`: C93 and C104 tell of the scores. -/
theorem edgeDisparity312_no_overflow [PyOrd V] {pow : K → ℕ → K} (hp : UnitPow pow) (hp1 : ∀ n, pow 1 n = 1)
    (ho : OrderedKeys V) {g : Graph V (Val K)} (h : g.WF) (hd : g.directed = false) (hm : g.multi = false) {attr : String}
    {w : V → V → K} (hsym : ∀ u v, w u v = w v u) (hw : g.Weighted attr w)
    (hpos : ∀ u v, g.hasEdge u v = true → 0 < w u v ∧ IsFloat64 (w u v)) (hdeg : ∀ n ∈ g.nodes, g.degree n ≤ 2 ^ 24)
    (hS : ∀ n ∈ g.nodes, g.nodeStrength w n ≤ 2 ^ 1023) (reverse : Bool) :
    ∃ d d', edgeDisparityN (Arith.ops312 ⟨round64, pow⟩) g attr reverse = .ok d ∧
      edgeDisparityN (ops64_312 pow) (g.mapAttrs Val.toX) attr reverse = .ok d' ∧ d'.keys.Nodup ∧
      ∀ k, d'.get? k = (d.get? k).map XNum.fin := by
  have hle : ∀ u v, g.hasEdge u v = true → w u v ≤ g.strengthN (Arith.ops312 ⟨round64, pow⟩) w u := fun u v he =>
    (strength312_error pow h hd hm hsym hpos (hdeg u (hasEdge_mem h he))).2 v he
  have hle' : ∀ u v, g.hasEdge u v = true → w u v ≤ g.strengthN (Arith.ops312 ⟨round64, pow⟩) w v := fun u v he => by
    rw [hsym u v]; exact hle v u (by rwa [Graph.hasEdge_comm hd])
  let s := g.strengthN (Arith.ops312 ⟨round64, pow⟩) w
  let f : V → V → K := fun u v => scoreOf reverse (sideScore round64 pow (w u v) (s u) (g.degree u))
    (sideScore round64 pow (w u v) (s v) (g.degree v))
  obtain ⟨d, e1, -, e2⟩ := edgeDisparityN_exact (Arith.ops312 ⟨round64, pow⟩) ho h hd hm hsym hw reverse (f := f) (by
    intro u v x he hx
    have s1 : s u ≠ 0 := ((hpos u v he).1.trans_le (hle u v he)).ne'
    have s2 : s v ≠ 0 := ((hpos u v he).1.trans_le (hle' u v he)).ne'
    show disparityScore _ reverse x (g.degree u) (g.degree v) (s u) (s v) = _
    simp only [disparityScore, hx, Arith.ops312, Arith.ops, pyDiv, s1, s2, if_false, Except.map, f, sideScore, scoreOf]
    cases reverse <;> rfl)
  obtain ⟨d', f1, f2, f3⟩ := edgeDisparityN_exact (ops64_312 pow) ho (wf_mapAttrs Val.toX h) hd hm (w := fun u v => .fin (w u v))
    (fun u v => by rw [hsym]) (weighted_toX hw) reverse (f := fun u v => .fin (f u v)) (by
      intro u v x he hx
      rw [hasEdge_mapAttrs] at he
      have hu := hasEdge_mem h he
      have hv := hasEdge_mem h (u := v) (v := u) (by rwa [Graph.hasEdge_comm hd])
      rw [strength64_312 pow h hd hm hsym hpos (hdeg u hu) (hS u hu), strength64_312 pow h hd hm hsym hpos (hdeg v hv) (hS v hv),
        degree_mapAttrs _ _ _ hd, degree_mapAttrs _ _ _ hd, disparityScore64_312,
        disparityScore64 hp hp1 (hpos u v he).1 (.inr ⟨_, rfl, hle u v he⟩) (.inr ⟨_, rfl, hle' u v he⟩) reverse hx]
      rfl)
  simp only [hasEdge_mapAttrs] at f3
  refine ⟨d, d', e1, f1, f2, ?_⟩
  rintro ⟨u, v⟩
  rcases hg : d.get? (u, v) with _ | x
  · rcases hg' : d'.get? (u, v) with _ | y
    · rfl
    · obtain ⟨k1, k2, -⟩ := (f3 u v y).1 hg'
      rw [(e2 u v _).2 ⟨k1, k2, rfl⟩] at hg
      cases hg
  · obtain ⟨k1, k2, rfl⟩ := (e2 u v x).1 hg
    exact (f3 u v _).2 ⟨k1, k2, rfl⟩

/-- C105.  From Python 3.12 on, no degree being above `2 ** 24`, there is also exactly one score for each edge, a number: seen
from some nodes of strength above `2 ** 1023`, those which overflow, it is 1, and seen from the others it is that of floats
without a largest exponent. -/
theorem edgeDisparity312_overflow [PyOrd V] {pow : K → ℕ → K} (hp : UnitPow pow) (hp1 : ∀ n, pow 1 n = 1)
    (ho : OrderedKeys V) {g : Graph V (Val K)} (h : g.WF) (hd : g.directed = false) (hm : g.multi = false) {attr : String}
    {w : V → V → K} (hsym : ∀ u v, w u v = w v u) (hw : g.Weighted attr w)
    (hpos : ∀ u v, g.hasEdge u v = true → 0 < w u v ∧ IsFloat64 (w u v)) (hdeg : ∀ n ∈ g.nodes, g.degree n ≤ 2 ^ 24)
    (reverse : Bool) :
    ∃ (top : V → Bool) (s : V → K), (∀ n ∈ g.nodes, top n = true → 2 ^ 1023 < g.nodeStrength w n) ∧
      (∀ n ∈ g.nodes, |s n - g.nodeStrength w n| ≤ 5 / 2 ^ 54 * g.nodeStrength w n) ∧
      ∃ d, edgeDisparityN (ops64_312 pow) (g.mapAttrs Val.toX) attr reverse = .ok d ∧ d.keys.Nodup ∧
        ∀ u v x, d.get? (u, v) = some x ↔ u ≤ v ∧ g.hasEdge u v = true ∧
          x = .fin (scoreOf reverse (if top u then 1 else sideScore round64 pow (w u v) (s u) (g.degree u))
            (if top v then 1 else sideScore round64 pow (w u v) (s v) (g.degree v))) := by
  have hcases := fun n hn => strength64_312_cases pow h hd hm hpos (hdeg n hn)
  refine ⟨fun n => decide ((g.mapAttrs Val.toX).strengthN (ops64_312 pow) (fun u v => .fin (w u v)) n = .inf false),
    g.strengthN (Arith.ops312 ⟨round64, pow⟩) w, ?_, fun n hn => (strength312_error pow h hd hm hsym hpos (hdeg n hn)).1, ?_⟩
  · intro n hn ht
    by_contra hS
    have := of_decide_eq_true ht
    rw [strength64_312 pow h hd hm hsym hpos (hdeg n hn) (not_lt.1 hS)] at this
    cases this
  · have := edgeDisparityN_exact (ops64_312 pow) ho (wf_mapAttrs Val.toX h) hd hm (w := fun u v => .fin (w u v))
      (fun u v => by rw [hsym]) (weighted_toX hw) reverse (f := fun u v => .fin (scoreOf reverse
        (if decide ((g.mapAttrs Val.toX).strengthN (ops64_312 pow) (fun u v => .fin (w u v)) u = .inf false) then 1
          else sideScore round64 pow (w u v) (g.strengthN (Arith.ops312 ⟨round64, pow⟩) w u) (g.degree u))
        (if decide ((g.mapAttrs Val.toX).strengthN (ops64_312 pow) (fun u v => .fin (w u v)) v = .inf false) then 1
          else sideScore round64 pow (w u v) (g.strengthN (Arith.ops312 ⟨round64, pow⟩) w v) (g.degree v)))) (by
        intro u v x he hx
        rw [hasEdge_mapAttrs] at he
        have he' : g.hasEdge v u = true := by rwa [Graph.hasEdge_comm hd]
        have side : ∀ n m, g.hasEdge n m = true →
            ((g.mapAttrs Val.toX).strengthN (ops64_312 pow) (fun u v => .fin (w u v)) n).AtLeast (w n m) ∧
            sideOf pow (w n m) ((g.mapAttrs Val.toX).strengthN (ops64_312 pow) (fun u v => .fin (w u v)) n) (g.degree n) =
              if decide ((g.mapAttrs Val.toX).strengthN (ops64_312 pow) (fun u v => .fin (w u v)) n = .inf false) then 1
              else sideScore round64 pow (w n m) (g.strengthN (Arith.ops312 ⟨round64, pow⟩) w n) (g.degree n) := by
          intro n m hnm
          have hn := hasEdge_mem h hnm
          rcases hcases n hn with e | e
          · rw [e]
            exact ⟨.inr ⟨_, rfl, (strength312_error pow h hd hm hsym hpos (hdeg n hn)).2 m hnm⟩, by simp [sideOf]⟩
          · rw [e]
            exact ⟨.inl rfl, by simp [sideOf]⟩
        obtain ⟨a1, a2⟩ := side u v he
        obtain ⟨b1, b2⟩ := side v u he'
        rw [hsym v u] at b1 b2
        rw [degree_mapAttrs _ _ _ hd, degree_mapAttrs _ _ _ hd, disparityScore64_312,
          disparityScore64 hp hp1 (hpos u v he).1 a1 b1 reverse hx, a2, b2])
    simpa only [hasEdge_mapAttrs] using this

/-- C105.  The multiscale backbone computed with floats up to Python 3.11 has the nodes of the graph and the edges whose score,
overflow included, is at most `alpha`. -/
theorem multiscaleBackbone_overflow [PyOrd V] [AttrVal (Val (XNum K))] {pow : K → ℕ → K} (hp : UnitPow pow)
    (hp1 : ∀ n, pow 1 n = 1) (ho : OrderedKeys V) {g : Graph V (Val K)} (h : g.WF) (hd : g.directed = false)
    (hm : g.multi = false) {attr : String} {w : V → V → K} (hsym : ∀ u v, w u v = w v u) (hw : g.Weighted attr w)
    (hpos : ∀ u v, g.hasEdge u v = true → 0 < w u v ∧ IsFloat64 (w u v)) (alpha : K)
    (hkw : ∀ e ∈ (g.mapAttrs Val.toX).edgesData, EdgeKwSafe g.multi e.2.2) :
    ∃ g', multiscaleBackbone64 (ops64 pow) (g.mapAttrs Val.toX) (.fin alpha) attr = .ok g' ∧ g'.WF ∧
      g'.node = (g.mapAttrs Val.toX).node ∧
      g'.edgesData = (g.mapAttrs Val.toX).edgesData.filter (fun e =>
        decide (min (g.overflowSide pow w e.1 (w e.1 e.2.1)) (g.overflowSide pow w e.2.1 (w e.1 e.2.1)) ≤ alpha)) := by
  obtain ⟨d, h1, -, h3⟩ := edgeDisparity_overflow hp hp1 ho h hd hm hsym hw hpos false
  have ha : FactoryAnswers (backboneFactory64 (ops64 pow) (.fin alpha) attr) (g.mapAttrs Val.toX) (fun u v _ =>
      decide (min (g.overflowSide pow w u (w u v)) (g.overflowSide pow w v (w u v)) ≤ alpha)) := by
    refine ⟨disparityPredicateX d (.fin alpha), by rw [backboneFactory64]; simp only [h1], ?_⟩
    rintro ⟨u, v, a⟩ he
    have hedge : g.hasEdge u v = true := by
      rw [← hasEdge_mapAttrs Val.toX]
      exact (hasEdge_listed (wf_mapAttrs Val.toX h)).2 (.inl (by rw [edges_eq_map]; exact List.mem_map.2 ⟨_, he, rfl⟩))
    unfold disparityPredicateX Dict.getItem
    simp only [ho u v]
    by_cases hlt : v < u
    · have := (h3 v u _).2 ⟨hlt.le, by rw [Graph.hasEdge_comm hd]; exact hedge, rfl⟩
      simp only [decide_eq_true hlt, if_true, this, XNum.le, scoreOf, Bool.false_eq_true, if_false]
      rw [hsym v u, min_comm]
    · have := (h3 u v _).2 ⟨not_lt.1 hlt, hedge, rfl⟩
      simp only [decide_eq_false hlt, Bool.false_eq_true, if_false, this, XNum.le, scoreOf]
  obtain ⟨pred, k1, ha⟩ := ha
  obtain ⟨g', e1, e2, -, -, -, e6, e7⟩ := filterEdges_exact (wf_mapAttrs Val.toX h) ha (fun e he _ => hkw e he)
  refine ⟨g', Eq.trans ?_ e1, e2, e6, e7⟩
  unfold multiscaleBackbone64 Sparsifier.filter filterEdges defaultGenerator
  simp only [k1]
  exact filterLoop_eq _ (g.mapAttrs Val.toX).edgesKeys (g.mapAttrs Val.toX).createEmptyCopy

end

/-! ### Witness -/

/-- A star whose center 0 has two edges of weight `2 ^ e` and one of weight 1. -/
def giantStar (e : Nat) : Graph Int (Val ℚ) :=
  ⟨false, false, [], [(0, []), (1, []), (2, []), (3, [])],
    [⟨0, 1, [(.int 0, [(.str "weight", .num (2 ^ e))])]⟩, ⟨0, 2, [(.int 0, [(.str "weight", .num (2 ^ e))])]⟩,
     ⟨0, 3, [(.int 0, [(.str "weight", .num 1)])]⟩]⟩

/-- A value as a multigraph edge key; no case is met on simple graphs. -/
local instance : AttrVal (Val (XNum ℚ)) where
  asKey _ := .ok none

/-- C105, a finding: with two edges of weight `2 ** 1023`, a float, the strength of the center overflows and every score is 1, so
that the backbone at 0.3 is empty, where the exact one, and that of the same star with weights four times less, has the two
heavy edges. -/
theorem giantStar_overflow :
    (giantStar 1023).WF ∧
    ((edgeDisparityN (XNum.ops64 arith64.pow) ((giantStar 1023).mapAttrs Val.toX) "weight" false).map (fun d => d.map Prod.snd)) =
      .ok [.fin 1, .fin 1, .fin 1] ∧
    ((edgeDisparityN (XNum.ops64_312 arith64.pow) ((giantStar 1023).mapAttrs Val.toX) "weight" false).map
      (fun d => d.map Prod.snd)) = .ok [.fin 1, .fin 1, .fin 1] ∧
    (multiscaleBackbone64 (XNum.ops64 arith64.pow) ((giantStar 1023).mapAttrs Val.toX) (.fin (3 / 10)) "weight").map (·.edges) =
      .ok [] ∧
    (multiscaleBackbone (2^64-1) (giantStar 1023) (3 / 10) "weight" false).map (·.edges) = .ok [(0, 1), (0, 2)] ∧
    (multiscaleBackbone64 (XNum.ops64 arith64.pow) ((giantStar 1021).mapAttrs Val.toX) (.fin (3 / 10)) "weight").map (·.edges) =
      .ok [(0, 1), (0, 2)] := by
  refine ⟨by constructor <;> decide +kernel, by decide +kernel, by decide +kernel, by decide +kernel, by decide +kernel,
    by decide +kernel⟩

/-- The weights of the star. -/
def giantWeights (e : Nat) (u v : Int) : ℚ := if u = 3 ∨ v = 3 then 1 else 2 ^ e

/-- The hypotheses of the theorems of this file hold on the star. -/
theorem giantStar_meets :
    (giantStar 1021).WF ∧ (giantStar 1021).Weighted "weight" (giantWeights 1021) ∧
    (∀ u v, giantWeights 1021 u v = giantWeights 1021 v u) ∧
    (∀ u v, (giantStar 1021).hasEdge u v = true → 0 < giantWeights 1021 u v ∧ IsFloat64 (giantWeights 1021 u v)) ∧
    (∀ n ∈ (giantStar 1021).nodes, (giantStar 1021).degree n ≤ 2 ^ 24 ∧
      (giantStar 1021).nodeStrength (giantWeights 1021) n ≤ 2 ^ 1023) ∧
    (∀ e ∈ ((giantStar 1021).mapAttrs Val.toX).edgesData, EdgeKwSafe false e.2.2) ∧
    UnitPow arith64.pow ∧ ∀ n, arith64.pow 1 n = 1 := by
  refine ⟨by constructor <;> decide +kernel, ?_, ?_, ?_, by decide +kernel, ?_, pow64_unit, ?_⟩
  · intro e he
    have : e ∈ [((0 : Int), (1 : Int), ([(.str "weight", .num (2 ^ 1021))] : Attrs (Val ℚ))),
      (0, 2, [(.str "weight", .num (2 ^ 1021))]), (0, 3, [(.str "weight", .num 1)])] := he
    simp only [List.mem_cons, List.not_mem_nil, or_false] at this
    rcases this with rfl | rfl | rfl
    · exact ⟨.num (2 ^ 1021), rfl, rfl⟩
    · exact ⟨.num (2 ^ 1021), rfl, rfl⟩
    · exact ⟨.num 1, rfl, rfl⟩
  · intro u v; unfold giantWeights; simp only [or_comm]
  · intro u v _
    unfold giantWeights
    split
    · exact ⟨one_pos, 1, 0, by norm_num, by norm_num, by simp⟩
    · exact ⟨by positivity, 1, 1021, by norm_num, by norm_num, by rw [Int.cast_one, one_mul]; exact (zpow_natCast 2 1021).symm⟩
  · intro e he
    have : e ∈ [((0 : Int), (1 : Int), ([(.str "weight", .num (.fin (2 ^ 1021)))] : Attrs (Val (XNum ℚ)))),
      (0, 2, [(.str "weight", .num (.fin (2 ^ 1021)))]), (0, 3, [(.str "weight", .num (.fin 1))])] := he
    simp only [List.mem_cons, List.not_mem_nil, or_false] at this
    rcases this with rfl | rfl | rfl <;> simp [EdgeKwSafe, Dict.keys]
  · intro n
    show round64 ((1 : ℚ) ^ n) = 1
    rw [one_pow, round64_one]

end Pelote
