import Verif.Props.DisparityError

/-! C93: edge disparities computed with floats from Python 3.12 on, where `sum` compensates the rounding errors. -/
set_option linter.unusedSectionVars false
namespace Pelote
open Graph

section
variable {K : Type} [Field K] [LinearOrder K] [IsStrictOrderedRing K] [FloorRing K]

/-- C93.  The compensated sum of at most `2 ** 24` nonnegative floats is a float, hardly further from the exact sum than a
correctly rounded one, whatever their number, and no less than any of them. -/
theorem compensatedSum_error {l : List K} (hl : ∀ x ∈ l, IsFloat64 x ∧ 0 ≤ x) (hn : l.length ≤ 2 ^ 24) :
    IsFloat64 (compensatedSum round64 l) ∧
      |compensatedSum round64 l - l.sum| ≤ (1 / 2 ^ 53 + 1 / 2 ^ 55) * l.sum ∧
      ∀ x ∈ l, x ≤ compensatedSum round64 l := by
  cases l with
  | nil => exact ⟨⟨0, 0, by norm_num, by norm_num, by simp [compensatedSum]⟩, by simp [compensatedSum], by simp⟩
  | cons a l =>
    obtain ⟨ha, ha0⟩ := hl a (by simp)
    have hinit : SumState a (round64 (0 + a)) 0 0 0 0 := by
      rw [zero_add, round64_fix ha]
      exact ⟨ha, ha0, ha0, by simp, OnGrid.zero _, OnGrid.zero _, by simp, by simp, by simp, by simp⟩
    obtain ⟨E, A, hs⟩ := hinit.steps (l := l) (fun x hx => hl x (by simp [hx]))
    have hsum : (a :: l).sum = a + l.sum := List.sum_cons
    rw [hsum]
    have hle : ∀ x ∈ a :: l, x ≤ a + l.sum := by
      intro x hx
      rw [← hsum]
      exact List.single_le_sum (fun y hy => (hl y hy).2) x hx
    have hS0 := hs.nonneg'
    generalize hfc : l.foldl (compensatedStep round64) (round64 (0 + a), 0) = fc at hs
    obtain ⟨f, c⟩ := fc
    rw [zero_add] at hs
    simp only at hs
    -- the result is the rounded value of `f + c`
    have hres : compensatedSum round64 (a :: l) = round64 (f + c) := by
      unfold compensatedSum
      simp only [hfc]
      split
      · next h0 => rw [h0, add_zero, round64_fix hs.float]
      · rfl
    rw [hres]
    generalize a + l.sum = S at hs hS0 hle ⊢
    have hnK : ((l.length : ℕ) : K) * (1 / 2 ^ 53) ≤ 1 / 2 ^ 29 := by
      have h1 : l.length ≤ 2 ^ 24 := by rw [List.length_cons] at hn; omega
      have h2 : ((l.length : ℕ) : K) ≤ 2 ^ 24 := by exact_mod_cast h1
      calc _ ≤ (2 : K) ^ 24 * (1 / 2 ^ 53) := mul_le_mul_of_nonneg_right h2 (by positivity)
        _ = _ := by norm_num
    have hpow : (1 + 1 / 2 ^ 53 : K) ^ l.length - 1 ≤ 2 * (l.length * (1 / 2 ^ 53)) := by
      have := (relative_bounds (u := (1 / 2 ^ 53 : K)) (S := 1) (s := (1 + 1 / 2 ^ 53) ^ l.length) (n := l.length)
        (by positivity) (by norm_num) (hnK.trans (by norm_num)) one_pos (by
          rw [one_mul]; exact pow_le_pow_left₀ (by norm_num) (by norm_num) _) (by rw [one_mul])).2.2
      simpa using this
    have hk0 : (0 : K) ≤ l.length * (1 / 2 ^ 53) := by positivity
    have hsm := hs.small
    generalize (l.length : K) * (1 / 2 ^ 53) = q at hnK hpow hk0 hsm
    have hnear : |f + c - S| ≤ 1 / 2 ^ 56 * S := by
      have e1 : f + c - S = c - E := by rw [← hs.exact]; ring
      rw [e1]
      have hp1 : (0 : K) ≤ (1 + 1 / 2 ^ 53) ^ l.length - 1 := sub_nonneg.2 (one_le_pow₀ (by norm_num))
      have hp2 : (1 + 1 / 2 ^ 53 : K) ^ l.length ≤ 2 := by
        have : 2 * q ≤ 1 := by linarith [hnK, (by norm_num : (1 : K) / 2 ^ 29 ≤ 1 / 2)]
        linarith
      have hA : A ≤ q * (S * 2) := by
        exact hsm.trans (mul_le_mul_of_nonneg_left (mul_le_mul_of_nonneg_left hp2 hS0) hk0)
      have hA0 : 0 ≤ A := (abs_nonneg _).trans hs.le
      calc |c - E| ≤ ((1 + 1 / 2 ^ 53) ^ l.length - 1) * A := hs.near
        _ ≤ (2 * q) * (q * (S * 2)) := mul_le_mul hpow hA hA0 (by linarith)
        _ = 4 * (q * q) * S := by ring
        _ ≤ 4 * ((1 / 2 ^ 29) * (1 / 2 ^ 29)) * S :=
          mul_le_mul_of_nonneg_right (mul_le_mul_of_nonneg_left (mul_le_mul hnK hnK hk0 (by positivity)) (by norm_num)) hS0
        _ = _ := by norm_num
    have hfc0 : S * (1 - 1 / 2 ^ 56) ≤ f + c := by
      have := (abs_le.1 hnear).1
      linarith
    refine ⟨round64_isFloat _, ?_, ?_⟩
    · have r := round64_rel_grid (hs.float.onLeast.add hs.grid)
      have h0 : 0 ≤ f + c := (mul_nonneg hS0 (by norm_num)).trans hfc0
      rw [abs_of_nonneg h0] at r
      have h1 : f + c ≤ S * (1 + 1 / 2 ^ 56) := by
        have := (abs_le.1 hnear).2
        linarith
      have h2 : |round64 (f + c) - S| ≤ |round64 (f + c) - (f + c)| + |f + c - S| := by
        have : round64 (f + c) - S = (round64 (f + c) - (f + c)) + (f + c - S) := by ring
        rw [this]; exact abs_add_le _ _
      have h3 : 1 / 2 ^ 53 * (f + c) ≤ 1 / 2 ^ 53 * (S * (1 + 1 / 2 ^ 56)) := mul_le_mul_of_nonneg_left h1 (by positivity)
      have h4 : (1 / 2 ^ 53 * (1 + 1 / 2 ^ 56) + 1 / 2 ^ 56) * S ≤ (1 / 2 ^ 53 + 1 / 2 ^ 55) * S :=
        mul_le_mul_of_nonneg_right (by norm_num) hS0
      linarith
    · intro x hx
      obtain ⟨hxf, hx0⟩ := hl x hx
      have h1 := hle x hx
      rcases hx0.eq_or_lt with rfl | hx0
      · exact round64_nonneg ((mul_nonneg hS0 (by norm_num)).trans hfc0)
      · have h2 : x * (1 - 1 / 2 ^ 56) ≤ f + c := (mul_le_mul_of_nonneg_right h1 (by norm_num)).trans hfc0
        have h3 := round64_mono (mul_nonneg hx0.le (by norm_num)) h2
        rwa [round64_below hxf hx0] at h3

variable {V : Type} [LinearOrder V]

/-- A node of a simple graph has at most one self loop. -/
theorem loops_le_one {A : Type} {g : Graph V A} (h : g.WF) (hm : g.multi = false) (n : V) :
    ((g.edgesOf n).filter (fun e => e.2.1 = n)).length ≤ 1 := by
  have h1 : (g.edgesOf n).map (fun e => e.2.1) = g.neighbors n := by
    unfold edgesOf neighbors
    have : ∀ p ∈ g.adj n, p.2.length = 1 := by
      intro p hp
      obtain ⟨l, hl, hlp⟩ := List.mem_filterMap.1 hp
      have hk := congrArg List.length (h.simple hm l hl)
      simp only [Dict.keys, List.length_map, List.length_cons, List.length_nil] at hk
      unfold Link.from? at hlp
      split at hlp
      · obtain rfl := Option.some.inj hlp; simpa using hk
      · split at hlp
        · obtain rfl := Option.some.inj hlp; simpa using hk
        · cases hlp
    generalize g.adj n = L at this
    induction L with
    | nil => rfl
    | cons p L ih =>
      obtain ⟨m, d⟩ := p
      have hd := this (m, d) (by simp)
      rw [List.flatMap_cons, List.map_append, ih (fun q hq => this q (by simp [hq]))]
      match d, hd with
      | [ka], _ => rfl
  have h2 := List.nodup_iff_count_le_one.1 (neighbors_nodup h n) n
  rw [← h1, List.count_eq_length_filter, List.filter_map, List.length_map] at h2
  refine le_trans (le_of_eq ?_) h2
  congr 1

/-- The strength of a node computed with compensated sums: no less than the weight of any of its edges, and next to the exact
one, whatever the degree. -/
theorem strength312_error (pow : K → ℕ → K) {g : Graph V (Val K)} (h : g.WF) (hd : g.directed = false) (hm : g.multi = false)
    {w : V → V → K} (hsym : ∀ u v, w u v = w v u)
    (hpos : ∀ u v, g.hasEdge u v = true → 0 < w u v ∧ IsFloat64 (w u v)) {n : V} (hdeg : g.degree n ≤ 2 ^ 24) :
    |g.strengthN (Arith.ops312 ⟨round64, pow⟩) w n - g.nodeStrength w n| ≤ 5 / 2 ^ 54 * g.nodeStrength w n ∧
      ∀ m, g.hasEdge n m = true → w n m ≤ g.strengthN (Arith.ops312 ⟨round64, pow⟩) w n := by
  have hedge : ∀ e ∈ g.edgesOf n, g.hasEdge n e.2.1 = true := by
    rintro ⟨x, m, k, a⟩ he
    obtain ⟨_, l, hl, hs, _⟩ := (mem_edgesOf h).1 he
    exact Graph.hasEdge_iff.2 ⟨l, hl, hs⟩
  have hf : ∀ x ∈ (g.edgesOf n).map (fun e => w n e.2.1), IsFloat64 x ∧ 0 ≤ x := by
    intro x hx
    obtain ⟨e, he, rfl⟩ := List.mem_map.1 hx
    exact ⟨(hpos _ _ (hedge e he)).2, (hpos _ _ (hedge e he)).1.le⟩
  have hlen : ((g.edgesOf n).map (fun e => w n e.2.1)).length ≤ 2 ^ 24 := by
    rw [List.length_map]
    have := degree_eq_terms hd (g := g) n
    omega
  obtain ⟨s1, s2, s3⟩ := compensatedSum_error hf hlen
  have hmem : ∀ m, g.hasEdge n m = true → w n m ∈ (g.edgesOf n).map (fun e => w n e.2.1) := by
    intro m he
    obtain ⟨l, hl, hs⟩ := Graph.hasEdge_iff.1 he
    obtain ⟨⟨k, a⟩, hka⟩ := List.exists_mem_of_ne_nil _ (h.nonempty l hl)
    exact List.mem_map.2 ⟨(n, m, k, a), (mem_edgesOf h).2 ⟨rfl, l, hl, hs, hka⟩, rfl⟩
  have hloop := loops_le_one h hm n
  have hF : ∀ e ∈ (g.edgesOf n).filter (fun e => e.2.1 = n), IsFloat64 (w n e.2.1) ∧ 0 ≤ w n e.2.1 :=
    fun e he => hf _ (List.mem_map.2 ⟨e, (List.mem_filter.1 he).1, rfl⟩)
  have hS0 : 0 ≤ ((g.edgesOf n).map (fun e => w n e.2.1)).sum := List.sum_nonneg (fun x hx => (hf x hx).2)
  unfold Graph.nodeStrength
  rw [← sum_edgesOf h hd w hsym n]
  unfold strengthN
  simp only [Arith.ops312, Arith.ops]
  generalize (g.edgesOf n).map (fun e => w n e.2.1) = L at *
  generalize compensatedSum round64 L = r at *
  generalize L.sum = S at *
  generalize (g.edgesOf n).filter (fun e => e.2.1 = n) = F at hloop hF ⊢
  match F, hloop, hF with
  | [], _, _ =>
    simp only [List.foldl_nil, List.map_nil, List.sum_nil, add_zero]
    refine ⟨s2.trans (mul_le_mul_of_nonneg_right (by norm_num) hS0), fun m hm => s3 _ (hmem m hm)⟩
  | [e], _, hF =>
    obtain ⟨hx, hx0⟩ := hF e (by simp)
    simp only [List.foldl_cons, List.foldl_nil, List.map_cons, List.map_nil, List.sum_cons, List.sum_nil, add_zero]
    generalize w n e.2.1 = x at *
    have r0 : 0 ≤ r := by
      have := (abs_le.1 s2).1
      have h1 : (1 / 2 ^ 53 + 1 / 2 ^ 55) * S ≤ S := mul_le_of_le_one_left hS0 (by norm_num)
      linarith
    have e1 := round64_rel_grid (s1.onLeast.add hx.onLeast)
    rw [abs_of_nonneg (add_nonneg r0 hx0)] at e1
    constructor
    · rw [abs_le] at s2 e1 ⊢
      have h2 : 1 / 2 ^ 53 * (r + x) ≤ 1 / 2 ^ 53 * (S + x + (1 / 2 ^ 53 + 1 / 2 ^ 55) * S) :=
        mul_le_mul_of_nonneg_left (by linarith [s2.2]) (by positivity)
      have h3 : (1 / 2 ^ 53 + 1 / 2 ^ 55 + 1 / 2 ^ 53 * (1 + (1 / 2 ^ 53 + 1 / 2 ^ 55))) * S + 1 / 2 ^ 53 * x ≤ 5 / 2 ^ 54 * (S + x) := by
        have h4 : (1 / 2 ^ 53 + 1 / 2 ^ 55 + 1 / 2 ^ 53 * (1 + (1 / 2 ^ 53 + 1 / 2 ^ 55))) * S ≤ 5 / 2 ^ 54 * S :=
          mul_le_mul_of_nonneg_right (by norm_num) hS0
        have h5 : 1 / 2 ^ 53 * x ≤ 5 / 2 ^ 54 * x := mul_le_mul_of_nonneg_right (by norm_num) hx0
        linarith
      constructor <;> linarith [s2.1, s2.2, e1.1, e1.2]
    · intro m hm
      have h1 := s3 _ (hmem m hm)
      have h2 := round64_mono r0 (le_add_of_nonneg_right hx0 : r ≤ r + x)
      rw [round64_fix s1] at h2
      exact h1.trans h2
  | _ :: _ :: _, hl, _ => simp at hl

/-- From the two sides to the score. -/
theorem score_error {a b A B t : K} (ha0 : 0 ≤ a) (ha1 : a ≤ 1) (hb0 : 0 ≤ b) (hb1 : b ≤ 1) (ha : |a - A| ≤ t)
    (hb : |b - B| ≤ t) (reverse : Bool) :
    let x := if reverse then max (round64 (1 - a)) (round64 (1 - b)) else min a b
    0 ≤ x ∧ x ≤ 1 ∧ |x - (if reverse then 1 - min A B else min A B)| ≤ t + 1 / 2 ^ 54 := by
  have h54 : (0 : K) ≤ 1 / 2 ^ 54 := by positivity
  cases reverse
  · simp only [Bool.false_eq_true, if_false]
    refine ⟨le_min ha0 hb0, (min_le_left _ _).trans ha1, ?_⟩
    refine (abs_min_sub_min_le_max _ _ _ _).trans (max_le ?_ ?_) <;> linarith
  · simp only [if_true]
    have hr := round64_rounding (K := K)
    have u1 : 0 ≤ 1 - a := sub_nonneg.2 ha1
    have u2 : 0 ≤ 1 - b := sub_nonneg.2 hb1
    refine ⟨(hr.nonneg u1).trans (le_max_left _ _), max_le (hr.le_one u1 (by linarith)) (hr.le_one u2 (by linarith)), ?_⟩
    rw [← max_sub_sub_left]
    have rev : ∀ x y : K, 0 ≤ x → x ≤ 1 → |x - y| ≤ t → |round64 (1 - x) - (1 - y)| ≤ t + 1 / 2 ^ 54 := by
      intro x y h0 h1 h
      have := round64_unit (x := 1 - x) (by linarith) (by linarith)
      rw [abs_le] at this h ⊢
      constructor <;> linarith
    exact (abs_max_sub_max_le_max _ _ _ _).trans (max_le (rev _ _ ha0 ha1 ha) (rev _ _ hb0 hb1 hb))

/-- The distance allowed between the score computed with compensated sums and the exact one: the larger of the two degrees plus
five, in units of `2 ^ (-53)`. -/
def Graph.scoreError312 (g : Graph V (Val K)) (u v : V) : K := (max (g.degree u) (g.degree v) + 5) / 2 ^ 53

/-- C93.  On a simple undirected graph whose weights are positive floats, no degree being above `2 ** 24`, `edge_disparity`
computed with floats from Python 3.12 on never raises and gives exactly one score to each edge, under the ordered pair of its
ends; the score is between 0 and 1 and within `(d + 5) / 2 ** 53` of the exact one, `d` being the larger of the degrees of the
ends. -/
theorem edgeDisparity312_error [PyOrd V] {pow : K → ℕ → K} (hp : UnitPow pow)
    (hpow : ∀ x n, 0 ≤ x → x ≤ 1 → |pow x n - x ^ n| ≤ 1 / 2 ^ 52)
    (ho : OrderedKeys V) {g : Graph V (Val K)} (h : g.WF) (hd : g.directed = false) (hm : g.multi = false) {attr : String}
    {w : V → V → K} (hsym : ∀ u v, w u v = w v u) (hw : g.Weighted attr w)
    (hpos : ∀ u v, g.hasEdge u v = true → 0 < w u v ∧ IsFloat64 (w u v))
    (hdeg : ∀ n, g.degree n ≤ 2 ^ 24) (reverse : Bool) :
    ∃ f : V → V → K, ∃ d, edgeDisparityN (Arith.ops312 ⟨round64, pow⟩) g attr reverse = .ok d ∧ d.keys.Nodup ∧
      (∀ u v x, d.get? (u, v) = some x ↔ u ≤ v ∧ g.hasEdge u v = true ∧ x = f u v) ∧
      (∀ u v, f u v = f v u) ∧
      ∀ u v, g.hasEdge u v = true →
        0 ≤ f u v ∧ f u v ≤ 1 ∧ |f u v - g.exactScore w reverse u v| ≤ g.scoreError312 u v := by
  have side : ∀ a b, g.hasEdge a b = true →
      0 < g.strengthN (Arith.ops312 ⟨round64, pow⟩) w a ∧
      |sideScore round64 pow (w a b) (g.strengthN (Arith.ops312 ⟨round64, pow⟩) w a) (g.degree a) -
        (1 - w a b / g.nodeStrength w a) ^ (g.degree a - 1)| ≤ ((g.degree a : K) + 4) / 2 ^ 53 ∧
      0 ≤ sideScore round64 pow (w a b) (g.strengthN (Arith.ops312 ⟨round64, pow⟩) w a) (g.degree a) ∧
      sideScore round64 pow (w a b) (g.strengthN (Arith.ops312 ⟨round64, pow⟩) w a) (g.degree a) ≤ 1 := by
    intro a b hab
    have hw := (hpos a b hab).1
    obtain ⟨k0, k1⟩ := strength312_error pow h hd hm hsym hpos (hdeg a)
    have k1 := k1 b hab
    have k2 := weight_le_nodeStrength h hsym (fun u v he => (hpos u v he).1.le) hab
    have hs0 := hw.trans_le k1
    have hS0 := hw.trans_le k2
    refine ⟨hs0, ?_, sideScore_range round64_rounding hp hw k1 _⟩
    generalize g.strengthN (Arith.ops312 ⟨round64, pow⟩) w a = s at *
    generalize g.nodeStrength w a = S at *
    rw [abs_le] at k0
    have c1 : S / s - 1 ≤ 3 / 2 ^ 53 := by
      rw [sub_le_iff_le_add, div_le_iff₀ hs0]
      have h1 : S * (1 - 5 / 2 ^ 54) ≤ s := by linarith [k0.1]
      calc S ≤ (3 / 2 ^ 53 + 1) * (1 - 5 / 2 ^ 54) * S := le_mul_of_one_le_left hS0.le (by norm_num)
        _ = (3 / 2 ^ 53 + 1) * (S * (1 - 5 / 2 ^ 54)) := by ring
        _ ≤ _ := mul_le_mul_of_nonneg_left h1 (by positivity)
    have c2 : s / S - 1 ≤ 3 / 2 ^ 53 := by
      rw [sub_le_iff_le_add, div_le_iff₀ hS0]
      have h1 : s ≤ (5 / 2 ^ 54 + 1) * S := by linarith [k0.2]
      exact h1.trans (mul_le_mul_of_nonneg_right (by norm_num) hS0.le)
    refine (sideScore_error round64_rounding (fun x => round64_unit) hpow hw k1 k2 c1 c2).trans ?_
    have hdeg1 : 1 ≤ g.degree a := by
      rw [degree_eq_terms hd]
      obtain ⟨l, hl, hs⟩ := Graph.hasEdge_iff.1 hab
      obtain ⟨⟨k, at'⟩, hka⟩ := List.exists_mem_of_ne_nil _ (h.nonempty l hl)
      have := List.length_pos_of_mem ((mem_edgesOf h).2 ⟨rfl, l, hl, hs, hka⟩ : (a, b, k, at') ∈ g.edgesOf a)
      omega
    rw [Nat.cast_sub hdeg1, Nat.cast_one]
    exact le_of_eq (by ring)
  let s := g.strengthN (Arith.ops312 ⟨round64, pow⟩) w
  let f : V → V → K := fun u v =>
    if reverse then max (round64 (1 - sideScore round64 pow (w u v) (s u) (g.degree u)))
        (round64 (1 - sideScore round64 pow (w u v) (s v) (g.degree v)))
      else min (sideScore round64 pow (w u v) (s u) (g.degree u)) (sideScore round64 pow (w u v) (s v) (g.degree v))
  obtain ⟨d, h1, h2, h3⟩ := edgeDisparityN_exact (Arith.ops312 ⟨round64, pow⟩) ho h hd hm hsym hw reverse (f := f) (by
    intro u v x he hx
    have s1 := (side u v he).1.ne'
    have s2 := (side v u (by rwa [Graph.hasEdge_comm hd])).1.ne'
    show disparityScore _ reverse x (g.degree u) (g.degree v) (s u) (s v) = _
    have s1 : s u ≠ 0 := s1
    have s2 : s v ≠ 0 := s2
    simp only [disparityScore, hx, Arith.ops312, Arith.ops, pyDiv, s1, s2, if_false, Except.map, f, sideScore]
    cases reverse <;> rfl)
  refine ⟨f, d, h1, h2, h3, ?_, ?_⟩
  · intro u v
    simp only [f]
    rw [hsym u v, max_comm, min_comm]
  · intro u v he
    obtain ⟨-, a1, a2, a3⟩ := side u v he
    obtain ⟨-, b1, b2, b3⟩ := side v u (by rwa [Graph.hasEdge_comm hd])
    rw [hsym v u] at b1 b2 b3
    have hmax : ∀ n, n = u ∨ n = v →
        ((g.degree n : K) + 4) / 2 ^ 53 ≤ ((max (g.degree u) (g.degree v) : ℕ) + 4) / 2 ^ 53 := by
      intro n hn
      apply div_le_div_of_nonneg_right _ (by positivity)
      have : g.degree n ≤ max (g.degree u) (g.degree v) := by
        rcases hn with rfl | rfl
        · exact le_max_left _ _
        · exact le_max_right _ _
      have : (g.degree n : K) ≤ (max (g.degree u) (g.degree v) : ℕ) := by exact_mod_cast this
      linarith
    obtain ⟨c1, c2, c3⟩ := score_error a2 a3 b2 b3 (a1.trans (hmax u (.inl rfl))) (b1.trans (hmax v (.inr rfl))) reverse
    refine ⟨c1, c2, c3.trans ?_⟩
    unfold Graph.scoreError312
    push_cast
    have : (1 : K) / 2 ^ 54 ≤ 1 / 2 ^ 53 := by norm_num
    calc _ ≤ (max (g.degree u : K) (g.degree v) + 4) / 2 ^ 53 + 1 / 2 ^ 53 := by linarith
      _ = _ := by ring

/-- C93.  Unless the exact score of some edge is that close to `alpha`, the multiscale backbone computed with floats from Python
3.12 on is the exact one. -/
theorem multiscaleBackbone312_exact [PyOrd V] [AttrVal (Val K)] {pow : K → ℕ → K} (hp : UnitPow pow)
    (hpow : ∀ x n, 0 ≤ x → x ≤ 1 → |pow x n - x ^ n| ≤ 1 / 2 ^ 52) (ulongMax : Nat)
    (ho : OrderedKeys V) {g : Graph V (Val K)} (h : g.WF) (hd : g.directed = false) (hm : g.multi = false) {attr : String}
    {w : V → V → K} (hsym : ∀ u v, w u v = w v u) (hw : g.Weighted attr w)
    (hpos : ∀ u v, g.hasEdge u v = true → 0 < w u v ∧ IsFloat64 (w u v))
    (hdeg : ∀ n, g.degree n ≤ 2 ^ 24) (alpha : K) (keepConnected : Bool)
    (hu : keepConnected = true → (unionOfMaximumSpanningTrees ulongMax g "weight").err = none)
    (hkw : ∀ e ∈ g.edgesData, EdgeKwSafe g.multi e.2.2)
    (hfar : ∀ e ∈ g.edges, g.scoreError312 e.1 e.2 < |g.disparity w e.1 e.2 - alpha|) :
    ∃ g₁ g₂, multiscaleBackboneN (Arith.ops312 ⟨round64, pow⟩) ulongMax g alpha attr keepConnected = .ok g₁ ∧
      multiscaleBackbone ulongMax g alpha attr keepConnected = .ok g₂ ∧ g₁.node = g₂.node ∧ g₁.edgesData = g₂.edgesData := by
  classical
  obtain ⟨f, d, f1, -, f3, f4, f5⟩ := edgeDisparity312_error hp hpow ho h hd hm hsym hw hpos hdeg false
  obtain ⟨g₁, a1, -, -, -, -, a2, a3⟩ := multiscaleBackboneN_exact ulongMax ho h hd f4 f1 f3 alpha keepConnected hu hkw
  obtain ⟨g₂, b1, -, -, -, -, b2, b3⟩ := multiscaleBackbone_exact ulongMax ho h hd hm hsym hw (fun u v he => (hpos u v he).1)
    alpha keepConnected hu hkw
  refine ⟨g₁, g₂, a1, b1, a2.trans b2.symm, ?_⟩
  rw [a3, b3]
  apply List.filter_congr
  rintro ⟨u, v, a⟩ he
  have hmem : (u, v) ∈ g.edges := by rw [edges_eq_map]; exact List.mem_map.2 ⟨_, he, rfl⟩
  have hedge : g.hasEdge u v = true := (hasEdge_listed h).2 (.inl hmem)
  have e1 := (f5 u v hedge).2.2
  have e2 := hfar _ hmem
  simp only [Graph.exactScore, Bool.false_eq_true, if_false] at e1
  have key : f u v ≤ alpha ↔ g.disparity w u v ≤ alpha := by
    have h0 : 0 ≤ g.scoreError312 u v := (abs_nonneg _).trans e1
    simp only at e2
    rw [abs_le] at e1
    rcases le_total (g.disparity w u v) alpha with hle | hle
    · rw [abs_of_nonpos (by simpa using hle)] at e2
      exact ⟨fun _ => hle, fun _ => by linarith⟩
    · rw [abs_of_nonneg (by simpa using hle)] at e2
      exact ⟨fun hc => by linarith [e1.1], fun hc => by linarith⟩
  simp only [key]

end

/-- C93, a case: both stars of `edgeDisparity64_order` meet the hypotheses; from Python 3.12 on the score of their heavy edge does
not depend on the order, and is the square of a number next to `2 / (2 ^ 53 + 2)`. -/
theorem heavy312 :
    (∀ u v, heavyFirst.hasEdge u v = true → 0 < heavyWeights u v ∧ IsFloat64 (heavyWeights u v)) ∧
    (∀ n, heavyFirst.degree n ≤ 2 ^ 24) ∧ heavyFirst.WF ∧ heavyFirst.Weighted "weight" heavyWeights ∧
    compensatedSum round64 [(2 : ℚ) ^ 53, 1, 1] = 2 ^ 53 + 2 ∧
    (edgeDisparityN arith64.ops312 heavyFirst "weight" false).map (fun d => d.get? (0, 1)) =
      (edgeDisparityN arith64.ops312 heavyLast "weight" false).map (fun d => d.get? (0, 1)) ∧
    (edgeDisparityN arith64.ops312 heavyFirst "weight" false).map (fun d => (d.get? (0, 1)).map (fun x => decide (0 < x))) =
      .ok (some true) := by
  obtain ⟨h1, h2, -, h3, -⟩ := heavyFirst_error
  refine ⟨h3, ?_, h1, h2, by decide +kernel, by decide +kernel, by decide +kernel⟩
  intro n
  rw [degree_eq h1]
  have h5 : degreeSpec heavyFirst n ≤ (heavyFirst.edges.map (fun _ => 2)).sum := by
    unfold degreeSpec
    apply List.sum_le_sum
    intro e _
    split_ifs <;> omega
  have h6 : (heavyFirst.edges.map (fun _ => 2)).sum = 6 := by decide +kernel
  show degreeSpec heavyFirst n ≤ 2 ^ 24
  omega

/-- A star with edges weighing 1, `2 ** -53` and twice `2 ** -106`, in this order. -/
def tieFirst : Graph Int (Val ℚ) :=
  ⟨false, false, [], [(0, []), (1, []), (2, []), (3, []), (4, [])],
    [⟨0, 1, [(.int 0, [(.str "weight", .num 1)])]⟩, ⟨0, 2, [(.int 0, [(.str "weight", .num (1 / 2 ^ 53))])]⟩,
     ⟨0, 3, [(.int 0, [(.str "weight", .num (1 / 2 ^ 106))])]⟩, ⟨0, 4, [(.int 0, [(.str "weight", .num (1 / 2 ^ 106))])]⟩]⟩

/-- The same star, its edges being added in the other order. -/
def tieLast : Graph Int (Val ℚ) := { tieFirst with links := tieFirst.links.reverse }

/-- C93.  The sum, hence the scores and the backbone, still depend on the order: C74 is false of floats whatever the version of
Python. -/
theorem edgeDisparity312_order :
    tieFirst.WF ∧ tieLast.WF ∧ tieLast.links = tieFirst.links.reverse ∧
    compensatedSum round64 [(1 : ℚ), 1 / 2 ^ 53, 1 / 2 ^ 106, 1 / 2 ^ 106] = 1 ∧
    compensatedSum round64 [(1 : ℚ) / 2 ^ 106, 1 / 2 ^ 106, 1 / 2 ^ 53, 1] = 1 + 1 / 2 ^ 52 ∧
    (edgeDisparityN arith64.ops312 tieFirst "weight" false).map (fun d => d.get? (0, 1)) = .ok (some 0) ∧
    (edgeDisparityN arith64.ops312 tieLast "weight" false).map (fun d => (d.get? (0, 1)).map (fun x => decide (0 < x))) =
      .ok (some true) ∧
    (multiscaleBackboneN arith64.ops312 (2^64-1) tieFirst 0 "weight" false).map (·.edges) = .ok [(0, 1)] ∧
    (multiscaleBackboneN arith64.ops312 (2^64-1) tieLast 0 "weight" false).map (·.edges) = .ok [] := by
  refine ⟨by constructor <;> decide +kernel, by constructor <;> decide +kernel, rfl, by decide +kernel, by decide +kernel,
    by decide +kernel, by decide +kernel, by decide +kernel, by decide +kernel⟩

end Pelote
