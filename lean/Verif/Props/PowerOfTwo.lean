import Verif.Spec.Rescaled
import Verif.Props.CompensatedSum
import Verif.Props.DisparityFloat

/-! Property C104: units that are powers of two of each other give the very same floats. -/
namespace Pelote

/-! ### Rounding -/
section
variable {K : Type} [Field K] [LinearOrder K] [IsStrictOrderedRing K] [FloorRing K]

theorem log_two_mul (n : ℕ) {x : K} (hx : 0 < x) : Int.log 2 (2 ^ n * x) = n + Int.log 2 x := by
  have h2 : (0 : K) < 2 ^ n := by positivity
  have e : ((2 : ℕ) : K) = 2 := by norm_num
  have hl := Int.zpow_log_le_self (b := 2) (by norm_num) hx
  have hu := Int.lt_zpow_succ_log_self (b := 2) (by norm_num) x
  rw [e] at hl hu
  apply le_antisymm
  · have := (Int.lt_zpow_iff_log_lt (b := 2) (by norm_num) (x := n + Int.log 2 x + 1) (mul_pos h2 hx)).1 (by
      rw [e, add_assoc, zpow_add₀ two_ne_zero, zpow_natCast]
      exact mul_lt_mul_of_pos_left hu h2)
    omega
  · apply (Int.zpow_le_iff_le_log (b := 2) (by norm_num) (mul_pos h2 hx)).1
    rw [e, zpow_add₀ two_ne_zero, zpow_natCast]
    exact mul_le_mul_of_nonneg_left hl h2.le

theorem IsFloat64.two_mul {x : K} (h : IsFloat64 x) (n : ℕ) : IsFloat64 (2 ^ n * x) := by
  obtain ⟨m, e, hm, he, rfl⟩ := h
  refine ⟨m, n + e, hm, by omega, ?_⟩
  rw [zpow_add₀ two_ne_zero, zpow_natCast]
  ring

/-- Rounding a sum or a difference of floats, then doubling, or doubling first: the same. -/
theorem round64_two_mul (n : ℕ) {x : K} (h : OnGrid (-1074) x) : round64 (2 ^ n * x) = 2 ^ n * round64 x := by
  by_cases h0 : x = 0
  · subst h0; simp [round64_zero]
  have hpos : 0 < |x| := abs_pos.2 h0
  have hl : Int.log 2 |2 ^ n * x| = n + Int.log 2 |x| := by
    rw [abs_mul, abs_of_pos (by positivity : (0 : K) < 2 ^ n)]
    exact log_two_mul n hpos
  by_cases hc : -1074 ≤ Int.log 2 |x| - 52
  · have h1 : ulpExp x = Int.log 2 |x| - 52 := max_eq_left hc
    have h2 : ulpExp (2 ^ n * x) = n + ulpExp x := by
      unfold ulpExp
      rw [hl, max_eq_left hc, max_eq_left (by omega)]
      ring
    unfold round64
    rw [h2, zpow_add₀ two_ne_zero, zpow_natCast, mul_div_mul_left _ _ (by positivity)]
    ring
  · have hf : IsFloat64 x := by
      refine h.isFloat le_rfl ?_
      have hu := Int.lt_zpow_succ_log_self (b := 2) (by norm_num) |x|
      refine lt_of_lt_of_le hu ?_
      push_cast
      exact zpow_le_zpow_right₀ (by norm_num) (by omega)
    rw [round64_fix hf, round64_fix (hf.two_mul n)]

end

/-! ### Operations -/

/-- The operations commute with the multiplication by `c` of numbers satisfying `P`, quotients being left as they are. -/
structure NumOps.Homogeneous {K : Type} [Mul K] (ops : NumOps K) (P : K → Prop) (c : K) : Prop where
  add : ∀ a b, P a → P b → ops.add (c * a) (c * b) = c * ops.add a b ∧ P (ops.add a b)
  sum : ∀ l : List K, (∀ x ∈ l, P x) → ops.sum (l.map (c * ·)) = c * ops.sum l ∧ P (ops.sum l)
  div : ∀ a b, ops.div (c * a) (c * b) = ops.div a b

section
variable {K : Type} [Field K] [LinearOrder K] [IsStrictOrderedRing K]

theorem pyDiv_scale {c : K} (hc : c ≠ 0) (a b : K) : pyDiv (c * a) (c * b) = pyDiv a b := by
  unfold pyDiv
  by_cases hb : b = 0
  · simp [hb]
  · rw [if_neg hb, if_neg (mul_ne_zero hc hb), mul_div_mul_left _ _ hc]

/-- Exact numbers can be expressed in any unit. -/
theorem exact_homogeneous {c : K} (hc : c ≠ 0) (pow : K → Nat → K) :
    (Arith.ops ⟨id, pow⟩).Homogeneous (fun _ => True) c where
  add a b _ _ := by simp [Arith.ops, mul_add]
  sum l _ := by
    refine ⟨?_, trivial⟩
    have : ∀ (l : List K) (s : K), (l.map (c * ·)).foldl (fun s x => s + x) (c * s) = c * l.foldl (fun s x => s + x) s := by
      intro l
      induction l with
      | nil => intro s; rfl
      | cons x l ih => intro s; simp only [List.map_cons, List.foldl_cons]; rw [← mul_add]; exact ih _
    simpa [Arith.ops] using this l 0
  div a b := by simp only [Arith.ops]; rw [pyDiv_scale hc]

variable [FloorRing K]

/-- Floats, when `sum` adds them up one after the other. -/
theorem ops_homogeneous (n : ℕ) (pow : K → Nat → K) :
    (Arith.ops ⟨round64, pow⟩).Homogeneous (IsFloat64 (K := K)) (2 ^ n) where
  add a b ha hb := by
    simp only [Arith.ops]
    exact ⟨by rw [← mul_add]; exact round64_two_mul n (ha.onLeast.add hb.onLeast), round64_isFloat _⟩
  sum l hl := by
    have : ∀ s : K, IsFloat64 s → (l.map (2 ^ n * ·)).foldl (fun s x => round64 (s + x)) (2 ^ n * s) =
        2 ^ n * l.foldl (fun s x => round64 (s + x)) s ∧ IsFloat64 (l.foldl (fun s x => round64 (s + x)) s) := by
      induction l with
      | nil => intro s hs; exact ⟨rfl, hs⟩
      | cons x l ih =>
        intro s hs
        simp only [List.map_cons, List.foldl_cons]
        rw [← mul_add, round64_two_mul n (hs.onLeast.add (hl x (by simp)).onLeast)]
        exact ih (fun y hy => hl y (by simp [hy])) _ (round64_isFloat _)
    have h0 : IsFloat64 (0 : K) := ⟨0, 0, by norm_num, by norm_num, by simp⟩
    simpa [Arith.ops] using this 0 h0
  div a b := by simp only [Arith.ops]; rw [pyDiv_scale (by positivity)]

theorem compensatedStep_two_mul (n : ℕ) {s : K × K} {x : K} (h1 : IsFloat64 s.1) (h2 : IsFloat64 s.2) (hx : IsFloat64 x) :
    compensatedStep round64 (2 ^ n * s.1, 2 ^ n * s.2) (2 ^ n * x) =
      (2 ^ n * (compensatedStep round64 s x).1, 2 ^ n * (compensatedStep round64 s x).2) := by
  have hp : (0 : K) < 2 ^ n := by positivity
  have ht := round64_two_mul n (h1.onLeast.add hx.onLeast)
  have hf : IsFloat64 (round64 (s.1 + x)) := round64_isFloat _
  simp only [compensatedStep]
  rw [← mul_add, ht, abs_mul, abs_mul, abs_of_pos hp]
  simp only [mul_le_mul_iff_right₀ hp]
  refine Prod.ext rfl ?_
  simp only
  split
  · rw [← mul_sub, round64_two_mul n (h1.onLeast.sub hf.onLeast), ← mul_add,
      round64_two_mul n ((round64_isFloat _).onLeast.add hx.onLeast), ← mul_add,
      round64_two_mul n (h2.onLeast.add (round64_isFloat _).onLeast)]
  · rw [← mul_sub, round64_two_mul n (hx.onLeast.sub hf.onLeast), ← mul_add,
      round64_two_mul n ((round64_isFloat _).onLeast.add h1.onLeast), ← mul_add,
      round64_two_mul n (h2.onLeast.add (round64_isFloat _).onLeast)]

/-- Floats, when `sum` compensates its errors. -/
theorem ops312_homogeneous (n : ℕ) (pow : K → Nat → K) :
    (Arith.ops312 ⟨round64, pow⟩).Homogeneous (IsFloat64 (K := K)) (2 ^ n) where
  add := (ops_homogeneous n pow).add
  div := (ops_homogeneous n pow).div
  sum l hl := by
    have hp : (2 : K) ^ n ≠ 0 := by positivity
    have h0 : IsFloat64 (0 : K) := ⟨0, 0, by norm_num, by norm_num, by simp⟩
    have step : ∀ l : List K, (∀ x ∈ l, IsFloat64 x) → ∀ s : K × K, IsFloat64 s.1 → IsFloat64 s.2 →
        (l.map (2 ^ n * ·)).foldl (compensatedStep round64) (2 ^ n * s.1, 2 ^ n * s.2) =
          (2 ^ n * (l.foldl (compensatedStep round64) s).1, 2 ^ n * (l.foldl (compensatedStep round64) s).2) ∧
        IsFloat64 (l.foldl (compensatedStep round64) s).1 ∧ IsFloat64 (l.foldl (compensatedStep round64) s).2 := by
      intro l
      induction l with
      | nil => intro _ s h1 h2; exact ⟨rfl, h1, h2⟩
      | cons x l ih =>
        intro hl s h1 h2
        simp only [List.map_cons, List.foldl_cons]
        rw [compensatedStep_two_mul n h1 h2 (hl x (by simp))]
        exact ih (fun y hy => hl y (by simp [hy])) _ (round64_isFloat _) (round64_isFloat _)
    show compensatedSum round64 _ = _ * compensatedSum round64 l ∧ IsFloat64 (compensatedSum round64 l)
    match l, hl with
    | [], _ => exact ⟨by simp [compensatedSum], h0⟩
    | x :: l, hl =>
      obtain ⟨a, b, c⟩ := step l (fun y hy => hl y (by simp [hy])) (round64 (0 + x), 0) (round64_isFloat _) h0
      simp only [mul_zero] at a
      simp only [List.map_cons, compensatedSum]
      rw [show (0 : K) + 2 ^ n * x = 2 ^ n * (0 + x) by ring,
        round64_two_mul n (h0.onLeast.add (hl x (by simp)).onLeast), a]
      simp only [mul_eq_zero, hp, false_or]
      split
      · exact ⟨rfl, b⟩
      · exact ⟨by rw [← mul_add]; exact round64_two_mul n (b.onLeast.add c.onLeast), round64_isFloat _⟩

end

/-! ### Graphs in another unit -/
section
variable {V K : Type} [DecidableEq V] [Field K] [LinearOrder K] {attr : String} {P : K → Prop} {c : K} {g g' : Graph V (Val K)}

/-- An edge of `g` and the same edge of `g'`. -/
def RescaledEdge (attr : String) (P : K → Prop) (c : K) (e e' : V × V × PyKey × Attrs (Val K)) : Prop :=
  e'.1 = e.1 ∧ e'.2.1 = e.2.1 ∧ e'.2.2.1 = e.2.2.1 ∧ RescaledAttrs attr P c e.2.2.2 e'.2.2.2

/-- A neighbor in `g` and the same one in `g'`. -/
def RescaledNeighbor (attr : String) (P : K → Prop) (c : K) (p p' : V × Dict PyKey (Attrs (Val K))) : Prop :=
  p'.1 = p.1 ∧ List.Forall₂ (fun d d' => d'.1 = d.1 ∧ RescaledAttrs attr P c d.2 d'.2) p.2 p'.2

omit [LinearOrder K] in
theorem RescaledAttrs.weight {a a' : Attrs (Val K)} (h : RescaledAttrs attr P c a a') :
    ∃ x, P x ∧ a.get? (.str attr) = some (.num x) ∧ a'.get? (.str attr) = some (.num (c * x)) := by
  obtain ⟨hm, hf⟩ := h
  induction hf with
  | nil => simp [Dict.keys] at hm
  | @cons p p' a a' hp _ ih =>
    obtain ⟨hk, hp⟩ := hp
    by_cases he : p.1 = .str attr
    · rw [if_pos he] at hp
      obtain ⟨x, h1, h2, h3⟩ := hp
      refine ⟨x, h1, ?_, ?_⟩
      · simp [Dict.get?, he, h2]
      · simp [Dict.get?, hk, he, h3]
    · have hm' : PyKey.str attr ∈ Dict.keys a := by
        simp only [Dict.keys, List.map_cons, List.mem_cons] at hm
        exact hm.resolve_left (fun h => he h.symm)
      obtain ⟨x, h1, h2, h3⟩ := ih hm'
      refine ⟨x, h1, ?_, ?_⟩
      · simp only [Dict.get?, if_neg he, h2]
      · simp only [Dict.get?, hk, if_neg he, h3]

omit [LinearOrder K] in
theorem Rescaled.adj (h : Rescaled attr P c g g') (n : V) :
    List.Forall₂ (RescaledNeighbor attr P c) (g.adj n) (g'.adj n) := by
  unfold Graph.adj
  rw [h.directed]
  refine List.rel_filterMap ?_ h.links
  rintro l l' ⟨hu, hv, hd⟩
  unfold Graph.Link.from?
  rw [hu, hv]
  split
  · exact .some ⟨rfl, hd⟩
  · split
    · exact .some ⟨rfl, hd⟩
    · exact .none

omit [LinearOrder K] in
theorem rescaledEdges_of_adj {L L' : List (V × Dict PyKey (Attrs (Val K)))}
    (h : List.Forall₂ (RescaledNeighbor attr P c) L L') (n : V) :
    List.Forall₂ (RescaledEdge attr P c) (L.flatMap (fun p => p.2.map (fun ka => (n, p.1, ka.1, ka.2))))
      (L'.flatMap (fun p => p.2.map (fun ka => (n, p.1, ka.1, ka.2)))) := by
  refine List.rel_flatMap h ?_
  rintro p p' ⟨hp, hd⟩
  refine List.rel_map ?_ hd
  rintro d d' ⟨h1, h2⟩
  exact ⟨rfl, hp, h1, h2⟩

omit [LinearOrder K] in
theorem Rescaled.edgesOf (h : Rescaled attr P c g g') (n : V) :
    List.Forall₂ (RescaledEdge attr P c) (g.edgesOf n) (g'.edgesOf n) := rescaledEdges_of_adj (h.adj n) n

omit [LinearOrder K] in
theorem Rescaled.nodes (h : Rescaled attr P c g g') : g'.nodes = g.nodes := by unfold Graph.nodes; rw [h.node]

omit [LinearOrder K] in
theorem Rescaled.edgesFrom (h : Rescaled attr P c g g') (seen ns : List V) :
    List.Forall₂ (RescaledEdge attr P c) (g.edgesFrom seen ns) (g'.edgesFrom seen ns) := by
  induction ns generalizing seen with
  | nil => exact .nil
  | cons n ns ih =>
    unfold Graph.edgesFrom
    refine List.rel_append ?_ (ih _)
    refine rescaledEdges_of_adj ?_ n
    refine List.rel_filter ?_ (h.adj n)
    rintro p p' ⟨hp, -⟩
    simp only [h.directed, hp]

omit [LinearOrder K] in
theorem Rescaled.edgesKeys (h : Rescaled attr P c g g') :
    List.Forall₂ (RescaledEdge attr P c) g.edgesKeys g'.edgesKeys := by
  unfold Graph.edgesKeys
  rw [h.nodes]
  exact h.edgesFrom _ _

omit [LinearOrder K] in
theorem Rescaled.edges (h : Rescaled attr P c g g') : g'.edges = g.edges := by
  unfold Graph.edges
  have := h.edgesKeys
  generalize g.edgesKeys = L, g'.edgesKeys = L' at this
  induction this with
  | nil => rfl
  | cons he _ ih => simp only [List.map_cons, ih, he.1, he.2.1]

omit [LinearOrder K] in
theorem Rescaled.degree (h : Rescaled attr P c g g') (hd : g.directed = false) (n : V) : g'.degree n = g.degree n := by
  have key : ∀ {L L' : List (V × Dict PyKey (Attrs (Val K)))}, List.Forall₂ (RescaledNeighbor attr P c) L L' →
      (L'.map (fun p => p.2.length)) = (L.map (fun p => p.2.length)) := by
    intro L L' h
    induction h with
    | nil => rfl
    | cons hp _ ih => simp only [List.map_cons, ih, hp.2.length_eq]
  have hf : List.Forall₂ (RescaledNeighbor attr P c) ((g.adj n).filter (fun p => decide (p.1 = n)))
      ((g'.adj n).filter (fun p => decide (p.1 = n))) := by
    refine List.rel_filter ?_ (h.adj n)
    rintro p p' ⟨hp, -⟩
    simp only [hp]
  unfold Graph.degree
  rw [h.directed, hd, key (h.adj n), key hf]
  rfl

omit [DecidableEq V] [LinearOrder K] in
theorem weightsOf_rescaled {l l' : List (Attrs (Val K))} (h : List.Forall₂ (RescaledAttrs attr P c) l l') :
    ∃ ws : List K, (∀ x ∈ ws, P x) ∧ weightsOf attr l = .ok ws ∧ weightsOf attr l' = .ok (ws.map (c * ·)) := by
  induction h with
  | nil => exact ⟨[], by simp, rfl, rfl⟩
  | cons ha _ ih =>
    obtain ⟨ws, h1, h2, h3⟩ := ih
    obtain ⟨x, hx, h4, h5⟩ := ha.weight
    refine ⟨x :: ws, by simpa using ⟨hx, h1⟩, ?_, ?_⟩
    · simp [weightsOf, weightOf, h4, Val.toNum, h2]
    · simp [weightsOf, weightOf, h5, Val.toNum, h3]

theorem weightedDegree_rescaled {ops : NumOps K} (ho : ops.Homogeneous P c) (h : Rescaled attr P c g g') (n : V) :
    ∃ s, P s ∧ weightedDegree ops g attr n = .ok s ∧ weightedDegree ops g' attr n = .ok (c * s) := by
  have hm : ∀ {L L' : List (V × V × PyKey × Attrs (Val K))}, List.Forall₂ (RescaledEdge attr P c) L L' →
      List.Forall₂ (RescaledAttrs attr P c) (L.map (fun e => e.2.2.2)) (L'.map (fun e => e.2.2.2)) :=
    fun hL => List.rel_map (fun _ _ he => he.2.2.2) hL
  obtain ⟨ws, h1, h2, h3⟩ := weightsOf_rescaled (hm (h.edgesOf n))
  obtain ⟨ls, h4, h5, h6⟩ := weightsOf_rescaled (hm (List.rel_filter (p := fun e => decide (e.2.1 = n))
    (q := fun e => decide (e.2.1 = n)) (by rintro e e' ⟨-, he, -⟩; simp only [he]) (h.edgesOf n)))
  obtain ⟨h7, h8⟩ := ho.sum ws h1
  have : ∀ s, P s → P (ls.foldl ops.add s) ∧ (ls.map (c * ·)).foldl ops.add (c * s) = c * ls.foldl ops.add s := by
    clear h5 h6
    induction ls with
    | nil => intro s hs; exact ⟨hs, rfl⟩
    | cons x ls ih =>
      intro s hs
      obtain ⟨a1, a2⟩ := ho.add s x hs (h4 x (by simp))
      simp only [List.map_cons, List.foldl_cons, a1]
      exact ih (fun y hy => h4 y (by simp [hy])) _ a2
  obtain ⟨h9, h10⟩ := this _ h8
  refine ⟨_, h9, ?_, ?_⟩
  · simp only [weightedDegree, h2, h5]
  · simp only [weightedDegree, h3, h6, h7, h10]

theorem weightedDegrees_rescaled {ops : NumOps K} (ho : ops.Homogeneous P c) (h : Rescaled attr P c g g') (ns : List V) :
    ∃ d : Dict V K, weightedDegrees ops g attr ns = .ok d ∧
      weightedDegrees ops g' attr ns = .ok (d.map (fun p => (p.1, c * p.2))) := by
  induction ns with
  | nil => exact ⟨[], rfl, rfl⟩
  | cons n ns ih =>
    obtain ⟨d, h1, h2⟩ := ih
    obtain ⟨s, -, h3, h4⟩ := weightedDegree_rescaled ho h n
    exact ⟨(n, s) :: d, by simp only [weightedDegrees, h1, h3], by simp only [weightedDegrees, h2, h4, List.map_cons]⟩

omit [LinearOrder K] in
theorem getItem_scale (d : Dict V K) (n : V) :
    Dict.getItem (d.map (fun p => (p.1, c * p.2))) n = (d.getItem n).map (c * ·) := by
  have : Dict.get? (d.map (fun p => (p.1, c * p.2))) n = (d.get? n).map (c * ·) := by
    induction d with
    | nil => rfl
    | cons p d ih =>
      simp only [List.map_cons, Dict.get?]
      split
      · rfl
      · exact ih
  unfold Dict.getItem
  rw [this]
  cases d.get? n <;> rfl

theorem disparityEdges_rescaled [PyOrd V] {ops : NumOps K} (ho : ops.Homogeneous P c) (h : Rescaled attr P c g g')
    (hd : g.directed = false) (reverse : Bool) (wd : Dict V K) (source : V) (s : K)
    {es es' : List (V × V × PyKey × Attrs (Val K))} (he : List.Forall₂ (RescaledEdge attr P c) es es') (d : Dict (V × V) K) :
    disparityEdges ops g' attr reverse (wd.map (fun p => (p.1, c * p.2))) source (c * s) es' d =
      disparityEdges ops g attr reverse wd source s es d := by
  induction he generalizing d with
  | nil => rfl
  | @cons e e' es es' h1 _ ih =>
    obtain ⟨u, v, k, a⟩ := e
    obtain ⟨u', v', k', a'⟩ := e'
    obtain ⟨-, h2, -, h3⟩ := h1
    simp only at h2 h3
    subst h2
    obtain ⟨x, -, h4, h5⟩ := h3.weight
    have hs : ∀ t : K, disparityScore ops reverse ((a'.get? (.str attr)).getD .none) (g'.degree source) (g'.degree v')
        (c * s) (c * t) =
        disparityScore ops reverse ((a.get? (.str attr)).getD .none) (g.degree source) (g.degree v') s t := by
      intro t
      simp only [disparityScore, h4, h5, Option.getD_some, Val.toNum, ho.div, h.degree hd]
    simp only [disparityEdges, getItem_scale]
    cases PyOrd.gt source v' with
    | error e => rfl
    | ok b =>
      cases b with
      | true => exact ih d
      | false =>
        cases wd.getItem v' with
        | error e => rfl
        | ok t =>
          simp only [Except.map, hs]
          cases disparityScore ops reverse ((a.get? (.str attr)).getD .none) (g.degree source) (g.degree v') s t with
          | error e => rfl
          | ok y => exact ih _

/-- Operations which commute with a change of unit give the same scores in both units. -/
theorem edgeDisparityN_rescaled [PyOrd V] {ops : NumOps K} (ho : ops.Homogeneous P c) (h : Rescaled attr P c g g')
    (reverse : Bool) : edgeDisparityN ops g' attr reverse = edgeDisparityN ops g attr reverse := by
  unfold edgeDisparityN
  rw [h.directed, h.multi]
  by_cases hd : g.directed = false
  swap
  · have : g.directed = true := by simpa using hd
    simp [this]
  by_cases hm : g.multi = true
  · simp [hm]
  simp only [hd, hm, Bool.or_self, Bool.false_eq_true, if_false]
  rw [h.nodes]
  obtain ⟨wd, h1, h2⟩ := weightedDegrees_rescaled ho h g.nodes
  rw [h1, h2]
  simp only
  have : ∀ (ns : List V) (d : Dict (V × V) K),
      disparityNodes ops g' attr reverse (wd.map (fun p => (p.1, c * p.2))) ns d =
        disparityNodes ops g attr reverse wd ns d := by
    intro ns
    induction ns with
    | nil => intro d; rfl
    | cons n ns ih =>
      intro d
      simp only [disparityNodes, getItem_scale]
      cases wd.getItem n with
      | error e => rfl
      | ok s =>
        simp only [Except.map, disparityEdges_rescaled ho h hd reverse wd n s (h.edgesOf n) d]
        cases disparityEdges ops g attr reverse wd n s (g.edgesOf n) d with
        | error e => rfl
        | ok d => exact ih d
  exact this _ _

/-! ### The backbone -/

omit [DecidableEq V] [LinearOrder K] in
theorem RescaledAttrs.keys {a a' : Attrs (Val K)} (h : RescaledAttrs attr P c a a') : a'.keys = a.keys := by
  obtain ⟨-, h⟩ := h
  induction h with
  | nil => rfl
  | cons hp _ ih => simp only [Dict.keys, List.map_cons, hp.1] at ih ⊢; rw [ih]

omit [DecidableEq V] [LinearOrder K] in
theorem checkKwargs_keys {A : Type} {a a' : Attrs A} (h : a'.keys = a.keys) (reserved : List String) :
    Graph.checkKwargs reserved a' = Graph.checkKwargs reserved a := by
  have h1 : ∀ (q : PyKey → Bool) (b : Attrs A), b.all (fun kv => q kv.1) = b.keys.all q := by
    intro q b; simp [Dict.keys, List.all_map, Function.comp_def]
  have h2 : ∀ (q : PyKey → Bool) (b : Attrs A), b.any (fun kv => q kv.1) = b.keys.any q := by
    intro q b; simp [Dict.keys, List.any_map, Function.comp_def]
  unfold Graph.checkKwargs
  rw [h1 (fun k => k.isStr), h1 (fun k => k.isStr), h2 (fun k => reserved.any (fun r => k = .str r)),
    h2 (fun k => reserved.any (fun r => k = .str r)), h]

omit [DecidableEq V] in
theorem forall₂_set {κ ν : Type} [DecidableEq κ] {R : κ → ν → ν → Prop} {d d' : Dict κ ν}
    (h : List.Forall₂ (fun p p' => p'.1 = p.1 ∧ R p.1 p.2 p'.2) d d') {k : κ} {x x' : ν} (hx : R k x x') :
    List.Forall₂ (fun p p' => p'.1 = p.1 ∧ R p.1 p.2 p'.2) (d.set k x) (d'.set k x') := by
  induction h with
  | nil => exact .cons ⟨rfl, hx⟩ .nil
  | @cons p p' d d' hp _ ih =>
    obtain ⟨a, b⟩ := p
    obtain ⟨a', b'⟩ := p'
    obtain ⟨rfl, hb⟩ := hp
    simp only [Dict.set]
    split
    · rename_i hk
      subst hk
      exact .cons ⟨rfl, hx⟩ (by assumption)
    · exact .cons ⟨rfl, hb⟩ ih

theorem forall₂_update {κ ν : Type} [DecidableEq κ] {R : κ → ν → ν → Prop} {d d' e e' : Dict κ ν}
    (h : List.Forall₂ (fun p p' => p'.1 = p.1 ∧ R p.1 p.2 p'.2) d d')
    (he : List.Forall₂ (fun p p' => p'.1 = p.1 ∧ R p.1 p.2 p'.2) e e') :
    List.Forall₂ (fun p p' => p'.1 = p.1 ∧ R p.1 p.2 p'.2) (d.update e) (d'.update e') := by
  unfold Dict.update
  induction he generalizing d d' with
  | nil => exact h
  | @cons p p' e e' hp _ ih =>
    obtain ⟨a, b⟩ := p
    obtain ⟨a', b'⟩ := p'
    obtain ⟨rfl, hb⟩ := hp
    exact ih (forall₂_set h hb)

theorem forall₂_get? {κ ν : Type} [DecidableEq κ] {R : κ → ν → ν → Prop} {d d' : Dict κ ν}
    (h : List.Forall₂ (fun p p' => p'.1 = p.1 ∧ R p.1 p.2 p'.2) d d') (k : κ) :
    (d.get? k = none ∧ d'.get? k = none) ∨ ∃ x x', d.get? k = some x ∧ d'.get? k = some x' ∧ R k x x' := by
  induction h with
  | nil => exact .inl ⟨rfl, rfl⟩
  | @cons p p' d d' hp _ ih =>
    obtain ⟨a, b⟩ := p
    obtain ⟨a', b'⟩ := p'
    obtain ⟨rfl, hb⟩ := hp
    simp only at hb
    by_cases hk : a' = k
    · subst hk
      exact .inr ⟨b, b', by simp [Dict.get?], by simp [Dict.get?], hb⟩
    · simpa [Dict.get?, hk] using ih

theorem RescaledAttrs.update {a a' b b' : Attrs (Val K)}
    (ha : RescaledAttrs attr P c a a' ∨ a = [] ∧ a' = []) (hb : RescaledAttrs attr P c b b') :
    RescaledAttrs attr P c (a.update b) (a'.update b') := by
  refine ⟨Dict.mem_keys_update.2 (.inr hb.1), ?_⟩
  refine forall₂_update 
    (R := fun k x x' => if k = PyKey.str attr then ∃ y, P y ∧ x = Val.num y ∧ x' = Val.num (c * y) else x' = x) ?_ hb.2
  rcases ha with ha | ⟨rfl, rfl⟩
  · exact ha.2
  · exact .nil

theorem addToData_rescaled {d d' : Dict PyKey (Attrs (Val K))} {a a' : Attrs (Val K)}
    (hd : List.Forall₂ (fun d d' => d'.1 = d.1 ∧ RescaledAttrs attr P c d.2 d'.2) d d') (ha : RescaledAttrs attr P c a a') :
    List.Forall₂ (fun d d' => d'.1 = d.1 ∧ RescaledAttrs attr P c d.2 d'.2) (Graph.addToData false d none a)
      (Graph.addToData false d' none a') := by
  unfold Graph.addToData
  refine forall₂_set (R := fun _ x x' => RescaledAttrs attr P c x x') hd ?_
  rcases forall₂_get? (R := fun _ x x' => RescaledAttrs attr P c x x') hd (.int 0) with ⟨h1, h2⟩ | ⟨x, x', h1, h2, h3⟩
  · simp only [Bool.false_eq_true, if_false, h1, h2, Option.getD_none]
    exact RescaledAttrs.update (.inr ⟨rfl, rfl⟩) ha
  · simp only [Bool.false_eq_true, if_false, h1, h2, Option.getD_some]
    exact RescaledAttrs.update (.inl h3) ha

theorem addLink_rescaled {directed : Bool} {u v : V} {L L' : List (Link V (Val K))} {a a' : Attrs (Val K)}
    (h : List.Forall₂ (RescaledLink attr P c) L L') (ha : RescaledAttrs attr P c a a') :
    List.Forall₂ (RescaledLink attr P c) (Graph.addLink directed false u v none a L)
      (Graph.addLink directed false u v none a' L') := by
  induction h with
  | nil => exact .cons ⟨rfl, rfl, addToData_rescaled .nil ha⟩ .nil
  | cons hl hL ih =>
    obtain ⟨h1, h2, h3⟩ := hl
    simp only [Graph.addLink, h1, h2]
    split
    · exact .cons ⟨rfl, rfl, addToData_rescaled h3 ha⟩ hL
    · exact .cons ⟨h1, h2, h3⟩ ih

/-- What a function returns given both graphs: the same exception, or the same graph in both units. -/
def RescaledResult (attr : String) (P : K → Prop) (c : K) : Py (Graph V (Val K)) → Py (Graph V (Val K)) → Prop
  | .error e, r => r = .error e
  | .ok g, r => ∃ g', r = .ok g' ∧ Rescaled attr P c g g'

theorem addEdge_rescaled [AttrVal (Val K)] (h : Rescaled attr P c g g') (hm : g.multi = false) (u v : V)
    {a a' : Attrs (Val K)} (ha : RescaledAttrs attr P c a a') :
    RescaledResult attr P c (g.addEdge u v a) (g'.addEdge u v a') := by
  unfold Graph.addEdge
  rw [h.multi, hm]
  simp only [Bool.false_eq_true, if_false]
  rw [checkKwargs_keys ha.keys]
  cases Graph.checkKwargs ["self", "u_of_edge", "v_of_edge"] a with
  | error e => exact rfl
  | ok _ =>
    refine ⟨_, rfl, ?_⟩
    have he : ∀ {g g' : Graph V (Val K)} (n : V), Rescaled attr P c g g' → Rescaled attr P c (g.ensureNode n) (g'.ensureNode n) := by
      intro g g' n h
      unfold Graph.ensureNode Graph.hasNode
      rw [h.node]
      split
      · exact h
      · exact ⟨h.directed, h.multi, h.attrs, by simp only [h.node], h.links⟩
    have h2 := he v (he u h)
    have hm2 : ((g.ensureNode u).ensureNode v).multi = false := by
      unfold Graph.ensureNode; split <;> split <;> exact hm
    unfold Graph.addEdgeCore
    refine ⟨h2.directed, h2.multi, h2.attrs, h2.node, ?_⟩
    simp only
    rw [h2.directed, h2.multi, hm2]
    exact addLink_rescaled h2.links ha

theorem filterLoop_rescaled [AttrVal (Val K)] {es es' : List (KeyedEdge V (Val K))}
    (he : List.Forall₂ (RescaledEdge attr P c) es es') (err : Option PyErr) {g g' : Graph V (Val K)}
    (h : Rescaled attr P c g g') (hm : g.multi = false) :
    RescaledResult attr P c (Sparsifier.filterLoop es err g) (Sparsifier.filterLoop es' err g') := by
  induction he generalizing g g' with
  | nil =>
    cases err with
    | none => exact ⟨g', rfl, h⟩
    | some e => exact rfl
  | @cons e e' es es' h1 _ ih =>
    obtain ⟨u, v, k, a⟩ := e
    obtain ⟨u', v', k', a'⟩ := e'
    obtain ⟨h2, h3, -, h4⟩ := h1
    simp only at h2 h3 h4
    subst h2 h3
    have hadd := addEdge_rescaled h hm u' v' h4
    have hmulti : ∀ g₁, g.addEdge u' v' a = .ok g₁ → g₁.multi = false := by
      intro g₁ hg
      unfold Graph.addEdge at hg
      rw [hm] at hg
      simp only [Bool.false_eq_true, if_false] at hg
      split at hg
      · cases hg
      · cases hg
        unfold Graph.addEdgeCore Graph.ensureNode
        simp only
        split <;> split <;> exact hm
    simp only [Sparsifier.filterLoop]
    cases hg : g.addEdge u' v' a with
    | error e =>
      rw [hg] at hadd
      rw [show g'.addEdge u' v' a' = .error e from hadd]
      exact rfl
    | ok g₁ =>
      rw [hg] at hadd
      obtain ⟨g₁', e1, e2⟩ := hadd
      rw [e1]
      exact ih e2 (hmulti _ hg)

/-- What a generator yields given both graphs: the same edges, in both units, then the same exception if any. -/
def RescaledGen (attr : String) (P : K → Prop) (c : K) (r r' : Gen (KeyedEdge V (Val K))) : Prop :=
  List.Forall₂ (RescaledEdge attr P c) r.yields r'.yields ∧ r'.err = r.err

omit [DecidableEq V] [LinearOrder K] in
theorem yieldWhen_rescaled (want : Bool) {pred : EdgePred V (Val K)} (hp : ∀ u v a a', pred u v a' = pred u v a)
    {es es' : List (KeyedEdge V (Val K))} (he : List.Forall₂ (RescaledEdge attr P c) es es') :
    RescaledGen attr P c (yieldWhen want pred es) (yieldWhen want pred es') := by
  induction he with
  | nil => exact ⟨.nil, rfl⟩
  | @cons e e' es es' h1 _ ih =>
    obtain ⟨u, v, k, a⟩ := e
    obtain ⟨u', v', k', a'⟩ := e'
    have h1' := h1
    obtain ⟨h2, h3, -, -⟩ := h1
    simp only at h2 h3
    subst h2 h3
    simp only [yieldWhen]
    rw [hp u' v' a a']
    cases pred u' v' a with
    | error e => exact ⟨.nil, rfl⟩
    | ok b =>
      refine ⟨?_, ih.2⟩
      simp only
      split
      · exact .cons h1' ih.1
      · exact ih.1

theorem backboneGenerator_rescaled [PyOrd V] {ops : NumOps K} (ho : ops.Homogeneous P c) (h : Rescaled attr P c g g')
    (alpha : K) (want : Bool) :
    RescaledGen attr P c (defaultGenerator want (backboneFactoryN ops alpha attr) g)
      (defaultGenerator want (backboneFactoryN ops alpha attr) g') := by
  unfold defaultGenerator backboneFactoryN
  rw [edgeDisparityN_rescaled ho h]
  cases edgeDisparityN ops g attr false with
  | error e => exact ⟨.nil, rfl⟩
  | ok d => exact yieldWhen_rescaled want (fun u v a a' => rfl) h.edgesKeys

/-- Operations which commute with a change of unit give the same backbone in both units. -/
theorem multiscaleBackboneN_rescaled [PyOrd V] [AttrVal (Val K)] {ops : NumOps K} (ho : ops.Homogeneous P c)
    (h : Rescaled attr P c g g') (ulongMax : Nat) (alpha : K) :
    RescaledResult attr P c (multiscaleBackboneN ops ulongMax g alpha attr false)
      (multiscaleBackboneN ops ulongMax g' alpha attr false) := by
  unfold multiscaleBackboneN Sparsifier.make Sparsifier.filter
  simp only [Bool.false_eq_true, if_false]
  obtain ⟨h1, h2⟩ := backboneGenerator_rescaled ho h alpha true
  by_cases hm : g.multi = false
  · rw [h2]
    exact filterLoop_rescaled h1 _ ⟨h.directed, h.multi, h.attrs, h.node, .nil⟩ hm
  · have hm : g.multi = true := by simpa using hm
    have e : ∀ g : Graph V (Val K), g.multi = true → defaultGenerator true (backboneFactoryN ops alpha attr) g =
        ⟨[], some (.typeError "edge_disparity cannot work on a directed or multi graph")⟩ := by
      intro g hm
      simp [defaultGenerator, backboneFactoryN, edgeDisparityN, hm]
    rw [e g hm, e g' (h.multi.trans hm)]
    exact rfl

end

/-! ### Statements -/
section
variable {V K : Type} [DecidableEq V] [Field K] [LinearOrder K] [IsStrictOrderedRing K] [FloorRing K] {attr : String} {n : ℕ}
  {g g' : Graph V (Val K)}

/-- C104.  Multiplying weights which are floats by a power of two does not change the scores at all, exceptions included: whatever
the way `**` rounds, whether `sum` adds floats up one after the other (first part) or compensates its errors (second part). -/
theorem edgeDisparity_power_of_two [PyOrd V] (h : Rescaled attr IsFloat64 (2 ^ n) g g') (pow : K → Nat → K) (reverse : Bool) :
    edgeDisparityN (Arith.ops ⟨round64, pow⟩) g' attr reverse = edgeDisparityN (Arith.ops ⟨round64, pow⟩) g attr reverse ∧
    edgeDisparityN (Arith.ops312 ⟨round64, pow⟩) g' attr reverse =
      edgeDisparityN (Arith.ops312 ⟨round64, pow⟩) g attr reverse :=
  ⟨edgeDisparityN_rescaled (ops_homogeneous n pow) h reverse, edgeDisparityN_rescaled (ops312_homogeneous n pow) h reverse⟩

/-- C104.  Nor does it change the backbone, nor the edges it finds relevant (`want = true`) or redundant (`want = false`), but for
the weights themselves. -/
theorem multiscaleBackbone_power_of_two [PyOrd V] [AttrVal (Val K)] (h : Rescaled attr IsFloat64 (2 ^ n) g g')
    (pow : K → Nat → K) (ulongMax : Nat) (alpha : K) {ops : NumOps K}
    (hops : ops = Arith.ops ⟨round64, pow⟩ ∨ ops = Arith.ops312 ⟨round64, pow⟩) :
    RescaledResult attr IsFloat64 (2 ^ n) (multiscaleBackboneN ops ulongMax g alpha attr false)
      (multiscaleBackboneN ops ulongMax g' alpha attr false) ∧
    ∀ want, RescaledGen attr IsFloat64 (2 ^ n) (defaultGenerator want (backboneFactoryN ops alpha attr) g)
      (defaultGenerator want (backboneFactoryN ops alpha attr) g') := by
  have ho : ops.Homogeneous IsFloat64 (2 ^ n) := by
    rcases hops with rfl | rfl
    · exact ops_homogeneous n pow
    · exact ops312_homogeneous n pow
  exact ⟨multiscaleBackboneN_rescaled ho h ulongMax alpha, fun want => backboneGenerator_rescaled ho h alpha want⟩

/-- The edges of both results are the same pairs. -/
theorem RescaledResult.edges {P : K → Prop} {c : K} {r r' : Py (Graph V (Val K))} (h : RescaledResult attr P c r r') :
    r'.map (·.edges) = r.map (·.edges) := by
  cases r with
  | error e => rw [show r' = .error e from h]
  | ok g =>
    obtain ⟨g', rfl, h⟩ := h
    simp only [Except.map, h.edges]

omit [FloorRing K] in
/-- C104.  In exact arithmetic any unit will do, whatever the signs of the weights and of their sums: where C73 asks for no node
of strength 0, the exceptions are the same too. -/
theorem edgeDisparity_any_unit [PyOrd V] {c : K} (hc : c ≠ 0) (h : Rescaled attr (fun _ => True) c g g') (reverse : Bool) :
    edgeDisparity g' attr reverse = edgeDisparity g attr reverse :=
  edgeDisparityN_rescaled (exact_homogeneous hc _) h reverse

end

/-! ### Cases -/

/-- The star of `heavyFirst` in a unit `c` times smaller. -/
def heavyTimes (c : ℚ) : Graph Int (Val ℚ) :=
  ⟨false, false, [], [(0, []), (1, []), (2, []), (3, [])],
    [⟨0, 1, [(.int 0, [(.str "weight", .num (c * 2 ^ 53))])]⟩, ⟨0, 2, [(.int 0, [(.str "weight", .num (c * 1))])]⟩,
     ⟨0, 3, [(.int 0, [(.str "weight", .num (c * 1))])]⟩]⟩

/-- C104, a case: the hypothesis holds of a star whose weights are far apart. -/
example : Rescaled "weight" IsFloat64 (2 ^ 2) heavyFirst (heavyTimes (2 ^ 2)) := by
  have h1 : IsFloat64 (1 : ℚ) := ⟨1, 0, by norm_num, by norm_num, by norm_num⟩
  have h2 : IsFloat64 ((2 : ℚ) ^ 53) := ⟨1, 53, by norm_num, by norm_num, by norm_num⟩
  have key : ∀ x : ℚ, IsFloat64 x → List.Forall₂ (fun d d' : PyKey × Attrs (Val ℚ) => d'.1 = d.1 ∧
      RescaledAttrs "weight" IsFloat64 (2 ^ 2) d.2 d'.2) [(.int 0, [(.str "weight", .num x)])]
      [(.int 0, [(.str "weight", .num (2 ^ 2 * x))])] := fun x hx =>
    .cons ⟨rfl, by simp [Dict.keys], .cons ⟨rfl, by rw [if_pos rfl]; exact ⟨x, hx, rfl, rfl⟩⟩ .nil⟩ .nil
  exact ⟨rfl, rfl, rfl, rfl, .cons ⟨rfl, rfl, key _ h2⟩ (.cons ⟨rfl, rfl, key _ h1⟩ (.cons ⟨rfl, rfl, key _ h1⟩ .nil))⟩

/-- C104.  It is false of other units: once its weights are multiplied by 3, the heaviest edge of the star no longer has a score
of 0, and is no longer in the backbone of level 0. -/
theorem edgeDisparity_times_three :
    (edgeDisparityA arith64 heavyFirst "weight" false).map (fun d => d.get? (0, 1)) = .ok (some 0) ∧
    (edgeDisparityA arith64 (heavyTimes 3) "weight" false).map (fun d => (d.get? (0, 1)).map (fun x => decide (0 < x))) =
      .ok (some true) ∧
    (multiscaleBackboneA arith64 (2^64-1) heavyFirst 0 "weight" false).map (·.edges) = .ok [(0, 1)] ∧
    (multiscaleBackboneA arith64 (2^64-1) (heavyTimes 3) 0 "weight" false).map (·.edges) = .ok [] ∧
    (multiscaleBackboneA arith64 (2^64-1) (heavyTimes 4) 0 "weight" false).map (·.edges) = .ok [(0, 1)] := by
  refine ⟨?_, ?_, ?_, ?_, ?_⟩ <;> decide +kernel

end Pelote
