import Verif.Model.Overflow
import Verif.Spec.Overflow
import Verif.Lemmas.MapAttrs
import Verif.Props.CompensatedSum
import Verif.Props.LearnUse

/-! Lemmas about edge disparity with floats that overflow. -/
set_option linter.unusedSectionVars false
namespace Pelote
open Graph

section graphs
variable {V A B : Type} [DecidableEq V] (f : A → B)

theorem adj_mapAttrs (g : Graph V A) (n : V) :
    (g.mapAttrs f).adj n = (g.adj n).map (fun p => (p.1, p.2.map (fun ka => (ka.1, ka.2.map (fun q => (q.1, f q.2)))))) := by
  unfold adj
  show (g.links.map _).filterMap (Link.from? g.directed n) = _
  rw [List.filterMap_map, List.map_filterMap]
  congr 1
  funext l
  simp only [Function.comp, Link.from?]
  split
  · rfl
  · split <;> rfl

theorem edgesOf_mapAttrs (g : Graph V A) (n : V) :
    (g.mapAttrs f).edgesOf n =
      (g.edgesOf n).map (fun e => (e.1, e.2.1, e.2.2.1, e.2.2.2.map (fun q => (q.1, f q.2)))) := by
  unfold edgesOf
  rw [adj_mapAttrs, List.flatMap_map, List.map_flatMap]
  congr 1
  funext p
  simp [List.map_map, Function.comp_def]

theorem degree_mapAttrs (g : Graph V A) (n : V) (hd : g.directed = false) : (g.mapAttrs f).degree n = g.degree n := by
  unfold degree
  rw [show (g.mapAttrs f).directed = g.directed from rfl, hd, adj_mapAttrs]
  simp only [Bool.false_eq_true, if_false, List.map_map, List.filter_map, Function.comp_def, List.length_map]

theorem edgesFrom_mapAttrs (g : Graph V A) (ns seen : List V) :
    (g.mapAttrs f).edgesFrom seen ns =
      (g.edgesFrom seen ns).map (fun e => (e.1, e.2.1, e.2.2.1, e.2.2.2.map (fun q => (q.1, f q.2)))) := by
  induction ns generalizing seen with
  | nil => rfl
  | cons n ns ih =>
    simp only [edgesFrom, ih, List.map_append, adj_mapAttrs]
    congr 1
    rw [show (g.mapAttrs f).directed = g.directed from rfl, List.filter_map, List.flatMap_map, List.map_flatMap]
    simp only [List.map_map, Function.comp_def]

theorem edgesData_mapAttrs (g : Graph V A) :
    (g.mapAttrs f).edgesData = g.edgesData.map (fun e => (e.1, e.2.1, e.2.2.map (fun q => (q.1, f q.2)))) := by
  unfold edgesData edgesKeys
  rw [nodes_mapAttrs, edgesFrom_mapAttrs, List.map_map, List.map_map]
  rfl

end graphs

section
variable {V K : Type} [LinearOrder V] [Field K] [LinearOrder K]

theorem toNum_toX (x : Val K) : x.toX.toNum = x.toNum.map XNum.fin := by
  cases x with
  | bool b => cases b <;> rfl
  | _ => rfl

theorem weighted_toX {g : Graph V (Val K)} {attr : String} {w : V → V → K} (hw : g.Weighted attr w) :
    (g.mapAttrs Val.toX).Weighted attr (fun u v => .fin (w u v)) := by
  intro e he
  rw [edgesData_mapAttrs] at he
  obtain ⟨e', he', rfl⟩ := List.mem_map.1 he
  obtain ⟨x, h1, h2⟩ := hw e' he'
  refine ⟨x.toX, ?_, by rw [toNum_toX, h2]; rfl⟩
  show Dict.get? (e'.2.2.map _) _ = _
  rw [get?_mapSnd, h1]
  rfl

variable [IsStrictOrderedRing K] [FloorRing K]
open XNum

theorem store_fin {x : K} (h : |round64 x| < 2 ^ 1024) : store x = .fin (round64 x) := by unfold store; rw [if_pos h]

theorem abs_round64_le' {x M : K} (hM : IsFloat64 M) (h : |x| ≤ M) : |round64 x| ≤ M := by
  rw [abs_le] at h ⊢
  have h1 := round64_monotone h.1
  have h2 := round64_monotone h.2
  rw [round64_neg, round64_fix hM] at h1
  rw [round64_fix hM] at h2
  exact ⟨h1, h2⟩

theorem one_lt_top : (1 : K) < 2 ^ 1024 := one_lt_pow₀ (by norm_num) (by norm_num)

theorem store_unit {x : K} (h0 : 0 ≤ x) (h1 : x ≤ 1) : store x = .fin (round64 x) := by
  refine store_fin ((abs_round64_le' (M := 1) ⟨1, 0, by norm_num, by norm_num, by simp⟩ ?_).trans_lt one_lt_top)
  rwa [abs_of_nonneg h0]

/-- One side of a score, from the strength of the node. -/
def sideOf (pow : K → Nat → K) (w : K) : XNum K → Nat → K
  | .fin s, d => sideScore round64 pow w s d
  | _, _ => 1

/-- A strength which is at least the weight of an edge, or an overflow. -/
def XNum.AtLeast (w : K) (S : XNum K) : Prop := S = .inf false ∨ ∃ s, S = .fin s ∧ w ≤ s

theorem sideOf_eq {pow : K → Nat → K} (hp1 : ∀ n, pow 1 n = 1) {w : K} (hw : 0 < w) {S : XNum K} (hS : S.AtLeast w) (d : Nat) :
    ∃ q, div64 (.fin w) S = .ok q ∧ pow64 pow (XNum.sub store 1 q) (d - 1) = .fin (sideOf pow w S d) := by
  have hone : (1 : XNum K) = .fin 1 := rfl
  rcases hS with rfl | ⟨s, rfl, hs⟩
  · refine ⟨.fin 0, rfl, ?_⟩
    rw [hone]
    simp only [XNum.sub, sub_zero, sideOf]
    rw [store_unit zero_le_one le_rfl, round64_one]
    simp only [pow64, hp1]
  · have hs0 := hw.trans_le hs
    have h1 : 0 ≤ w / s := div_nonneg hw.le hs0.le
    have h2 : w / s ≤ 1 := (div_le_one hs0).2 hs
    have h3 := round64_rounding.nonneg h1
    have h4 := round64_rounding.le_one h1 h2
    refine ⟨.fin (round64 (w / s)), ?_, ?_⟩
    · simp only [div64, hs0.ne', if_false, store_unit h1 h2]
    · rw [hone]
      simp only [XNum.sub]
      rw [store_unit (sub_nonneg.2 h4) (sub_le_self _ h3)]
      rfl

theorem sideOf_range {pow : K → Nat → K} (hp : UnitPow pow) {w : K} (hw : 0 < w) {S : XNum K} (hS : S.AtLeast w) (d : Nat) :
    0 ≤ sideOf pow w S d ∧ sideOf pow w S d ≤ 1 := by
  rcases hS with rfl | ⟨s, rfl, hs⟩
  · exact ⟨zero_le_one, le_rfl⟩
  · exact sideScore_range round64_rounding hp hw hs d

theorem disparityScore64 {pow : K → Nat → K} (hp : UnitPow pow) (hp1 : ∀ n, pow 1 n = 1) {w : K} (hw : 0 < w) {S T : XNum K}
    (hS : S.AtLeast w) (hT : T.AtLeast w) (reverse : Bool) {x : Val (XNum K)} (hx : x.toNum = .ok (.fin w)) (d e : Nat) :
    disparityScore (ops64 pow) reverse x d e S T = .ok (.fin (scoreOf reverse (sideOf pow w S d) (sideOf pow w T e))) := by
  obtain ⟨q, h1, h2⟩ := sideOf_eq hp1 hw hS d
  obtain ⟨r, h3, h4⟩ := sideOf_eq hp1 hw hT e
  obtain ⟨a0, a1⟩ := sideOf_range hp hw hS d
  obtain ⟨b0, b1⟩ := sideOf_range hp hw hT e
  simp only [disparityScore, hx, ops64, h1, h2, h3, h4]
  have hone : (1 : XNum K) = .fin 1 := rfl
  cases reverse
  · simp only [Bool.false_eq_true, if_false, scoreOf, XNum.least, XNum.lt, decide_eq_true_eq]
    rcases lt_or_ge (sideOf pow w T e) (sideOf pow w S d) with h | h
    · rw [if_pos h, min_eq_right h.le]
    · rw [if_neg (not_lt.2 h), min_eq_left h]
  · simp only [if_true, scoreOf]
    rw [hone]
    simp only [XNum.sub, store_unit (sub_nonneg.2 a1) (sub_le_self _ a0), store_unit (sub_nonneg.2 b1) (sub_le_self _ b0),
      XNum.greatest, XNum.lt, decide_eq_true_eq]
    split
    · next h => rw [max_eq_right h.le]
    · next h => rw [max_eq_left (not_lt.1 h)]

theorem disparityScore64_312 (pow : K → Nat → K) :
    @disparityScore (XNum K) _ _ (ops64_312 pow) = disparityScore (ops64 pow) := rfl

/-! ### Sums -/

theorem add64_fin {a b : K} (h : |round64 (a + b)| < 2 ^ 1024) : add64 (.fin a) (.fin b) = .fin (round64 (a + b)) := store_fin h

/-- A float, or plus infinity from `2 ** 1024` on. -/
def capped (s : K) : XNum K := if s < 2 ^ 1024 then .fin s else .inf false

theorem add64_capped {s x : K} (hs : 0 ≤ s) (hf : round64 s = s) (hx : 0 ≤ x) :
    add64 (capped s) (.fin x) = capped (round64 (s + x)) := by
  have h0 := add_nonneg hs hx
  unfold capped
  by_cases h : s < 2 ^ 1024
  · rw [if_pos h]
    simp only [add64, store]
    rw [abs_of_nonneg (round64_nonneg h0), decide_eq_false (not_lt.2 h0)]
  · have : s ≤ round64 (s + x) := by
      have := round64_mono hs (le_add_of_nonneg_right hx : s ≤ s + x)
      rwa [hf] at this
    rw [if_neg h, if_neg (fun h' => h (this.trans_lt h'))]
    rfl

theorem foldl_capped {α : Type} (f : α → K) (l : List α) (hf : ∀ e ∈ l, 0 ≤ f e ∧ round64 (f e) = f e) {s : K} (hs : 0 ≤ s)
    (hfix : round64 s = s) :
    l.foldl (fun s e => add64 s (.fin (f e))) (capped s) = capped (l.foldl (fun s e => round64 (s + f e)) s) := by
  induction l generalizing s with
  | nil => rfl
  | cons e l ih =>
    have he := hf e (by simp)
    rw [List.foldl_cons, List.foldl_cons, add64_capped hs hfix he.1]
    have h0 := add_nonneg hs he.1
    exact ih (fun e' he' => hf e' (by simp [he'])) (round64_nonneg h0) (round64_rounding.idem h0)

/-- The strengths computed up to Python 3.11. -/
theorem strength64 (pow : K → Nat → K) {g : Graph V (Val K)} (h : g.WF) {w : V → V → K}
    (hpos : ∀ u v, g.hasEdge u v = true → 0 < w u v ∧ IsFloat64 (w u v)) (n : V) :
    (g.mapAttrs Val.toX).strengthN (ops64 pow) (fun u v => .fin (w u v)) n = capped (g.roundedStrength round64 w n) := by
  have hf : ∀ e ∈ g.edgesOf n, 0 ≤ w n e.2.1 ∧ round64 (w n e.2.1) = w n e.2.1 := by
    rintro ⟨x, m, k, a⟩ he
    obtain ⟨_, l, hl, hs, _⟩ := (mem_edgesOf h).1 he
    have := hpos n m (Graph.hasEdge_iff.2 ⟨l, hl, hs⟩)
    exact ⟨this.1.le, round64_fix this.2⟩
  have h0 : (0 : XNum K) = capped 0 := by
    unfold capped; rw [if_pos (by positivity)]; rfl
  unfold strengthN roundedStrength
  rw [edgesOf_mapAttrs, List.filter_map, List.foldl_map, List.map_map]
  simp only [ops64, List.foldl_map, Function.comp_def]
  obtain ⟨k1, k2, -⟩ := foldl_rounded round64_rounding (fun e : V × V × PyKey × Attrs (Val K) => w n e.2.1) (g.edgesOf n) hf
    le_rfl round64_zero
  rw [h0, foldl_capped _ _ hf le_rfl round64_zero, foldl_capped _ _ (fun e he => hf e (List.mem_filter.1 he).1) k1 k2]

/-- One step of the compensated sum, nothing overflowing. -/
theorem compensatedStep64_fin {f c x : K} (hf : IsFloat64 f) (hx : IsFloat64 x) (hf0 : 0 ≤ f) (hx0 : 0 ≤ x)
    (h1 : (compensatedStep round64 (f, c) x).1 < 2 ^ 1024) (h2 : |(compensatedStep round64 (f, c) x).2| < 2 ^ 1024) :
    compensatedStep64 (.fin f, .fin c) (.fin x) =
      (.fin (compensatedStep round64 (f, c) x).1, .fin (compensatedStep round64 (f, c) x).2) := by
  have key : ∀ a b : K, IsFloat64 a → 0 ≤ a → 0 ≤ b → IsFloat64 b → round64 (a + b) < 2 ^ 1024 →
      XNum.sub store (.fin a) (.fin (round64 (a + b))) = .fin (round64 (a - round64 (a + b))) ∧
      add64 (.fin (round64 (a - round64 (a + b)))) (.fin b) = .fin (round64 (round64 (a - round64 (a + b)) + b)) := by
    intro a b ha ha0 hb0 hb ht
    have t1 : a ≤ round64 (a + b) := by
      have := round64_mono ha0 (le_add_of_nonneg_right hb0 : a ≤ a + b)
      rwa [round64_fix ha] at this
    have t2 : b ≤ round64 (a + b) := by
      have := round64_mono hb0 (le_add_of_nonneg_left ha0 : b ≤ a + b)
      rwa [round64_fix hb] at this
    have tf : IsFloat64 (round64 (a + b)) := round64_isFloat _
    have hd : |a - round64 (a + b)| ≤ round64 (a + b) := by rw [abs_le]; constructor <;> linarith
    have hr := abs_round64_le' tf hd
    have hn : round64 (a - round64 (a + b)) ≤ 0 := by
      have := round64_monotone (sub_nonpos.2 t1)
      rwa [round64_zero] at this
    refine ⟨?_, ?_⟩
    · simp only [XNum.sub]
      exact store_fin (hr.trans_lt ht)
    · refine add64_fin ((abs_round64_le' tf ?_).trans_lt ht)
      have := (abs_le.1 hr).1
      rw [abs_le]; constructor <;> linarith
  simp only [compensatedStep] at h1 h2
  have ht : add64 (.fin f) (.fin x) = .fin (round64 (f + x)) :=
    add64_fin (by rwa [abs_of_nonneg (round64_nonneg (add_nonneg hf0 hx0))])
  simp only [compensatedStep64, compensatedStep, ht, XNum.fabs, XNum.le, decide_eq_true_eq]
  by_cases hc : |x| ≤ |f|
  · rw [if_pos hc] at h2
    obtain ⟨k1, k2⟩ := key f x hf hf0 hx0 hx h1
    rw [if_pos hc, if_pos hc, k1, k2, add64_fin h2]
  · rw [if_neg hc] at h2
    rw [add_comm f x] at h1 h2 ⊢
    obtain ⟨k1, k2⟩ := key x f hx hx0 hf0 hf h1
    rw [if_neg hc, if_neg hc, k1, k2, add64_fin h2]

/-- After at most `2 ** 24` additions, neither the sum nor the compensation exceeds twice the exact sum. -/
theorem SumState.bounds {S f c E A : K} {k : ℕ} (h : SumState S f c E A k) (hk : k ≤ 2 ^ 24) :
    f ≤ S * (1 + 1 / 2 ^ 28) ∧ |c| ≤ S * (1 / 2 ^ 27) := by
  have hS := h.nonneg'
  have hkK : (k : K) * (1 / 2 ^ 53) ≤ 1 / 2 ^ 29 := by
    have h2 : (k : K) ≤ 2 ^ 24 := by exact_mod_cast hk
    calc _ ≤ (2 : K) ^ 24 * (1 / 2 ^ 53) := mul_le_mul_of_nonneg_right h2 (by positivity)
      _ = _ := by norm_num
  have hk0 : (0 : K) ≤ k * (1 / 2 ^ 53) := by positivity
  have hpow : (1 + 1 / 2 ^ 53 : K) ^ k - 1 ≤ 2 * (k * (1 / 2 ^ 53)) := by
    have := (relative_bounds (u := (1 / 2 ^ 53 : K)) (S := 1) (s := (1 + 1 / 2 ^ 53) ^ k) (n := k)
      (by positivity) (by norm_num) (hkK.trans (by norm_num)) one_pos (by
        rw [one_mul]; exact pow_le_pow_left₀ (by norm_num) (by norm_num) _) (by rw [one_mul])).2.2
    simpa using this
  have hp2 : (1 + 1 / 2 ^ 53 : K) ^ k ≤ 1 + 1 / 2 ^ 28 := by
    have : 2 * ((1 : K) / 2 ^ 29) = 1 / 2 ^ 28 := by norm_num
    linarith
  have hp1 : (0 : K) ≤ (1 + 1 / 2 ^ 53) ^ k - 1 := sub_nonneg.2 (one_le_pow₀ (by norm_num))
  have hA0 : 0 ≤ A := (abs_nonneg _).trans h.le
  have hA : A ≤ S * (1 / 2 ^ 28) := by
    calc A ≤ k * (1 / 2 ^ 53) * (S * (1 + 1 / 2 ^ 53) ^ k) := h.small
      _ ≤ 1 / 2 ^ 29 * (S * (1 + 1 / 2 ^ 28)) :=
        mul_le_mul hkK (mul_le_mul_of_nonneg_left hp2 hS) (mul_nonneg hS (by positivity)) (by positivity)
      _ = S * (1 / 2 ^ 29 * (1 + 1 / 2 ^ 28)) := by ring
      _ ≤ _ := mul_le_mul_of_nonneg_left (by norm_num) hS
  refine ⟨h.sum.trans (mul_le_mul_of_nonneg_left hp2 hS), ?_⟩
  have hc : |c| ≤ |c - E| + |E| := by
    have := abs_add_le (c - E) E
    rwa [sub_add_cancel] at this
  have h1 : |c - E| ≤ 1 * A := h.near.trans (mul_le_mul_of_nonneg_right (by
    have : (1 : K) / 2 ^ 28 ≤ 1 := by norm_num
    linarith) hA0)
  have h2 : (1 : K) / 2 ^ 27 = 1 / 2 ^ 28 + 1 / 2 ^ 28 := by norm_num
  rw [h2, mul_add]
  linarith [h.le]

theorem steps64 {l : List K} (hl : ∀ x ∈ l, IsFloat64 x ∧ 0 ≤ x) {S f c E A : K} {k : ℕ} (h : SumState S f c E A k)
    (hk : k + l.length ≤ 2 ^ 24) (hS : S + l.sum ≤ 2 ^ 1023) :
    (l.map XNum.fin).foldl compensatedStep64 (.fin f, .fin c) =
      (.fin (l.foldl (compensatedStep round64) (f, c)).1, .fin (l.foldl (compensatedStep round64) (f, c)).2) := by
  induction l generalizing S f c E A k with
  | nil => rfl
  | cons x l ih =>
    obtain ⟨hx, hx0⟩ := hl x (by simp)
    have hl' : ∀ y ∈ l, IsFloat64 y ∧ 0 ≤ y := fun y hy => hl y (by simp [hy])
    obtain ⟨E', A', h'⟩ := h.step hx hx0
    rw [List.length_cons] at hk
    rw [List.sum_cons, ← add_assoc] at hS
    have hsum : 0 ≤ l.sum := List.sum_nonneg (fun y hy => (hl' y hy).2)
    obtain ⟨b1, b2⟩ := h'.bounds (by omega)
    have hSx : S + x ≤ 2 ^ 1023 := by linarith
    have htop : (2 : K) ^ 1024 = 2 ^ 1023 * 2 := pow_succ _ _
    have h1023 : (0 : K) < 2 ^ 1023 := by positivity
    have c1 : (compensatedStep round64 (f, c) x).1 < 2 ^ 1024 := by
      refine b1.trans_lt ((mul_le_mul_of_nonneg_right hSx (by norm_num)).trans_lt ?_)
      rw [htop]
      exact mul_lt_mul_of_pos_left (by norm_num) h1023
    have c2 : |(compensatedStep round64 (f, c) x).2| < 2 ^ 1024 := by
      refine b2.trans_lt ((mul_le_mul_of_nonneg_right hSx (by norm_num)).trans_lt ?_)
      rw [htop]
      exact mul_lt_mul_of_pos_left (by norm_num) h1023
    rw [List.map_cons, List.foldl_cons, List.foldl_cons, compensatedStep64_fin h.float hx h.nonneg hx0 c1 c2]
    exact ih hl' h' (by omega) hS

/-- The sum of at most `2 ** 24` nonnegative floats of sum at most `2 ** 1023` does not overflow from Python 3.12 on. -/
theorem compensatedSum64_fin {l : List K} (hl : ∀ x ∈ l, IsFloat64 x ∧ 0 ≤ x) (hn : l.length ≤ 2 ^ 24) (hS : l.sum ≤ 2 ^ 1023) :
    compensatedSum64 (l.map XNum.fin) = .fin (compensatedSum round64 l) ∧ compensatedSum round64 l < 2 ^ 1024 := by
  have htop : (2 : K) ^ 1024 = 2 ^ 1023 * 2 := pow_succ _ _
  have h1023 : (0 : K) < 2 ^ 1023 := by positivity
  have hlt : compensatedSum round64 l < 2 ^ 1024 := by
    have := (abs_le.1 (compensatedSum_error hl hn).2.1).2
    have h2 : (1 + (1 / 2 ^ 53 + 1 / 2 ^ 55)) * l.sum ≤ (1 + (1 / 2 ^ 53 + 1 / 2 ^ 55)) * 2 ^ 1023 :=
      mul_le_mul_of_nonneg_left hS (by norm_num)
    have h3 : (1 + (1 / 2 ^ 53 + 1 / 2 ^ 55) : K) * 2 ^ 1023 < 2 * 2 ^ 1023 := mul_lt_mul_of_pos_right (by norm_num) h1023
    rw [htop]
    clear htop
    generalize (2 : K) ^ 1023 = M at *
    linarith
  refine ⟨?_, hlt⟩
  cases l with
  | nil => rfl
  | cons a l =>
    obtain ⟨ha, ha0⟩ := hl a (by simp)
    have hl' : ∀ y ∈ l, IsFloat64 y ∧ 0 ≤ y := fun y hy => hl y (by simp [hy])
    have hsum : 0 ≤ l.sum := List.sum_nonneg (fun y hy => (hl' y hy).2)
    rw [List.sum_cons] at hS
    rw [List.length_cons] at hn
    have hinit : SumState a (round64 (0 + a)) 0 0 0 0 := by
      rw [zero_add, round64_fix ha]
      exact ⟨ha, ha0, ha0, by simp, OnGrid.zero _, OnGrid.zero _, by simp, by simp, by simp, by simp⟩
    have e0 : add64 0 (.fin a) = .fin (round64 (0 + a)) := by
      refine add64_fin ?_
      rw [zero_add, round64_fix ha, abs_of_nonneg ha0, htop]
      clear htop hlt
      generalize (2 : K) ^ 1023 = M at *
      linarith
    have es := steps64 hl' hinit (by omega) hS
    have hres : 0 ≤ compensatedSum round64 (a :: l) := ha0.trans ((compensatedSum_error hl (by simpa using hn)).2.2 a (by simp))
    unfold compensatedSum at hlt hres ⊢
    rw [List.map_cons]
    unfold compensatedSum64
    simp only [show (0 : XNum K) = .fin 0 from rfl] at e0 es ⊢
    simp only [e0, es]
    simp only at hlt hres ⊢
    split
    · rfl
    · next h0 =>
      rw [if_neg h0] at hlt hres
      exact add64_fin (by rwa [abs_of_nonneg hres])

/-- The strengths computed from Python 3.12 on. -/
theorem strength64_312 (pow : K → Nat → K) {g : Graph V (Val K)} (h : g.WF) (hd : g.directed = false) (hm : g.multi = false)
    {w : V → V → K} (hsym : ∀ u v, w u v = w v u) (hpos : ∀ u v, g.hasEdge u v = true → 0 < w u v ∧ IsFloat64 (w u v)) {n : V}
    (hdeg : g.degree n ≤ 2 ^ 24) (hS : g.nodeStrength w n ≤ 2 ^ 1023) :
    (g.mapAttrs Val.toX).strengthN (ops64_312 pow) (fun u v => .fin (w u v)) n =
      .fin (g.strengthN (Arith.ops312 ⟨round64, pow⟩) w n) := by
  have hf : ∀ e ∈ g.edgesOf n, IsFloat64 (w n e.2.1) ∧ 0 ≤ w n e.2.1 := by
    rintro ⟨x, m, k, a⟩ he
    obtain ⟨_, l, hl, hs, _⟩ := (mem_edgesOf h).1 he
    have := hpos n m (Graph.hasEdge_iff.2 ⟨l, hl, hs⟩)
    exact ⟨this.2, this.1.le⟩
  have hf' : ∀ x ∈ (g.edgesOf n).map (fun e => w n e.2.1), IsFloat64 x ∧ 0 ≤ x := by
    intro x hx
    obtain ⟨e, he, rfl⟩ := List.mem_map.1 hx
    exact hf e he
  have hlen : ((g.edgesOf n).map (fun e => w n e.2.1)).length ≤ 2 ^ 24 := by
    rw [List.length_map]
    have := degree_eq_terms hd (g := g) n
    omega
  have hloop := loops_le_one h hm n
  have herr := (abs_le.1 (strength312_error pow h hd hm hsym hpos hdeg).1).2
  have hlt : g.strengthN (Arith.ops312 ⟨round64, pow⟩) w n < 2 ^ 1024 := by
    have htop : (2 : K) ^ 1024 = 2 ^ 1023 * 2 := pow_succ _ _
    have h1023 : (0 : K) < 2 ^ 1023 := by positivity
    have h2 : (1 + 5 / 2 ^ 54) * g.nodeStrength w n ≤ (1 + 5 / 2 ^ 54) * 2 ^ 1023 := mul_le_mul_of_nonneg_left hS (by norm_num)
    have h3 : (1 + 5 / 2 ^ 54 : K) * 2 ^ 1023 < 2 * 2 ^ 1023 := mul_lt_mul_of_pos_right (by norm_num) h1023
    rw [htop]
    clear htop
    generalize (2 : K) ^ 1023 = M at *
    linarith
  have hsum : ((g.edgesOf n).map (fun e => w n e.2.1)).sum ≤ 2 ^ 1023 := by
    unfold nodeStrength at hS
    rw [← sum_edgesOf h hd w hsym n] at hS
    have : 0 ≤ (((g.edgesOf n).filter (fun e => e.2.1 = n)).map (fun e => w n e.2.1)).sum := by
      refine List.sum_nonneg (fun x hx => ?_)
      obtain ⟨e, he, rfl⟩ := List.mem_map.1 hx
      exact (hf e (List.mem_filter.1 he).1).2
    linarith
  obtain ⟨s1, s2⟩ := compensatedSum64_fin hf' hlen hsum
  have s3 : 0 ≤ compensatedSum round64 ((g.edgesOf n).map (fun e => w n e.2.1)) := by
    have := (abs_le.1 (compensatedSum_error hf' hlen).2.1).1
    have h0 : 0 ≤ ((g.edgesOf n).map (fun e => w n e.2.1)).sum := List.sum_nonneg (fun x hx => (hf' x hx).2)
    have h1 : (1 / 2 ^ 53 + 1 / 2 ^ 55) * ((g.edgesOf n).map (fun e => w n e.2.1)).sum ≤ ((g.edgesOf n).map (fun e => w n e.2.1)).sum :=
      mul_le_of_le_one_left h0 (by norm_num)
    linarith
  unfold strengthN at hlt ⊢
  rw [edgesOf_mapAttrs, List.filter_map, List.foldl_map, List.map_map]
  rw [List.map_map] at s1
  simp only [ops64_312, ops64, Arith.ops312, Arith.ops, Function.comp_def] at s1 hlt ⊢
  rw [s1]
  have hF : ∀ e ∈ (g.edgesOf n).filter (fun e => e.2.1 = n), IsFloat64 (w n e.2.1) ∧ 0 ≤ w n e.2.1 :=
    fun e he => hf e (List.mem_filter.1 he).1
  generalize (g.edgesOf n).filter (fun e => e.2.1 = n) = F at hloop hF hlt ⊢
  match F, hloop, hF with
  | [], _, _ => rfl
  | [e], _, hF =>
    simp only [List.foldl_cons, List.foldl_nil] at hlt ⊢
    exact add64_fin (by rwa [abs_of_nonneg (round64_nonneg (add_nonneg s3 (hF e (by simp)).2))])
  | _ :: _ :: _, hl, _ => simp at hl

/-! ### The compensated sum when it overflows -/

theorem steps64_inf (l : List K) (c : XNum K) : ((l.map XNum.fin).foldl compensatedStep64 (.inf false, c)).1 = .inf false := by
  induction l generalizing c with
  | nil => rfl
  | cons x l ih => exact ih _

/-- As long as the sum is finite, the compensation is. -/
theorem SumState.compensation_lt {S f c E A : K} {k : ℕ} (h : SumState S f c E A k) (hk : k ≤ 2 ^ 24) (hf : f < 2 ^ 1024) :
    |c| < 2 ^ 1024 := by
  have hS := h.nonneg'
  have h2 := (h.bounds hk).2
  have hf0 := h.nonneg
  have he := h.exact
  have h3 : |E| ≤ S * (1 / 2) := by
    have hkK : (k : K) * (1 / 2 ^ 53) ≤ 1 / 2 ^ 29 := by
      have h2 : (k : K) ≤ 2 ^ 24 := by exact_mod_cast hk
      calc _ ≤ (2 : K) ^ 24 * (1 / 2 ^ 53) := mul_le_mul_of_nonneg_right h2 (by positivity)
        _ = _ := by norm_num
    have hp2 : (1 + 1 / 2 ^ 53 : K) ^ k ≤ 2 := by
      have := (relative_bounds (u := (1 / 2 ^ 53 : K)) (S := 1) (s := (1 + 1 / 2 ^ 53) ^ k) (n := k)
        (by positivity) (by norm_num) (hkK.trans (by norm_num)) one_pos (by
          rw [one_mul]; exact pow_le_pow_left₀ (by norm_num) (by norm_num) _) (by rw [one_mul])).2.2
      have h4 : (1 : K) / 2 ^ 29 ≤ 1 / 2 := by norm_num
      rw [div_one] at this
      linarith
    refine (h.le.trans h.small).trans ?_
    calc k * (1 / 2 ^ 53) * (S * (1 + 1 / 2 ^ 53) ^ k) ≤ 1 / 2 ^ 29 * (S * 2) :=
          mul_le_mul hkK (mul_le_mul_of_nonneg_left hp2 hS) (mul_nonneg hS (by positivity)) (by positivity)
      _ = S * (1 / 2 ^ 28) := by ring
      _ ≤ _ := mul_le_mul_of_nonneg_left (by norm_num) hS
  have h4 : S ≤ 2 * f := by
    have := (abs_le.1 h3).2
    linarith
  generalize (2 : K) ^ 1024 = M at *
  have h5 : S * (1 / 2 ^ 27) ≤ S * (1 / 2) := mul_le_mul_of_nonneg_left (by norm_num) hS
  linarith

theorem steps64_cases {l : List K} (hl : ∀ x ∈ l, IsFloat64 x ∧ 0 ≤ x) {S f c E A : K} {k : ℕ} (h : SumState S f c E A k)
    (hk : k + l.length ≤ 2 ^ 24) :
    (l.map XNum.fin).foldl compensatedStep64 (.fin f, .fin c) =
        (.fin (l.foldl (compensatedStep round64) (f, c)).1, .fin (l.foldl (compensatedStep round64) (f, c)).2) ∨
      ((l.map XNum.fin).foldl compensatedStep64 (.fin f, .fin c)).1 = .inf false := by
  induction l generalizing S f c E A k with
  | nil => exact .inl rfl
  | cons x l ih =>
    obtain ⟨hx, hx0⟩ := hl x (by simp)
    have hl' : ∀ y ∈ l, IsFloat64 y ∧ 0 ≤ y := fun y hy => hl y (by simp [hy])
    obtain ⟨E', A', h'⟩ := h.step hx hx0
    rw [List.length_cons] at hk
    rw [List.map_cons, List.foldl_cons, List.foldl_cons]
    by_cases hlt : (compensatedStep round64 (f, c) x).1 < 2 ^ 1024
    · rw [compensatedStep64_fin h.float hx h.nonneg hx0 hlt (h'.compensation_lt (by omega) hlt)]
      exact ih hl' h' (by omega)
    · right
      have h0 := add_nonneg h.nonneg hx0
      have e : add64 (.fin f) (.fin x) = .inf false := by
        have hlt : ¬ round64 (f + x) < 2 ^ 1024 := hlt
        simp only [add64, store]
        rw [abs_of_nonneg (round64_nonneg h0), if_neg hlt, decide_eq_false (not_lt.2 h0)]
      have : compensatedStep64 (.fin f, .fin c) (.fin x) = (.inf false, (compensatedStep64 (.fin f, .fin c) (.fin x)).2) := by
        rw [← e]; rfl
      rw [this]
      exact steps64_inf l _

theorem add64_cases {a b : K} (h : 0 ≤ a + b) :
    add64 (.fin a) (.fin b) = .fin (round64 (a + b)) ∨ add64 (.fin a) (.fin b) = .inf false := by
  simp only [add64, store]
  rw [decide_eq_false (not_lt.2 h)]
  split
  · exact .inl rfl
  · exact .inr rfl

/-- The sum of at most `2 ** 24` nonnegative floats from Python 3.12 on is that of floats without a largest exponent, or plus
infinity. -/
theorem compensatedSum64_cases {l : List K} (hl : ∀ x ∈ l, IsFloat64 x ∧ 0 ≤ x) (hn : l.length ≤ 2 ^ 24) :
    compensatedSum64 (l.map XNum.fin) = .fin (compensatedSum round64 l) ∨ compensatedSum64 (l.map XNum.fin) = .inf false := by
  cases l with
  | nil => exact .inl rfl
  | cons a l =>
    obtain ⟨ha, ha0⟩ := hl a (by simp)
    have hl' : ∀ y ∈ l, IsFloat64 y ∧ 0 ≤ y := fun y hy => hl y (by simp [hy])
    have herr := compensatedSum_error hl hn
    rw [List.length_cons] at hn
    have hinit : SumState a (round64 (0 + a)) 0 0 0 0 := by
      rw [zero_add, round64_fix ha]
      exact ⟨ha, ha0, ha0, by simp, OnGrid.zero _, OnGrid.zero _, by simp, by simp, by simp, by simp⟩
    have fin' : ∀ s : XNum K × XNum K, s.1 = .inf false →
        (match s.2 with
          | .fin c => if c = 0 then s.1 else s.1.add64 (.fin c)
          | _ => s.1) = .inf false := by
      rintro ⟨s, c⟩ rfl
      cases c with
      | fin c => simp only; split <;> rfl
      | _ => rfl
    rw [List.map_cons]
    rcases add64_cases (a := 0) (b := a) (by rwa [zero_add]) with e0 | e0
    · rcases steps64_cases hl' hinit (by omega) with es | es
      · obtain ⟨E, A, hs⟩ := hinit.steps hl'
        unfold compensatedSum compensatedSum64
        simp only [show (0 : XNum K) = .fin 0 from rfl]
        simp only [e0, es]
        split
        · exact .inl rfl
        · refine add64_cases ?_
          have hc := (hs.bounds (by omega)).2
          have hS := hs.nonneg'
          have h3 := hs.exact
          have h4 : |(l.foldl (compensatedStep round64) (round64 (0 + a), 0)).2 - E| ≤ 1 * A := by
            refine hs.near.trans (mul_le_mul_of_nonneg_right ?_ ((abs_nonneg _).trans hs.le))
            have hkK : ((0 + l.length : ℕ) : K) * (1 / 2 ^ 53) ≤ 1 / 2 ^ 29 := by
              have h2 : ((0 + l.length : ℕ) : K) ≤ 2 ^ 24 := by exact_mod_cast (by omega : 0 + l.length ≤ 2 ^ 24)
              calc _ ≤ (2 : K) ^ 24 * (1 / 2 ^ 53) := mul_le_mul_of_nonneg_right h2 (by positivity)
                _ = _ := by norm_num
            have := (relative_bounds (u := (1 / 2 ^ 53 : K)) (S := 1) (s := (1 + 1 / 2 ^ 53) ^ (0 + l.length)) (n := 0 + l.length)
              (by positivity) (by norm_num) (hkK.trans (by norm_num)) one_pos (by
                rw [one_mul]; exact pow_le_pow_left₀ (by norm_num) (by norm_num) _) (by rw [one_mul])).2.2
            rw [div_one] at this
            have h4 : (1 : K) / 2 ^ 29 ≤ 1 / 2 := by norm_num
            linarith
          have h5 : A ≤ a + l.sum := by
            have hkK : ((0 + l.length : ℕ) : K) * (1 / 2 ^ 53) ≤ 1 / 2 ^ 29 := by
              have h2 : ((0 + l.length : ℕ) : K) ≤ 2 ^ 24 := by exact_mod_cast (by omega : 0 + l.length ≤ 2 ^ 24)
              calc _ ≤ (2 : K) ^ 24 * (1 / 2 ^ 53) := mul_le_mul_of_nonneg_right h2 (by positivity)
                _ = _ := by norm_num
            have := (relative_bounds (u := (1 / 2 ^ 53 : K)) (S := 1) (s := (1 + 1 / 2 ^ 53) ^ (0 + l.length)) (n := 0 + l.length)
              (by positivity) (by norm_num) (hkK.trans (by norm_num)) one_pos (by
                rw [one_mul]; exact pow_le_pow_left₀ (by norm_num) (by norm_num) _) (by rw [one_mul])).2.2
            rw [div_one] at this
            have hp2 : (1 + 1 / 2 ^ 53 : K) ^ (0 + l.length) ≤ 2 := by
              have h4 : (1 : K) / 2 ^ 29 ≤ 1 / 2 := by norm_num
              linarith
            calc A ≤ _ := hs.small
              _ ≤ 1 / 2 ^ 29 * ((a + l.sum) * 2) :=
                mul_le_mul hkK (mul_le_mul_of_nonneg_left hp2 hS) (mul_nonneg hS (by positivity)) (by positivity)
              _ = (a + l.sum) * (1 / 2 ^ 28) := by ring
              _ ≤ (a + l.sum) * 1 := mul_le_mul_of_nonneg_left (by norm_num) hS
              _ = _ := mul_one _
          have := (abs_le.1 h4).1
          linarith
      · right
        unfold compensatedSum64
        simp only [show (0 : XNum K) = .fin 0 from rfl]
        simp only [e0]
        exact fin' _ es
    · right
      unfold compensatedSum64
      simp only [show (0 : XNum K) = .fin 0 from rfl]
      simp only [e0]
      exact fin' _ (steps64_inf l _)

/-- The strengths computed from Python 3.12 on: those of floats without a largest exponent, or plus infinity. -/
theorem strength64_312_cases (pow : K → Nat → K) {g : Graph V (Val K)} (h : g.WF) (hd : g.directed = false) (hm : g.multi = false)
    {w : V → V → K} (hpos : ∀ u v, g.hasEdge u v = true → 0 < w u v ∧ IsFloat64 (w u v)) {n : V} (hdeg : g.degree n ≤ 2 ^ 24) :
    (g.mapAttrs Val.toX).strengthN (ops64_312 pow) (fun u v => .fin (w u v)) n =
        .fin (g.strengthN (Arith.ops312 ⟨round64, pow⟩) w n) ∨
      (g.mapAttrs Val.toX).strengthN (ops64_312 pow) (fun u v => .fin (w u v)) n = .inf false := by
  have hf : ∀ e ∈ g.edgesOf n, IsFloat64 (w n e.2.1) ∧ 0 ≤ w n e.2.1 := by
    rintro ⟨x, m, k, a⟩ he
    obtain ⟨_, l, hl, hs, _⟩ := (mem_edgesOf h).1 he
    have := hpos n m (Graph.hasEdge_iff.2 ⟨l, hl, hs⟩)
    exact ⟨this.2, this.1.le⟩
  have hf' : ∀ x ∈ (g.edgesOf n).map (fun e => w n e.2.1), IsFloat64 x ∧ 0 ≤ x := by
    intro x hx
    obtain ⟨e, he, rfl⟩ := List.mem_map.1 hx
    exact hf e he
  have hlen : ((g.edgesOf n).map (fun e => w n e.2.1)).length ≤ 2 ^ 24 := by
    rw [List.length_map]
    have := degree_eq_terms hd (g := g) n
    omega
  have hloop := loops_le_one h hm n
  have s1 := compensatedSum64_cases hf' hlen
  have s3 : 0 ≤ compensatedSum round64 ((g.edgesOf n).map (fun e => w n e.2.1)) := by
    have := (abs_le.1 (compensatedSum_error hf' hlen).2.1).1
    have h0 : 0 ≤ ((g.edgesOf n).map (fun e => w n e.2.1)).sum := List.sum_nonneg (fun x hx => (hf' x hx).2)
    have h1 : (1 / 2 ^ 53 + 1 / 2 ^ 55) * ((g.edgesOf n).map (fun e => w n e.2.1)).sum ≤ ((g.edgesOf n).map (fun e => w n e.2.1)).sum :=
      mul_le_of_le_one_left h0 (by norm_num)
    linarith
  unfold strengthN
  rw [edgesOf_mapAttrs, List.filter_map, List.foldl_map, List.map_map]
  rw [List.map_map] at s1
  simp only [ops64_312, ops64, Arith.ops312, Arith.ops, Function.comp_def] at s1 ⊢
  have hF : ∀ e ∈ (g.edgesOf n).filter (fun e => e.2.1 = n), IsFloat64 (w n e.2.1) ∧ 0 ≤ w n e.2.1 :=
    fun e he => hf e (List.mem_filter.1 he).1
  generalize (g.edgesOf n).filter (fun e => e.2.1 = n) = F at hloop hF ⊢
  match F, hloop, hF with
  | [], _, _ => exact s1
  | [e], _, hF =>
    simp only [List.foldl_cons, List.foldl_nil]
    rcases s1 with s1 | s1
    · rw [s1]
      exact add64_cases (add_nonneg s3 (hF e (by simp)).2)
    · rw [s1]
      exact .inr rfl
  | _ :: _ :: _, hl, _ => simp at hl

end

end Pelote
