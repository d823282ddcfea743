import Verif.Props.DisparityFloat
import Verif.Lemmas.CompensatedSum
import Verif.Props.Sparsification
import Mathlib.Tactic.Positivity
import Mathlib.Tactic.Linarith
import Mathlib.Algebra.Order.Ring.Pow

/-! C92: how far the edge disparities computed with floats are from the exact ones. -/
set_option linter.unusedSectionVars false
namespace Pelote
open Graph

section
variable {K : Type} [Field K] [LinearOrder K] [IsStrictOrderedRing K]

/-! ### Powers -/

theorem pow_sub_pow_le_mul {a b : K} (hb : 0 ≤ b) (hab : b ≤ a) (n : ℕ) : a ^ n - b ^ n ≤ n * (a - b) * a ^ (n - 1) := by
  induction n with
  | zero => simp
  | succ n ih =>
    rcases Nat.eq_zero_or_pos n with rfl | hn
    · simp
    · have ha : 0 ≤ a := hb.trans hab
      have h1 : a ^ (n + 1) - b ^ (n + 1) = a * (a ^ n - b ^ n) + (a - b) * b ^ n := by ring
      have h2 : a * (a ^ n - b ^ n) ≤ a * (n * (a - b) * a ^ (n - 1)) := mul_le_mul_of_nonneg_left ih ha
      have h3 : (a - b) * b ^ n ≤ (a - b) * a ^ n :=
        mul_le_mul_of_nonneg_left (pow_le_pow_left₀ hb hab n) (sub_nonneg.2 hab)
      have h4 : a * (n * (a - b) * a ^ (n - 1)) = n * (a - b) * a ^ n := by
        obtain ⟨m, rfl⟩ := Nat.exists_eq_succ_of_ne_zero hn.ne'
        rw [Nat.succ_eq_add_one, Nat.add_sub_cancel]
        ring
      rw [Nat.add_sub_cancel]
      push_cast
      rw [h1]
      calc _ ≤ n * (a - b) * a ^ n + (a - b) * a ^ n := by rw [← h4]; exact add_le_add h2 h3
        _ = _ := by ring

/-- Powers of numbers between 0 and 1. -/
theorem abs_pow_sub_pow_le {a b : K} (ha : 0 ≤ a) (ha1 : a ≤ 1) (hb : 0 ≤ b) (hb1 : b ≤ 1) (n : ℕ) :
    |a ^ n - b ^ n| ≤ n * |a - b| := by
  have key : ∀ {a b : K}, 0 ≤ b → b ≤ a → a ≤ 1 → |a ^ n - b ^ n| ≤ n * |a - b| := by
    intro a b hb hab ha1
    have ha := hb.trans hab
    rw [abs_of_nonneg (sub_nonneg.2 (pow_le_pow_left₀ hb hab n)), abs_of_nonneg (sub_nonneg.2 hab)]
    refine (pow_sub_pow_le_mul hb hab n).trans ?_
    exact mul_le_of_le_one_right (mul_nonneg (Nat.cast_nonneg _) (sub_nonneg.2 hab)) (pow_le_one₀ ha ha1)
  rcases le_total b a with h | h
  · exact key hb h ha1
  · rw [abs_sub_comm, abs_sub_comm a b]; exact key ha h hb1

/-- The probability of at most one success in `n` draws is at most 1. -/
theorem one_success {p : K} (hp : 0 ≤ p) (hp1 : p ≤ 1) (n : ℕ) : n * p * (1 - p) ^ (n - 1) + (1 - p) ^ n ≤ 1 := by
  have hq : 0 ≤ 1 - p := sub_nonneg.2 hp1
  have hq1 : 1 - p ≤ 1 := sub_le_self _ hp
  induction n with
  | zero => simp
  | succ n ih =>
    rw [Nat.add_sub_cancel]
    push_cast
    refine le_trans ?_ ih
    have h2 : n * p * (1 - p) ^ n ≤ n * p * (1 - p) ^ (n - 1) :=
      mul_le_mul_of_nonneg_left (pow_le_pow_of_le_one hq hq1 (Nat.sub_le _ _)) (mul_nonneg (Nat.cast_nonneg _) hp)
    calc (n + 1) * p * (1 - p) ^ n + (1 - p) ^ (n + 1) = n * p * (1 - p) ^ n + (1 - p) ^ n := by ring
      _ ≤ _ := by linarith

/-- A relative change of a proportion moves the score by no more. -/
theorem score_change {p p' : K} (hp : 0 < p) (h : p ≤ p') (hp1 : p' ≤ 1) (n : ℕ) :
    |(1 - p') ^ n - (1 - p) ^ n| ≤ p' / p - 1 := by
  have h1 : 1 - p' ≤ 1 - p := by linarith
  rw [abs_sub_comm, abs_of_nonneg (sub_nonneg.2 (pow_le_pow_left₀ (sub_nonneg.2 hp1) h1 n))]
  refine (pow_sub_pow_le_mul (sub_nonneg.2 hp1) h1 n).trans ?_
  have h2 := one_success hp.le (h.trans hp1) n
  have h3 : 0 ≤ (1 - p) ^ n := pow_nonneg (sub_nonneg.2 (h.trans hp1)) n
  have h4 : n * p * (1 - p) ^ (n - 1) ≤ 1 := by linarith
  have h5 : (n : K) * (1 - p - (1 - p')) * (1 - p) ^ (n - 1) = (p' / p - 1) * (n * p * (1 - p) ^ (n - 1)) := by
    field_simp
    ring
  rw [h5]
  exact mul_le_of_le_one_right (by rw [sub_nonneg, le_div_iff₀ hp]; linarith) h4

/-! ### Sums -/

/-- A sum rounded at each step, next to the exact one, when rounding has a relative error of at most `u` on the numbers having the
property `P`, which addition and rounding preserve. -/
theorem foldl_error {α : Type} {rnd : K → K} {u : K} {P : K → Prop} (hu : 0 ≤ u) (hu1 : u ≤ 1)
    (hP : ∀ x y, P x → P y → P (rnd (x + y))) (hr : ∀ x y, P x → P y → 0 ≤ x + y → |rnd (x + y) - (x + y)| ≤ u * (x + y))
    (f : α → K) (l : List α) (hf : ∀ e ∈ l, P (f e) ∧ 0 ≤ f e) {s S : K} {k : ℕ} (hsP : P s)
    (hs0 : 0 ≤ s) (hS0 : 0 ≤ S) (h1 : S * (1 - u) ^ k ≤ s) (h2 : s ≤ S * (1 + u) ^ k) :
    P (l.foldl (fun s e => rnd (s + f e)) s) ∧ 0 ≤ l.foldl (fun s e => rnd (s + f e)) s ∧ 0 ≤ l.foldl (fun s e => s + f e) S ∧
      l.foldl (fun s e => s + f e) S * (1 - u) ^ (k + l.length) ≤ l.foldl (fun s e => rnd (s + f e)) s ∧
      l.foldl (fun s e => rnd (s + f e)) s ≤ l.foldl (fun s e => s + f e) S * (1 + u) ^ (k + l.length) := by
  induction l generalizing s S k with
  | nil => exact ⟨hsP, hs0, hS0, h1, h2⟩
  | cons e l ih =>
    obtain ⟨hm, he0⟩ := hf e (by simp)
    have hrn := abs_le.1 (hr s (f e) hsP hm (add_nonneg hs0 he0))
    have hx0 : 0 ≤ s + f e := add_nonneg hs0 he0
    have hux : u * (s + f e) ≤ s + f e := mul_le_of_le_one_left hx0 hu1
    have hk1 : (1 - u) ^ k ≤ 1 := pow_le_one₀ (by linarith) (by linarith)
    have hk2 : 1 ≤ (1 + u) ^ k := one_le_pow₀ (by linarith)
    have a1 : (S + f e) * (1 - u) ^ k ≤ s + f e := by
      rw [add_mul]; exact add_le_add h1 (mul_le_of_le_one_right he0 hk1)
    have a2 : s + f e ≤ (S + f e) * (1 + u) ^ k := by
      rw [add_mul]; exact add_le_add h2 (le_mul_of_one_le_right he0 hk2)
    have := ih (fun e he => hf e (by simp [he])) (s := rnd (s + f e)) (S := S + f e) (k := k + 1) (hP _ _ hsP hm) (by linarith)
      (add_nonneg hS0 he0)
      (by
        calc (S + f e) * (1 - u) ^ (k + 1) = (S + f e) * (1 - u) ^ k * (1 - u) := by ring
          _ ≤ (s + f e) * (1 - u) := mul_le_mul_of_nonneg_right a1 (by linarith)
          _ ≤ _ := by linarith)
      (by
        calc rnd (s + f e) ≤ (s + f e) * (1 + u) := by linarith
          _ ≤ (S + f e) * (1 + u) ^ k * (1 + u) := mul_le_mul_of_nonneg_right a2 (by linarith)
          _ = _ := by ring)
    simp only [List.foldl_cons, List.length_cons]
    rw [show k + (l.length + 1) = k + 1 + l.length by omega]
    exact this

/-- From the powers to a bound in terms of their number. -/
theorem relative_bounds {u S s : K} {n : ℕ} (hu : 0 ≤ u) (hu1 : u ≤ 1) (hn : n * u ≤ 1 / 2) (hS : 0 < S)
    (h1 : S * (1 - u) ^ n ≤ s) (h2 : s ≤ S * (1 + u) ^ n) : 0 < s ∧ S / s - 1 ≤ 2 * (n * u) ∧ s / S - 1 ≤ 2 * (n * u) := by
  have b1 : 1 - n * u ≤ (1 - u) ^ n := by
    have := one_add_mul_le_pow (a := -u) (by linarith) n
    rw [← sub_eq_add_neg] at this
    linarith
  have b0 : 0 ≤ (n : K) * u := mul_nonneg (Nat.cast_nonneg _) hu
  have bpos : 0 < 1 - n * u := by linarith
  have b2 : (1 + u) ^ n * (1 - n * u) ≤ 1 := by
    refine (mul_le_mul_of_nonneg_left b1 (pow_nonneg (by linarith) n)).trans ?_
    rw [← mul_pow]
    exact pow_le_one₀ (mul_nonneg (by linarith) (by linarith)) (by nlinarith)
  have c1 : S * (1 - n * u) ≤ s := (mul_le_mul_of_nonneg_left b1 hS.le).trans h1
  have hs : 0 < s := (mul_pos hS bpos).trans_le c1
  have b3 : 1 ≤ (1 + 2 * (n * u)) * (1 - n * u) := by nlinarith
  refine ⟨hs, ?_, ?_⟩
  · rw [sub_le_iff_le_add, div_le_iff₀ hs]
    calc S ≤ S * ((1 + 2 * (n * u)) * (1 - n * u)) := le_mul_of_one_le_right hS.le b3
      _ = (1 + 2 * (n * u)) * (S * (1 - n * u)) := by ring
      _ ≤ (1 + 2 * (n * u)) * s := mul_le_mul_of_nonneg_left c1 (by linarith)
      _ = _ := by ring
  · rw [sub_le_iff_le_add, div_le_iff₀ hS]
    have b4 : (1 + u) ^ n ≤ 1 + 2 * (n * u) := by
      have h0 : 0 ≤ (1 + u) ^ n := pow_nonneg (by linarith) n
      by_contra hc
      rw [not_le] at hc
      have := mul_lt_mul_of_pos_right hc bpos
      linarith
    calc s ≤ S * (1 + u) ^ n := h2
      _ ≤ S * (1 + 2 * (n * u)) := mul_le_mul_of_nonneg_left b4 hS.le
      _ = _ := by ring

/-! ### One side of a score -/

/-- The error of one side, for a strength computed with `n` rounded additions. -/
theorem sideScore_error {rnd : K → K} {pow : K → ℕ → K} {u v t : K} (hr : Rounding rnd)
    (hv : ∀ x, 0 ≤ x → x ≤ 1 → |rnd x - x| ≤ v) (hpow : ∀ x n, 0 ≤ x → x ≤ 1 → |pow x n - x ^ n| ≤ t)
    {w s S : K} (hw : 0 < w) (hs : w ≤ s) (hS : w ≤ S) {d : ℕ}
    (h1 : S / s - 1 ≤ u) (h2 : s / S - 1 ≤ u) :
    |sideScore rnd pow w s d - (1 - w / S) ^ (d - 1)| ≤ u + (d - 1 : ℕ) * (2 * v) + t := by
  have hs0 := hw.trans_le hs
  have hS0 := hw.trans_le hS
  have hp0 : 0 ≤ w / s := (div_pos hw hs0).le
  have hp1 : w / s ≤ 1 := (div_le_one hs0).2 hs
  have hP1 : w / S ≤ 1 := (div_le_one hS0).2 hS
  have hr0 := hr.nonneg hp0
  have hr1 := hr.le_one hp0 hp1
  have hy0 : 0 ≤ 1 - rnd (w / s) := sub_nonneg.2 hr1
  have hy1 : 1 - rnd (w / s) ≤ 1 := sub_le_self _ hr0
  have e1 := hv _ hp0 hp1
  have e2 := hv _ hy0 hy1
  have e3 : |rnd (1 - rnd (w / s)) - (1 - w / s)| ≤ 2 * v := by
    rw [abs_le] at e1 e2 ⊢
    constructor <;> linarith
  have e4 := abs_pow_sub_pow_le (hr.nonneg hy0) (hr.le_one hy0 hy1) (sub_nonneg.2 hp1) (sub_le_self 1 hp0) (d - 1)
  have e5 : |(1 - w / s) ^ (d - 1) - (1 - w / S) ^ (d - 1)| ≤ u := by
    rcases le_total s S with h | h
    · have hle : w / S ≤ w / s := div_le_div_of_nonneg_left hw.le hs0 h
      refine (score_change (div_pos hw hS0) hle hp1 (d - 1)).trans ?_
      have : w / s / (w / S) = S / s := by field_simp
      rw [this]; exact h1
    · have hle : w / s ≤ w / S := div_le_div_of_nonneg_left hw.le hS0 h
      rw [abs_sub_comm]
      refine (score_change (div_pos hw hs0) hle hP1 (d - 1)).trans ?_
      have : w / S / (w / s) = s / S := by field_simp
      rw [this]; exact h2
  have e6 := hpow _ (d - 1) (hr.nonneg hy0) (hr.le_one hy0 hy1)
  have e7 := e4.trans (mul_le_mul_of_nonneg_left e3 (Nat.cast_nonneg (d - 1)))
  unfold sideScore
  rw [abs_le] at e5 e6 e7 ⊢
  constructor <;> linarith

variable {V : Type} [LinearOrder V]

/-- The degree of a node is the number of weights added up for its strength. -/
theorem degree_eq_terms {A : Type} {g : Graph V A} (hd : g.directed = false) (n : V) :
    g.degree n = (g.edgesOf n).length + ((g.edgesOf n).filter (fun e => e.2.1 = n)).length := by
  have h1 : ∀ l : List (V × Dict PyKey (Attrs A)),
      (l.map (fun p => p.2.length)).sum = (l.flatMap (fun p => p.2.map (fun ka => (n, p.1, ka.1, ka.2)))).length := by
    intro l
    induction l with
    | nil => rfl
    | cons p l ih => rw [List.map_cons, List.sum_cons, ih, List.flatMap_cons, List.length_append, List.length_map]
  have h2 : ∀ l : List (V × Dict PyKey (Attrs A)),
      (l.flatMap (fun p => p.2.map (fun ka => (n, p.1, ka.1, ka.2)))).filter (fun e => e.2.1 = n) =
        (l.filter (fun p => p.1 = n)).flatMap (fun p => p.2.map (fun ka => (n, p.1, ka.1, ka.2))) := by
    intro l
    induction l with
    | nil => rfl
    | cons p l ih =>
      rw [List.flatMap_cons, List.filter_append, ih, List.filter_cons]
      by_cases hp : p.1 = n
      · rw [if_pos (by simpa using hp), List.flatMap_cons]
        congr 1
        rw [List.filter_eq_self]
        intro e he
        obtain ⟨ka, -, rfl⟩ := List.mem_map.1 he
        simpa using hp
      · rw [if_neg (by simpa using hp)]
        have : (p.2.map (fun ka => (n, p.1, ka.1, ka.2))).filter (fun e => decide (e.2.1 = n)) = [] := by
          rw [List.filter_eq_nil_iff]
          intro e he
          obtain ⟨ka, -, rfl⟩ := List.mem_map.1 he
          simpa using hp
        rw [this, List.nil_append]
  unfold Graph.degree Graph.edgesOf
  rw [if_neg (by simp [hd]), h1, h1, h2]

variable [FloorRing K]

/-- The error of rounding a number between 0 and 1. -/
theorem round64_unit {x : K} (h0 : 0 ≤ x) (h1 : x ≤ 1) : |round64 x - x| ≤ 1 / 2 ^ 54 := by
  rcases h0.eq_or_lt with rfl | hpos
  · rw [round64_zero]; simp
  rcases h1.eq_or_lt with rfl | hlt
  · rw [round64_one]; simp
  refine (abs_round64_sub x).trans ?_
  have hl : Int.log 2 x < 0 := (Int.lt_zpow_iff_log_lt (b := 2) (by norm_num) hpos).1 (by simpa using hlt)
  have hu : ulpExp x ≤ -53 := by unfold ulpExp; rw [abs_of_pos hpos]; omega
  have : (2 : K) ^ ulpExp x ≤ 2 ^ (-53 : ℤ) := zpow_le_zpow_right₀ (by norm_num) hu
  calc (2 : K) ^ ulpExp x / 2 ≤ 2 ^ (-53 : ℤ) / 2 := div_le_div_of_nonneg_right this (by norm_num)
    _ = 1 / 2 ^ 54 := by norm_num

/-- The strength of a node, next to the exact one. -/
theorem roundedStrength_error {g : Graph V (Val K)} (h : g.WF) (hd : g.directed = false) {w : V → V → K}
    (hsym : ∀ u v, w u v = w v u)
    (hpos : ∀ u v, g.hasEdge u v = true → 0 < w u v ∧ IsFloat64 (w u v)) {n m : V}
    (he : g.hasEdge n m = true) :
    g.nodeStrength w n * (1 - 1 / 2 ^ 53) ^ (g.degree n - 1) ≤ g.roundedStrength round64 w n ∧
      g.roundedStrength round64 w n ≤ g.nodeStrength w n * (1 + 1 / 2 ^ 53) ^ (g.degree n - 1) := by
  have hedge : ∀ e ∈ g.edgesOf n, g.hasEdge n e.2.1 = true := by
    rintro ⟨x, m, k, a⟩ he
    obtain ⟨_, l, hl, hs, _⟩ := (mem_edgesOf h).1 he
    exact Graph.hasEdge_iff.2 ⟨l, hl, hs⟩
  have hrel : ∀ x y : K, IsFloat64 x → IsFloat64 y → 0 ≤ x + y →
      |round64 (x + y) - (x + y)| ≤ 1 / 2 ^ 53 * (x + y) := by
    intro x y hx hy h0
    have := round64_rel_grid (hx.onLeast.add hy.onLeast)
    rwa [abs_of_nonneg h0] at this
  have hP : ∀ x y : K, IsFloat64 x → IsFloat64 y → IsFloat64 (round64 (x + y)) := fun x y _ _ => round64_isFloat _
  have hf : ∀ e ∈ g.edgesOf n, IsFloat64 (w n e.2.1) ∧ 0 ≤ w n e.2.1 :=
    fun e he => ⟨(hpos _ _ (hedge e he)).2, (hpos _ _ (hedge e he)).1.le⟩
  have hne : g.edgesOf n ≠ [] := by
    obtain ⟨l, hl, hs⟩ := Graph.hasEdge_iff.1 he
    obtain ⟨⟨k, a⟩, hka⟩ := List.exists_mem_of_ne_nil _ (h.nonempty l hl)
    exact List.ne_nil_of_mem ((mem_edgesOf h).2 ⟨rfl, l, hl, hs, hka⟩ : (n, m, k, a) ∈ g.edgesOf n)
  rw [← roundedStrength_id h hd hsym, degree_eq_terms hd]
  unfold Graph.roundedStrength
  have hf' : ∀ e ∈ (g.edgesOf n).filter (fun e => e.2.1 = n), IsFloat64 (w n e.2.1) ∧ 0 ≤ w n e.2.1 :=
    fun e he => hf e (List.mem_filter.1 he).1
  generalize (g.edgesOf n).filter (fun e => e.2.1 = n) = F at hf' ⊢
  cases hl : g.edgesOf n with
  | nil => exact absurd hl hne
  | cons e l =>
    rw [hl] at hf hedge
    have h1 : round64 (w n e.2.1) = w n e.2.1 := by
      exact round64_float (hf e (by simp)).2 (hpos _ _ (hedge e (by simp))).2
    have u0 : (0 : K) ≤ 1 / 2 ^ 53 := by positivity
    have u1 : (1 : K) / 2 ^ 53 ≤ 1 := by norm_num
    obtain ⟨a0, a1, a2, a3, a4⟩ := foldl_error u0 u1 hP hrel (fun e : V × V × PyKey × Attrs (Val K) => w n e.2.1) l
      (fun e he => hf e (by simp [he])) (s := w n e.2.1) (S := w n e.2.1) (k := 0) (hf e (by simp)).1 (hf e (by simp)).2 (hf e (by simp)).2
      (by simp) (by simp)
    obtain ⟨-, -, -, b3, b4⟩ := foldl_error u0 u1 hP hrel (fun e : V × V × PyKey × Attrs (Val K) => w n e.2.1) F hf' a0 a1 a2 a3 a4
    simp only [List.foldl_cons, List.length_cons, id]
    rw [zero_add (w n e.2.1), h1]
    rw [show l.length + 1 + F.length - 1 = 0 + l.length + F.length by omega]
    exact ⟨b3, b4⟩

/-- The exact score of an edge, reversed or not. -/
def Graph.exactScore (g : Graph V (Val K)) (w : V → V → K) (reverse : Bool) (u v : V) : K :=
  if reverse then 1 - g.disparity w u v else g.disparity w u v

/-- The distance allowed between the computed score of an edge and the exact one: three times the larger of the two degrees,
in units of `2 ^ (-53)`. -/
def Graph.scoreError (g : Graph V (Val K)) (u v : V) : K := 3 * max (g.degree u) (g.degree v) / 2 ^ 53

theorem roundedDisparity_error {pow : K → ℕ → K} (hp : UnitPow pow)
    (hpow : ∀ x n, 0 ≤ x → x ≤ 1 → |pow x n - x ^ n| ≤ 1 / 2 ^ 52)
    {g : Graph V (Val K)} (h : g.WF) (hd : g.directed = false) {w : V → V → K} (hsym : ∀ u v, w u v = w v u)
    (hpos : ∀ u v, g.hasEdge u v = true → 0 < w u v ∧ IsFloat64 (w u v))
    (hdeg : ∀ n, g.degree n ≤ 2 ^ 52) {u v : V} (he : g.hasEdge u v = true) (reverse : Bool) :
    |g.roundedDisparity round64 pow reverse w u v - g.exactScore w reverse u v| ≤ g.scoreError u v := by
  have hpos' : ∀ u v, g.hasEdge u v = true → 0 < w u v ∧ round64 (w u v) = w u v := fun u v he =>
    ⟨(hpos u v he).1, round64_fix (hpos u v he).2⟩
  -- one side
  have side : ∀ a b, g.hasEdge a b = true →
      |sideScore round64 pow (w a b) (g.roundedStrength round64 w a) (g.degree a) -
        (1 - w a b / g.nodeStrength w a) ^ (g.degree a - 1)| ≤ (3 * (g.degree a : K) - 1) / 2 ^ 53 ∧
      0 ≤ sideScore round64 pow (w a b) (g.roundedStrength round64 w a) (g.degree a) ∧
      sideScore round64 pow (w a b) (g.roundedStrength round64 w a) (g.degree a) ≤ 1 := by
    intro a b hab
    have hw := (hpos' a b hab).1
    have k1 := weight_le_roundedStrength round64_rounding h hpos' hab
    have k2 := weight_le_nodeStrength h hsym (fun u v he => (hpos' u v he).1.le) hab
    obtain ⟨r1, r2⟩ := roundedStrength_error h hd hsym hpos hab
    have hdeg1 : 1 ≤ g.degree a := by
      rw [degree_eq_terms hd]
      obtain ⟨l, hl, hs⟩ := Graph.hasEdge_iff.1 hab
      obtain ⟨⟨k, at'⟩, hka⟩ := List.exists_mem_of_ne_nil _ (h.nonempty l hl)
      have := List.length_pos_of_mem ((mem_edgesOf h).2 ⟨rfl, l, hl, hs, hka⟩ : (a, b, k, at') ∈ g.edgesOf a)
      omega
    have hcast : ((g.degree a - 1 : ℕ) : K) = g.degree a - 1 := by rw [Nat.cast_sub hdeg1, Nat.cast_one]
    have hnu : ((g.degree a - 1 : ℕ) : K) * (1 / 2 ^ 53) ≤ 1 / 2 := by
      have h1 : ((g.degree a - 1 : ℕ) : K) ≤ 2 ^ 52 := by
        have : g.degree a - 1 ≤ 2 ^ 52 := (Nat.sub_le _ _).trans (hdeg a)
        exact_mod_cast this
      calc _ ≤ (2 : K) ^ 52 * (1 / 2 ^ 53) := mul_le_mul_of_nonneg_right h1 (by positivity)
        _ = 1 / 2 := by norm_num
    obtain ⟨-, c1, c2⟩ := relative_bounds (by positivity) (by norm_num) hnu (hw.trans_le k2) r1 r2
    refine ⟨?_, sideScore_range round64_rounding hp hw k1 _⟩
    refine (sideScore_error round64_rounding (fun x => round64_unit) hpow hw k1 k2 c1 c2).trans (le_of_eq ?_)
    rw [hcast]
    ring
  have he' : g.hasEdge v u = true := by rwa [Graph.hasEdge_comm hd]
  obtain ⟨a1, a2, a3⟩ := side u v he
  obtain ⟨b1, b2, b3⟩ := side v u he'
  rw [hsym v u] at b1 b2 b3
  have hmax : ∀ n, n = u ∨ n = v → (3 * (g.degree n : K)) / 2 ^ 53 ≤ g.scoreError u v := by
    intro n hn
    unfold Graph.scoreError
    apply div_le_div_of_nonneg_right _ (by positivity)
    apply mul_le_mul_of_nonneg_left _ (by norm_num)
    rcases hn with rfl | rfl
    · exact_mod_cast le_max_left _ _
    · exact_mod_cast le_max_right _ _
  have hsub : ∀ n, (3 * (g.degree n : K) - 1) / 2 ^ 53 + 1 / 2 ^ 54 ≤ (3 * (g.degree n : K)) / 2 ^ 53 := by
    intro n
    rw [sub_div]
    have : (1 : K) / 2 ^ 54 ≤ 1 / 2 ^ 53 := by norm_num
    linarith
  have h54 : (0 : K) ≤ 1 / 2 ^ 54 := by positivity
  unfold Graph.roundedDisparity Graph.exactScore Graph.disparity
  cases reverse
  · simp only [Bool.false_eq_true, if_false]
    refine (abs_min_sub_min_le_max _ _ _ _).trans (max_le ?_ ?_)
    · have := hsub u; have := hmax u (.inl rfl); linarith
    · have := hsub v; have := hmax v (.inr rfl); linarith
  · simp only [if_true]
    rw [← max_sub_sub_left]
    have rev : ∀ x y : K, 0 ≤ x → x ≤ 1 → |round64 (1 - x) - (1 - y)| ≤ |x - y| + 1 / 2 ^ 54 := by
      intro x y h0 h1
      have := round64_unit (x := 1 - x) (by linarith) (by linarith)
      have h2 := le_abs_self (x - y)
      have h3 := neg_abs_le (x - y)
      rw [abs_le] at this ⊢
      constructor <;> linarith
    refine (abs_max_sub_max_le_max _ _ _ _).trans (max_le ?_ ?_)
    · have := hsub u; have := hmax u (.inl rfl)
      refine (rev _ _ a2 a3).trans ?_
      linarith
    · have := hsub v; have := hmax v (.inr rfl)
      refine (rev _ _ b2 b3).trans ?_
      linarith

/-- C92.  On a simple undirected graph whose weights are positive floats, no degree being above
`2 ** 52`, `edge_disparity` computed with floats gives to each edge a score which is within `3 * d / 2 ** 53` of the exact one,
`d` being the larger of the degrees of its ends; powers are only asked to be right up to `2 ** -52`. -/
theorem edgeDisparity_float_error [PyOrd V] {pow : K → ℕ → K} (hp : UnitPow pow)
    (hpow : ∀ x n, 0 ≤ x → x ≤ 1 → |pow x n - x ^ n| ≤ 1 / 2 ^ 52)
    (ho : OrderedKeys V) {g : Graph V (Val K)} (h : g.WF) (hd : g.directed = false) (hm : g.multi = false) {attr : String}
    {w : V → V → K} (hsym : ∀ u v, w u v = w v u) (hw : g.Weighted attr w)
    (hpos : ∀ u v, g.hasEdge u v = true → 0 < w u v ∧ IsFloat64 (w u v))
    (hdeg : ∀ n, g.degree n ≤ 2 ^ 52) (reverse : Bool) :
    ∃ d, edgeDisparityA ⟨round64, pow⟩ g attr reverse = .ok d ∧ d.keys.Nodup ∧
      (∀ u v, (u, v) ∈ d.keys ↔ u ≤ v ∧ g.hasEdge u v = true) ∧
      ∀ u v x, d.get? (u, v) = some x → |x - g.exactScore w reverse u v| ≤ g.scoreError u v := by
  have hpos' : ∀ u v, g.hasEdge u v = true → 0 < w u v ∧ round64 (w u v) = w u v := fun u v he =>
    ⟨(hpos u v he).1, round64_fix (hpos u v he).2⟩
  obtain ⟨d, h1, h2, h3, -⟩ := edgeDisparityA_positive (ar := ⟨round64, pow⟩) round64_rounding hp ho h hd hm hsym hw hpos' reverse
  refine ⟨d, h1, h2, ?_, ?_⟩
  · intro u v
    constructor
    · intro hk
      obtain ⟨x, hx⟩ := Option.isSome_iff_exists.1 ((Dict.has_iff (d := d) (k := (u, v))).2 hk)
      exact ⟨((h3 u v x).1 hx).1, ((h3 u v x).1 hx).2.1⟩
    · rintro ⟨hle, he⟩
      have := (h3 u v _).2 ⟨hle, he, rfl⟩
      exact (Dict.has_iff (d := d) (k := (u, v))).1 (by unfold Dict.has; rw [this]; rfl)
  · intro u v x hx
    obtain ⟨-, he, rfl⟩ := (h3 u v x).1 hx
    exact roundedDisparity_error hp hpow h hd hsym hpos hdeg he reverse

/-- C92.  Unless the exact score of some edge is that close to `alpha`, the multiscale backbone computed with floats is the
exact one. -/
theorem multiscaleBackbone_float_exact [PyOrd V] [AttrVal (Val K)] {pow : K → ℕ → K} (hp : UnitPow pow)
    (hpow : ∀ x n, 0 ≤ x → x ≤ 1 → |pow x n - x ^ n| ≤ 1 / 2 ^ 52) (ulongMax : Nat)
    (ho : OrderedKeys V) {g : Graph V (Val K)} (h : g.WF) (hd : g.directed = false) (hm : g.multi = false) {attr : String}
    {w : V → V → K} (hsym : ∀ u v, w u v = w v u) (hw : g.Weighted attr w)
    (hpos : ∀ u v, g.hasEdge u v = true → 0 < w u v ∧ IsFloat64 (w u v))
    (hdeg : ∀ n, g.degree n ≤ 2 ^ 52) (alpha : K) (keepConnected : Bool)
    (hu : keepConnected = true → (unionOfMaximumSpanningTrees ulongMax g "weight").err = none)
    (hkw : ∀ e ∈ g.edgesData, EdgeKwSafe g.multi e.2.2)
    (hfar : ∀ e ∈ g.edges, g.scoreError e.1 e.2 < |g.disparity w e.1 e.2 - alpha|) :
    ∃ g₁ g₂, multiscaleBackboneA ⟨round64, pow⟩ ulongMax g alpha attr keepConnected = .ok g₁ ∧
      multiscaleBackbone ulongMax g alpha attr keepConnected = .ok g₂ ∧ g₁.node = g₂.node ∧ g₁.edgesData = g₂.edgesData := by
  classical
  have hpos' : ∀ u v, g.hasEdge u v = true → 0 < w u v ∧ round64 (w u v) = w u v := fun u v he =>
    ⟨(hpos u v he).1, round64_fix (hpos u v he).2⟩
  obtain ⟨g₁, a1, -, -, -, -, a2, a3⟩ := multiscaleBackboneA_exact (ar := ⟨round64, pow⟩) round64_rounding hp ulongMax ho h hd hm
    hsym hw hpos' alpha keepConnected hu hkw
  obtain ⟨g₂, b1, -, -, -, -, b2, b3⟩ := multiscaleBackbone_exact ulongMax ho h hd hm hsym hw (fun u v he => (hpos' u v he).1)
    alpha keepConnected hu hkw
  refine ⟨g₁, g₂, a1, b1, a2.trans b2.symm, ?_⟩
  rw [a3, b3]
  apply List.filter_congr
  rintro ⟨u, v, a⟩ he
  have hmem : (u, v) ∈ g.edges := by rw [edges_eq_map]; exact List.mem_map.2 ⟨_, he, rfl⟩
  have hedge : g.hasEdge u v = true := (hasEdge_listed h).2 (.inl hmem)
  have e1 := roundedDisparity_error hp hpow h hd hsym hpos hdeg hedge false
  have e2 := hfar _ hmem
  simp only [Graph.exactScore, Bool.false_eq_true, if_false] at e1
  have key : g.roundedDisparity round64 pow false w u v ≤ alpha ↔ g.disparity w u v ≤ alpha := by
    rw [abs_le] at e1
    rcases le_total (g.disparity w u v) alpha with hle | hle
    · rw [abs_of_nonpos (by simpa using hle)] at e2
      simp only at e2
      exact ⟨fun _ => hle, fun _ => by linarith⟩
    · rw [abs_of_nonneg (by simpa using hle)] at e2
      simp only at e2
      refine ⟨fun hc => by linarith, fun hc => ?_⟩
      have := e1.1
      have := le_antisymm hc hle
      rw [this] at e2
      have h0 : 0 ≤ g.scoreError u v := (abs_nonneg _).trans (abs_le.2 e1)
      linarith
  simp only [key]

/-- C92.  The order in which the graph was built changes no score by more than twice that. -/
theorem edgeDisparity_float_reorder [PyOrd V] {pow : K → ℕ → K} (hp : UnitPow pow)
    (hpow : ∀ x n, 0 ≤ x → x ≤ 1 → |pow x n - x ^ n| ≤ 1 / 2 ^ 52)
    (ho : OrderedKeys V) {g g' : Graph V (Val K)} (h : g.WF) (h' : g'.WF) (s : g.Same g') (hd : g.directed = false)
    (hm : g.multi = false) {attr : String} {w : V → V → K} (hsym : ∀ u v, w u v = w v u) (hw : g.Weighted attr w)
    (hpos : ∀ u v, g.hasEdge u v = true → 0 < w u v ∧ IsFloat64 (w u v))
    (hdeg : ∀ n, g.degree n ≤ 2 ^ 52) (reverse : Bool) :
    ∃ d d', edgeDisparityA ⟨round64, pow⟩ g attr reverse = .ok d ∧ edgeDisparityA ⟨round64, pow⟩ g' attr reverse = .ok d' ∧
      (∀ k, k ∈ d.keys ↔ k ∈ d'.keys) ∧
      ∀ u v x x', d.get? (u, v) = some x → d'.get? (u, v) = some x' → |x - x'| ≤ 2 * g.scoreError u v := by
  obtain ⟨d, a1, -, a3, a4⟩ := edgeDisparity_float_error hp hpow ho h hd hm hsym hw hpos hdeg reverse
  obtain ⟨d', b1, -, b3, b4⟩ := edgeDisparity_float_error hp hpow ho h' (s.directed ▸ hd) (s.multi ▸ hm) hsym
    (s.weighted h h' hsym hw) (fun u v he => hpos u v (by rw [s.hasEdge h h']; exact he))
    (fun n => by rw [← s.degree h h']; exact hdeg n) reverse
  refine ⟨d, d', a1, b1, ?_, ?_⟩
  · rintro ⟨u, v⟩
    rw [a3, b3, s.hasEdge h h']
  · intro u v x x' hx hx'
    have e1 := a4 u v x hx
    have e2 := b4 u v x' hx'
    have e3 : g.exactScore w reverse u v = g'.exactScore w reverse u v := by
      unfold Graph.exactScore; rw [s.disparity h h' hsym]
    have e4 : g.scoreError (K := K) u v = g'.scoreError u v := by
      unfold Graph.scoreError; rw [s.degree h h', s.degree h h']
    rw [← e3, ← e4] at e2
    rw [abs_le] at e1 e2 ⊢
    constructor <;> linarith

/-- Correctly rounded powers are right up to `2 ** -52`. -/
theorem pow64_error (x : K) (n : ℕ) (h0 : 0 ≤ x) (h1 : x ≤ 1) : |round64 (x ^ n) - x ^ n| ≤ 1 / 2 ^ 52 :=
  (round64_unit (pow_nonneg h0 n) (pow_le_one₀ h0 h1)).trans (by norm_num)

end

/-- C92, a case: the star of `edgeDisparity64_order` meets the hypotheses; the computed score of its heavy edge is 0 when the
edge comes first, which is within the bound, but not the exact score. -/
theorem heavyFirst_error :
    heavyFirst.WF ∧ heavyFirst.Weighted "weight" heavyWeights ∧ (∀ u v, heavyWeights u v = heavyWeights v u) ∧
    (∀ u v, heavyFirst.hasEdge u v = true → 0 < heavyWeights u v ∧ IsFloat64 (heavyWeights u v)) ∧
    (∀ n, heavyFirst.degree n ≤ 2 ^ 52) ∧
    (edgeDisparityA arith64 heavyFirst "weight" false).map (fun d => d.get? (0, 1)) = .ok (some 0) ∧
    heavyFirst.exactScore heavyWeights false 0 1 = (2 / (2 ^ 53 + 2)) ^ 2 ∧ heavyFirst.scoreError (K := ℚ) 0 1 = 9 / 2 ^ 53 := by
  obtain ⟨h1, -, -, ⟨h2, -⟩, h3, h4, -⟩ := edgeDisparity64_order
  refine ⟨h1, h2, fun u v => (h3 u v).1, ?_, ?_, h4, ?_, ?_⟩
  · intro u v _
    unfold heavyWeights
    split
    · exact ⟨by norm_num, 1, 53, by norm_num, by norm_num, by norm_num⟩
    · exact ⟨by norm_num, 1, 0, by norm_num, by norm_num, by norm_num⟩
  · intro n
    rw [degree_eq h1]
    have h5 : degreeSpec heavyFirst n ≤ (heavyFirst.edges.map (fun _ => 2)).sum := by
      unfold degreeSpec
      apply List.sum_le_sum
      intro e _
      split_ifs <;> omega
    have h6 : (heavyFirst.edges.map (fun _ => 2)).sum = 6 := by decide +kernel
    show degreeSpec heavyFirst n ≤ 2 ^ 52
    omega
  · decide +kernel
  · decide +kernel

end Pelote
