import Verif.Props.SpanningTreesNear
import Verif.Model.SpanningTreesFloat
import Verif.Lemmas.Binary64
import Mathlib.Data.Rat.Floor

/-! C79: union of maximum spanning trees on floats. -/
namespace Pelote
open scoped List
variable {V K : Type} [DecidableEq V] [Field K] [LinearOrder K] [IsStrictOrderedRing K] [FloorRing K]

/-- A float of magnitude at least `2 ** e`, or zero. -/
def AtLeast64 (e : ℤ) (x : K) : Prop := IsFloat64 x ∧ (x = 0 ∨ 2 ^ e ≤ |x|)

/-- Floats of magnitude at least `2 ** e` are multiples of `2 ** (e - 52)`. -/
theorem AtLeast64.multiple {e : ℤ} {x : K} (h : AtLeast64 e x) : ∃ n : ℤ, x = n * 2 ^ (e - 52) := by
  obtain ⟨⟨m, k, hm, -, rfl⟩, h0 | h0⟩ := h
  · exact ⟨0, by simpa using h0⟩
  · have hk : e - 52 ≤ k := by
      by_contra hlt
      have hlt : k ≤ e - 53 := by omega
      rw [abs_mul, abs_of_pos (two_zpow_pos (K := K) k)] at h0
      have h1 : |(m : K)| < 2 ^ 53 := by exact_mod_cast hm
      have h2 : |(m : K)| * 2 ^ k < 2 ^ 53 * 2 ^ k := mul_lt_mul_of_pos_right h1 (two_zpow_pos k)
      have h3 : (2 : K) ^ 53 * 2 ^ k = 2 ^ (k + 53) := by
        rw [zpow_add₀ two_ne_zero, mul_comm]; norm_num
      have h4 : (2 : K) ^ (k + 53) ≤ 2 ^ e := zpow_le_zpow_right₀ one_le_two (by omega)
      linarith
    refine ⟨m * 2 ^ (k - (e - 52)).toNat, ?_⟩
    have : (2 : K) ^ k = 2 ^ (k - (e - 52)).toNat * 2 ^ (e - 52) := by
      rw [← zpow_natCast, ← zpow_add₀ two_ne_zero]
      congr 1
      omega
    rw [this]; push_cast; ring

/-- The float written `1e-8`. -/
theorem weightEpsilon64_eq : (weightEpsilon64 : K) = 3022314549036573 * 2 ^ (-78 : ℤ) := by
  have : (weightEpsilon64 : K) = (6044629098073146 : ℤ) * 2 ^ (-79 : ℤ) := by
    unfold weightEpsilon64
    refine round64_eq (by norm_num) ?_ ?_ ?_
    · norm_num
    · norm_num
    · norm_num [abs_lt]
  rw [this]; norm_num

theorem round64_nonpos {x : K} (h : x ≤ 0) : round64 x ≤ 0 := by
  have h1 : halfEven (x / 2 ^ ulpExp x) ≤ 0 := halfEven_le (by
    rw [Int.cast_zero]; exact div_nonpos_of_nonpos_of_nonneg h (two_zpow_pos _).le)
  unfold round64
  exact mul_nonpos_of_nonpos_of_nonneg (by exact_mod_cast h1) (two_zpow_pos _).le

/-- On floats of magnitude at least `2 ** -25` or zero, rounding does not change the comparison. -/
theorem changesBucket64_iff {c w : K} (hc : AtLeast64 (-25) c) (hw : AtLeast64 (-25) w) :
    changesBucket64 c w = decide (c - w > weightEpsilon) := by
  obtain ⟨a, rfl⟩ := hc.multiple
  obtain ⟨b, rfl⟩ := hw.multiple
  unfold changesBucket64
  rw [decide_eq_decide, weightEpsilon64_eq]
  unfold weightEpsilon
  have e : (a : K) * 2 ^ (-25 - 52 : ℤ) - b * 2 ^ (-25 - 52 : ℤ) = ((a - b : ℤ) : K) * 2 ^ (-77 : ℤ) := by
    push_cast; norm_num; ring
  rw [e]
  generalize a - b = n
  have hp : (0 : K) < 2 ^ (-77 : ℤ) := two_zpow_pos _
  have exact_iff : ((n : K) * 2 ^ (-77 : ℤ) > 1 / 10 ^ 8) ↔ 1511157274518287 ≤ n := by
    constructor
    · intro h
      by_contra hlt
      have : (n : K) ≤ 1511157274518286 := by exact_mod_cast (by omega : n ≤ 1511157274518286)
      have := mul_le_mul_of_nonneg_right this hp.le
      have h2 : (1511157274518286 : K) * 2 ^ (-77 : ℤ) < 1 / 10 ^ 8 := by norm_num
      linarith
    · intro h
      have : (1511157274518287 : K) ≤ n := by exact_mod_cast h
      have := mul_le_mul_of_nonneg_right this hp.le
      have h2 : (1511157274518287 : K) * 2 ^ (-77 : ℤ) > 1 / 10 ^ 8 := by norm_num
      linarith
  rw [exact_iff]
  rcases le_or_gt n 0 with h0 | h0
  · have h1 : (n : K) * 2 ^ (-77 : ℤ) ≤ 0 :=
      mul_nonpos_of_nonpos_of_nonneg (by exact_mod_cast h0) hp.le
    have h2 := round64_nonpos h1
    have h3 : (0 : K) < 3022314549036573 * 2 ^ (-78 : ℤ) := by positivity
    constructor
    · intro h; linarith
    · intro h; omega
  rcases lt_or_ge n (2 ^ 53) with h1 | h1
  · have hnn : (0 : K) ≤ (n : K) * 2 ^ (-77 : ℤ) := mul_nonneg (by exact_mod_cast h0.le) hp.le
    rw [round64_float hnn ⟨n, -77, by rw [abs_of_pos h0]; exact h1, by norm_num, rfl⟩]
    constructor
    · intro h
      by_contra hlt
      have : (n : K) ≤ 1511157274518286 := by exact_mod_cast (by omega : n ≤ 1511157274518286)
      have := mul_le_mul_of_nonneg_right this hp.le
      have h2 : (1511157274518286 : K) * 2 ^ (-77 : ℤ) < 3022314549036573 * 2 ^ (-78 : ℤ) := by norm_num
      linarith
    · intro h
      have : (1511157274518287 : K) ≤ n := by exact_mod_cast h
      have := mul_le_mul_of_nonneg_right this hp.le
      have h2 : (1511157274518287 : K) * 2 ^ (-77 : ℤ) > 3022314549036573 * 2 ^ (-78 : ℤ) := by norm_num
      linarith
  · refine iff_of_true ?_ (by norm_num at h1 ⊢; omega)
    have h2 : ((2 : K) ^ (-24 : ℤ)) ≤ (n : K) * 2 ^ (-77 : ℤ) := by
      have : ((2 : K) ^ 53) ≤ n := by exact_mod_cast h1
      calc ((2 : K) ^ (-24 : ℤ)) = 2 ^ 53 * 2 ^ (-77 : ℤ) := by norm_num
        _ ≤ _ := mul_le_mul_of_nonneg_right this hp.le
    have h3 := round64_mono (two_zpow_pos (K := K) (-24)).le h2
    rw [round64_float (two_zpow_pos (K := K) (-24)).le ⟨1, -24, by norm_num, by norm_num, by norm_num⟩] at h3
    have h4 : (3022314549036573 : K) * 2 ^ (-78 : ℤ) < 2 ^ (-24 : ℤ) := by norm_num
    linarith

theorem bucketLoop64_eq {A : Type} (es : List ((V × V × A) × K)) (hes : ∀ x ∈ es, AtLeast64 (-25) x.2)
    (ds : DisjointSet V) (cur : Option K) (hcur : ∀ c ∈ cur, AtLeast64 (-25) c) (bucket : List (V × V × A)) :
    bucketLoop64 ds cur bucket es = bucketLoop ds cur bucket es := by
  induction es generalizing ds cur bucket with
  | nil => rfl
  | cons x rest ih =>
    obtain ⟨e, w⟩ := x
    have hw : AtLeast64 (-25) w := hes _ (List.mem_cons_self ..)
    have hrest : ∀ x ∈ rest, AtLeast64 (-25) x.2 := fun x hx => hes x (List.mem_cons_of_mem _ hx)
    have ih1 := fun ds bucket => ih hrest ds (some w) (by rintro c ⟨⟩; exact hw) bucket
    have ih2 := fun ds bucket => ih hrest ds cur hcur bucket
    cases cur with
    | none =>
      unfold bucketLoop64 bucketLoop
      simp only [ih1]
      rfl
    | some c =>
      unfold bucketLoop64 bucketLoop
      simp only [ih1, ih2, changesBucket64_iff (hcur c rfl) hw]
      rfl

omit [LinearOrder K] [IsStrictOrderedRing K] [FloorRing K] [DecidableEq V] in
theorem hasWeight_of_weightOf {attr : String} {a : Attrs (Val K)} {w : K} (h : weightOf attr a = .ok w) :
    HasWeight attr a w := by
  unfold weightOf at h
  unfold HasWeight
  cases hg : a.get? (.str attr) with
  | none => rw [hg] at h; cases h; exact .inl ⟨rfl, rfl⟩
  | some v =>
    rw [hg] at h
    cases v with
    | num x => cases h; exact .inr (.inl rfl)
    | bool b => cases b <;> cases h <;> simp
    | _ => cases h

omit [DecidableEq V] [LinearOrder K] [IsStrictOrderedRing K] [FloorRing K] in
theorem weighted_weights {attr : String} (es : List (V × V × Attrs (Val K))) {r : List ((V × V × Attrs (Val K)) × K)}
    (h : weighted attr es = .ok r) : ∀ x ∈ r, x.1 ∈ es ∧ HasWeight attr x.1.2.2 x.2 := by
  induction es generalizing r with
  | nil => cases h; simp
  | cons e es ih =>
    unfold weighted at h
    cases hw : weightOf attr e.2.2 with
    | error x => rw [hw] at h; cases h
    | ok w =>
      cases hr : weighted attr es with
      | error x => rw [hw, hr] at h; cases h
      | ok r' =>
        rw [hw, hr] at h
        cases h
        intro x hx
        rcases List.mem_cons.1 hx with rfl | hx
        · exact ⟨List.mem_cons_self .., hasWeight_of_weightOf hw⟩
        · exact ⟨List.mem_cons_of_mem _ (ih hr x hx).1, (ih hr x hx).2⟩

/-- C79.  When the weights are floats of magnitude at least `2 ** -25` (about `3e-8`) or zero, the call on floats returns what it
does with exact numbers, whatever the graph: the same edges in the same order, the same exception. -/
theorem unionOfMaximumSpanningTrees64_exact (ulongMax : Nat) (g : Graph V (Val K)) (attr : String)
    (hw : ∀ e ∈ g.edgesData, ∀ w, HasWeight attr e.2.2 w → AtLeast64 (-25) w) :
    unionOfMaximumSpanningTrees64 ulongMax g attr = unionOfMaximumSpanningTrees ulongMax g attr := by
  have key : ∀ r, sortKeys attr g.edgesData = .ok r → ∀ x ∈ r, AtLeast64 (-25) x.2 := by
    intro r hr x hx
    generalize hes : g.edgesData = es at hr
    match es, hr with
    | [e], hr =>
      cases hr
      rw [List.mem_singleton] at hx
      subst hx
      exact ⟨⟨1, 0, by norm_num, by norm_num, by norm_num⟩, .inr (by norm_num)⟩
    | [], hr => cases hr; cases hx
    | e :: e' :: es, hr =>
      have := weighted_weights _ hr x hx
      exact hw _ (hes ▸ this.1) _ this.2
  unfold unionOfMaximumSpanningTrees64 unionOfMaximumSpanningTrees
  by_cases h0 : g.size = 0
  · rw [if_pos h0, if_pos h0]
  · rw [if_neg h0, if_neg h0]
    cases hk : sortKeys attr g.edgesData with
    | error x => rfl
    | ok r =>
      cases DisjointSet.init ulongMax g.order with
      | error x => rfl
      | ok ds =>
        refine bucketLoop64_eq _ (fun x hx => key r hk x ((sortByWeight_perm r).mem_iff.1 hx)) ds none ?_ []
        rintro c ⟨⟩

/-- Floats of magnitude at least `2 ** 26` (or zero) which differ do so by more than `1e-8`. -/
theorem noNearTies64 {ι : Type} {w : ι → K} (h : ∀ i, AtLeast64 26 (w i)) : NoNearTies w := by
  intro i j
  obtain ⟨a, ha⟩ := (h i).multiple
  obtain ⟨b, hb⟩ := (h j).multiple
  rcases eq_or_ne a b with rfl | hab
  · exact .inl (ha.trans hb.symm)
  · right
    have h1 : w i - w j = ((a - b : ℤ) : K) * 2 ^ (26 - 52 : ℤ) := by rw [ha, hb]; push_cast; ring
    rw [h1, abs_mul, abs_of_pos (two_zpow_pos (K := K) _)]
    have h2 : (1 : K) ≤ |((a - b : ℤ) : K)| := by
      have : 1 ≤ |a - b| := Int.one_le_abs (sub_ne_zero.2 hab)
      exact_mod_cast this
    have h3 := mul_le_mul_of_nonneg_right h2 (two_zpow_pos (K := K) (26 - 52)).le
    have h4 : (1 : K) / 10 ^ 8 < 1 * 2 ^ (26 - 52 : ℤ) := by norm_num
    linarith

open Classical in
/-- C79.  When the weights are floats of magnitude at least `2 ** 26` or zero, no hypothesis on near ties is needed: the edges
yielded by the call on floats are exactly the edges belonging to some maximum spanning forest, each once. -/
theorem unionOfMaximumSpanningTrees64_large {ulongMax : Nat} (hu : 2^32 - 1 ≤ ulongMax) {g : Graph V (Val K)}
    (h : g.WF) {attr : String} {w : Fin g.edgesData.length → K} (hw : g.Weights attr w) (hf : ∀ i, AtLeast64 26 (w i))
    (hord : SafeOrder ulongMax g.order) :
    (unionOfMaximumSpanningTrees64 ulongMax g attr).err = none ∧
      (unionOfMaximumSpanningTrees64 ulongMax g attr).yields.Perm
        (((List.finRange g.edgesData.length).filter
          (fun i => ∃ F, IsMaxSpanningForest g.endsAt w F ∧ i ∈ F)).map (fun i => g.edgesData[i])) := by
  rw [unionOfMaximumSpanningTrees64_exact]
  · exact unionOfMaximumSpanningTrees_exact hu h hw (noNearTies64 hf) hord
  · intro e he x hx
    obtain ⟨i, hi, rfl⟩ := List.mem_iff_getElem.1 he
    have : x = w ⟨i, hi⟩ := (hw ⟨i, hi⟩).unique hx |>.symm
    subst this
    refine ⟨(hf _).1, (hf _).2.imp_right fun h => le_trans ?_ h⟩
    exact zpow_le_zpow_right₀ one_le_two (by norm_num)

/-- A triangle with two sides of weight `2 ** -26 + 1e-8`, the sum being exact on floats, and one of weight `2 ** -26`. -/
def tinyTie : Graph Int (Val ℚ) where
  directed := false
  multi := false
  attrs := []
  node := [(1, []), (2, []), (3, [])]
  links := [⟨1, 2, [(.int 0, [(.str "weight", .num (7525914176407069 / 2 ^ 78))])]⟩,
    ⟨2, 3, [(.int 0, [(.str "weight", .num (7525914176407069 / 2 ^ 78))])]⟩,
    ⟨1, 3, [(.int 0, [(.str "weight", .num (1 / 2 ^ 26))])]⟩]

/-- C79: `2 ** -25` cannot be replaced by `2 ** -26`. -/
theorem unionOfMaximumSpanningTrees64_tiny :
    tinyTie.WF ∧ (∀ e ∈ tinyTie.edgesData, ∀ w, HasWeight "weight" e.2.2 w → AtLeast64 (-26) w) ∧
      (unionOfMaximumSpanningTrees (2^64-1) tinyTie "weight").yields.map (fun e => (e.1, e.2.1)) = [(1, 2), (2, 3)] ∧
      (unionOfMaximumSpanningTrees64 (2^64-1) tinyTie "weight").yields.map (fun e => (e.1, e.2.1)) =
        [(1, 2), (2, 3), (1, 3)] := by
  refine ⟨by constructor <;> decide, ?_, by decide +kernel, by decide +kernel⟩
  have he : tinyTie.edgesData = [(1, 2, [(.str "weight", .num (7525914176407069 / 2 ^ 78))]),
      (1, 3, [(.str "weight", .num (1 / 2 ^ 26))]), (2, 3, [(.str "weight", .num (7525914176407069 / 2 ^ 78))])] := by
    decide +kernel
  have h1 : AtLeast64 (-26) (7525914176407069 / 2 ^ 78 : ℚ) :=
    ⟨⟨7525914176407069, -78, by norm_num, by norm_num, by norm_num⟩, .inr (by norm_num [abs])⟩
  have h2 : AtLeast64 (-26) (1 / 2 ^ 26 : ℚ) :=
    ⟨⟨1, -26, by norm_num, by norm_num, by norm_num⟩, .inr (by norm_num [abs])⟩
  intro e hm w hw
  rw [he] at hm
  simp only [List.mem_cons, List.not_mem_nil, or_false] at hm
  rcases hm with rfl | rfl | rfl
  · rwa [hw.unique (.inr (.inl rfl))]
  · rwa [hw.unique (.inr (.inl rfl))]
  · rwa [hw.unique (.inr (.inl rfl))]

/-- C79, cases: weights 1, 2 and 3, and the same a hundred million times larger. -/
example : (∀ e ∈ square.edgesData, ∀ w, HasWeight "weight" e.2.2 w → AtLeast64 (-25) w) ∧
    ∀ w ∈ [(100000000 : ℚ), 200000000, 300000000], AtLeast64 26 w := by
  have hs : ∀ m : ℤ, 0 < m → m < 2 ^ 53 → IsFloat64 (m : ℚ) := fun m h0 h =>
    ⟨m, 0, by rw [abs_of_pos h0]; exact h, by norm_num, by norm_num⟩
  have e : square.edgesData.map (fun e => Dict.get? e.2.2 (.str "weight")) =
      [some (.num 3), some (.num 2), none, some (.num 2), some (.num 3)] := by decide +kernel
  refine ⟨fun x hx w hw => ?_, fun w hw => ?_⟩
  · have hm := List.mem_map_of_mem (f := fun e => Dict.get? e.2.2 (.str "weight")) hx
    rw [e] at hm
    have : w = 1 ∨ w = 2 ∨ w = 3 := by
      simp only [List.mem_cons, List.not_mem_nil, or_false] at hm
      unfold HasWeight at hw
      rcases hm with h | h | h | h | h <;> rw [h] at hw <;> simp at hw <;> simp [hw]
    rcases this with rfl | rfl | rfl
    · exact ⟨by simpa using hs 1 (by norm_num) (by norm_num), .inr (by norm_num [abs])⟩
    · exact ⟨by simpa using hs 2 (by norm_num) (by norm_num), .inr (by norm_num [abs])⟩
    · exact ⟨by simpa using hs 3 (by norm_num) (by norm_num), .inr (by norm_num [abs])⟩
  · simp only [List.mem_cons, List.not_mem_nil, or_false] at hw
    rcases hw with rfl | rfl | rfl
    · exact ⟨by simpa using hs 100000000 (by norm_num) (by norm_num), .inr (by norm_num [abs])⟩
    · exact ⟨by simpa using hs 200000000 (by norm_num) (by norm_num), .inr (by norm_num [abs])⟩
    · exact ⟨by simpa using hs 300000000 (by norm_num) (by norm_num), .inr (by norm_num [abs])⟩

end Pelote
