import Verif.Props.Projection
import Verif.Lemmas.Binary64

/-! C65: the ranges of the similarities given by the monopartite projection, computed with double precision floats. -/
set_option linter.unusedSectionVars false
namespace Pelote

/-- The square root and the divisions of CPython on doubles.  (The logarithm is not used below.) -/
noncomputable local instance binary64 : PyMath ℝ :=
  ⟨fun x => round64 (Real.sqrt x), fun x => round64 (Real.log x), round64⟩

theorem sqrt64 (x : ℝ) : PyMath.sqrt x = round64 (Real.sqrt x) := rfl

theorem rnd64 (x : ℝ) : PyMath.rnd x = round64 x := rfl

/-- The rounded quotient of two naturals is still in `(0, 1]`, and still 1 only for equal ones. -/
theorem quotient64 {i d : ℕ} (hi : 0 < i) (hid : i ≤ d) (hd : d < 2 ^ 53) :
    0 < round64 ((i : ℝ) / d) ∧ round64 ((i : ℝ) / d) ≤ 1 ∧ (round64 ((i : ℝ) / d) = 1 ↔ i = d) := by
  have hd0 : (0 : ℝ) < d := by exact_mod_cast hi.trans_le hid
  have hi1 : (1 : ℝ) ≤ i := by exact_mod_cast hi
  have hdr : (d : ℝ) ≤ 2 ^ 53 := by exact_mod_cast hd.le
  have hq : (0 : ℝ) ≤ (i : ℝ) / d := by positivity
  refine ⟨?_, ?_, ?_⟩
  · have h1 : ((1 : ℤ) : ℝ) * 2 ^ (-53 : ℤ) ≤ (i : ℝ) / d := by
      rw [le_div_iff₀ hd0]
      norm_num
      linarith
    have h2 := round64_mono (by norm_num) h1
    rw [round64_float (by norm_num) ⟨1, -53, by norm_num, by norm_num, rfl⟩] at h2
    exact lt_of_lt_of_le (by norm_num) h2
  · have := round64_mono hq ((div_le_one hd0).2 (by exact_mod_cast hid))
    rwa [round64_one] at this
  · constructor
    · intro h
      by_contra hne
      have hlt : (i : ℝ) ≤ d - 1 := by
        have : i + 1 ≤ d := by omega
        have : (i : ℝ) + 1 ≤ d := by exact_mod_cast this
        linarith
      have h1 : (i : ℝ) / d ≤ ((2 ^ 53 - 1 : ℤ) : ℝ) * 2 ^ (-53 : ℤ) := by
        rw [div_le_iff₀ hd0]
        norm_num
        linarith
      have h2 := round64_mono hq h1
      rw [round64_float (by norm_num) ⟨2 ^ 53 - 1, -53, by norm_num, by norm_num, rfl⟩, h] at h2
      norm_num at h2
    · rintro rfl
      rw [div_self hd0.ne', round64_one]

section
variable {V : Type} [DecidableEq V] (A B : Finset V) (a b : V → ℝ)

/-- Jaccard, dice and overlap, rounded: in `(0, 1]`, with the same cases of equality, and in the same order. -/
theorem similarity64_range (h : (A ∩ B).Nonempty) (hA : A.card < 2 ^ 52) (hB : B.card < 2 ^ 52) :
    (0 < similarity .jaccard A B a b ∧ similarity .jaccard A B a b ≤ 1 ∧ (similarity .jaccard A B a b = 1 ↔ A = B)) ∧
    (0 < similarity .dice A B a b ∧ similarity .dice A B a b ≤ 1 ∧ (similarity .dice A B a b = 1 ↔ A = B)) ∧
    (0 < similarity .overlap A B a b ∧ similarity .overlap A B a b ≤ 1 ∧
      (similarity .overlap A B a b = 1 ↔ A ⊆ B ∨ B ⊆ A)) ∧
    similarity .jaccard A B a b ≤ similarity .dice A B a b ∧ similarity .dice A B a b ≤ similarity .overlap A B a b := by
  have hI : 0 < (A ∩ B).card := Finset.card_pos.2 h
  have hIA : (A ∩ B).card ≤ A.card := Finset.card_le_card Finset.inter_subset_left
  have hIB : (A ∩ B).card ≤ B.card := Finset.card_le_card Finset.inter_subset_right
  have hU := Finset.card_union_add_card_inter A B
  have eqAB : (A ∩ B).card = A.card → (A ∩ B).card = B.card → A = B := by
    intro h1 h2
    rw [← Finset.eq_of_subset_of_card_le Finset.inter_subset_left h1.ge]
    exact Finset.eq_of_subset_of_card_le Finset.inter_subset_right h2.ge
  have hdice : (2 * ((A ∩ B).card : ℝ) / ((A.card + B.card : ℕ) : ℝ)) =
      ((2 * (A ∩ B).card : ℕ) : ℝ) / ((A.card + B.card : ℕ) : ℝ) := by push_cast; rfl
  have kI : (0 : ℝ) < (A ∩ B).card := by exact_mod_cast hI
  have kA : ((A ∩ B).card : ℝ) ≤ A.card := by exact_mod_cast hIA
  have kB : ((A ∩ B).card : ℝ) ≤ B.card := by exact_mod_cast hIB
  have kU : ((A ∪ B).card : ℝ) = A.card + B.card - (A ∩ B).card := by
    have : ((A ∪ B).card : ℝ) + (A ∩ B).card = A.card + B.card := by exact_mod_cast hU
    linarith
  refine ⟨?_, ?_, ?_, ?_, ?_⟩
  · simp only [similarity, rnd64]
    obtain ⟨h1, h2, h3⟩ := quotient64 hI (by omega : (A ∩ B).card ≤ (A ∪ B).card) (by omega)
    refine ⟨h1, h2, h3.trans ⟨fun h => eqAB (by omega) (by omega), ?_⟩⟩
    rintro rfl
    simp
  · simp only [similarity, rnd64, hdice]
    obtain ⟨h1, h2, h3⟩ := quotient64 (by omega : 0 < 2 * (A ∩ B).card) (by omega : _ ≤ A.card + B.card) (by omega)
    refine ⟨h1, h2, h3.trans ⟨fun h => eqAB (by omega) (by omega), ?_⟩⟩
    rintro rfl
    rw [Finset.inter_self]; omega
  · simp only [similarity, rnd64]
    obtain ⟨h1, h2, h3⟩ := quotient64 hI (le_min hIA hIB) (lt_of_le_of_lt (min_le_left _ _) (by omega))
    refine ⟨h1, h2, h3.trans ⟨fun h => ?_, ?_⟩⟩
    · rcases min_choice A.card B.card with hm | hm <;> rw [hm] at h
      · exact .inl (Finset.inter_eq_left.1 (Finset.eq_of_subset_of_card_le Finset.inter_subset_left h.ge))
      · exact .inr (Finset.inter_eq_right.1 (Finset.eq_of_subset_of_card_le Finset.inter_subset_right h.ge))
    · rintro (hs | hs)
      · rw [Finset.inter_eq_left.2 hs, min_eq_left (Finset.card_le_card hs)]
      · rw [Finset.inter_eq_right.2 hs, min_eq_right (Finset.card_le_card hs)]
  · simp only [similarity, rnd64, kU, Nat.cast_add]
    apply round64_mono (div_nonneg kI.le (by linarith))
    rw [div_le_div_iff₀ (by linarith) (by linarith)]
    nlinarith
  · simp only [similarity, rnd64, Nat.cast_add, Nat.cast_min]
    apply round64_mono (div_nonneg (by linarith) (by linarith))
    have hm : (0 : ℝ) < min (A.card : ℝ) B.card := lt_min (by linarith) (by linarith)
    rw [div_le_div_iff₀ (by linarith) hm]
    have h1 := min_le_left (A.card : ℝ) B.card
    have h2 := min_le_right (A.card : ℝ) B.card
    nlinarith

/-- The square root of a positive number of nodes, rounded. -/
theorem sqrt64_card {n : ℕ} (hn : 0 < n) :
    1 ≤ PyMath.sqrt (n : ℝ) ∧ Real.sqrt n * (1 - 1 / 2 ^ 53) ≤ PyMath.sqrt (n : ℝ) ∧
      PyMath.sqrt (n : ℝ) ≤ Real.sqrt n * (1 + 1 / 2 ^ 53) := by
  have h1 : (1 : ℝ) ≤ Real.sqrt n := by
    rw [Real.one_le_sqrt]; exact_mod_cast hn
  have h2 := round64_mono zero_le_one h1
  rw [round64_one] at h2
  have h3 := abs_le.1 (round64_rel (le_trans (zpow_le_one_of_nonpos₀ (by norm_num) (by norm_num)) h1))
  rw [sqrt64]
  refine ⟨h2, ?_, ?_⟩ <;> linarith [h3.1, h3.2]

/-- The product of the norms, rounded. -/
theorem norms64 (hA : A.Nonempty) (hB : B.Nonempty) :
    1 ≤ PyMath.rnd (PyMath.sqrt (A.card : ℝ) * PyMath.sqrt (B.card : ℝ)) ∧
      Real.sqrt A.card * Real.sqrt B.card * (1 - 1 / 2 ^ 53) ^ 3 ≤
        PyMath.rnd (PyMath.sqrt (A.card : ℝ) * PyMath.sqrt (B.card : ℝ)) ∧
      PyMath.rnd (PyMath.sqrt (A.card : ℝ) * PyMath.sqrt (B.card : ℝ)) ≤
        Real.sqrt A.card * Real.sqrt B.card * (1 + 1 / 2 ^ 53) ^ 3 := by
  obtain ⟨a1, a2, a3⟩ := sqrt64_card (Finset.card_pos.2 hA)
  obtain ⟨b1, b2, b3⟩ := sqrt64_card (Finset.card_pos.2 hB)
  generalize PyMath.sqrt (A.card : ℝ) = x at *
  generalize PyMath.sqrt (B.card : ℝ) = y at *
  have hx := Real.sqrt_nonneg (A.card : ℝ)
  have hy := Real.sqrt_nonneg (B.card : ℝ)
  generalize Real.sqrt (A.card : ℝ) = s at *
  generalize Real.sqrt (B.card : ℝ) = t at *
  rw [rnd64]
  have h1 : 1 ≤ x * y := one_le_mul_of_one_le_of_one_le a1 b1
  have h2 := round64_mono zero_le_one h1
  rw [round64_one] at h2
  have h3 := abs_le.1 (round64_rel (le_trans (zpow_le_one_of_nonpos₀ (by norm_num) (by norm_num)) h1))
  refine ⟨h2, ?_, ?_⟩
  · have h4 : s * (1 - 1 / 2 ^ 53) * (t * (1 - 1 / 2 ^ 53)) ≤ x * y :=
      mul_le_mul a2 b2 (mul_nonneg hy (by norm_num)) (by linarith)
    have h5 : x * y * (1 - 1 / 2 ^ 53) ≤ round64 (x * y) := by linarith [h3.1]
    calc s * t * (1 - 1 / 2 ^ 53) ^ 3 = s * (1 - 1 / 2 ^ 53) * (t * (1 - 1 / 2 ^ 53)) * (1 - 1 / 2 ^ 53) := by ring
      _ ≤ x * y * (1 - 1 / 2 ^ 53) := mul_le_mul_of_nonneg_right h4 (by norm_num)
      _ ≤ _ := h5
  · have h4 : x * y ≤ s * (1 + 1 / 2 ^ 53) * (t * (1 + 1 / 2 ^ 53)) :=
      mul_le_mul a3 b3 (by linarith) (mul_nonneg hx (by norm_num))
    have h5 : round64 (x * y) ≤ x * y * (1 + 1 / 2 ^ 53) := by linarith [h3.2]
    calc round64 (x * y) ≤ x * y * (1 + 1 / 2 ^ 53) := h5
      _ ≤ s * (1 + 1 / 2 ^ 53) * (t * (1 + 1 / 2 ^ 53)) * (1 + 1 / 2 ^ 53) :=
        mul_le_mul_of_nonneg_right h4 (by norm_num)
      _ = s * t * (1 + 1 / 2 ^ 53) ^ 3 := by ring

/-- Binary cosine similarity, rounded: it exceeds 1 by two units in the last place at most, and is no further below 1
for equal neighborhoods. -/
theorem binaryCosine64_range (h : (A ∩ B).Nonempty) :
    0 ≤ similarity .binaryCosine A B a b ∧ similarity .binaryCosine A B a b ≤ 1 + 1 / 2 ^ 51 ∧
      (A = B → 1 - 1 / 2 ^ 51 ≤ similarity .binaryCosine A B a b) := by
  obtain ⟨h1, h2, h3⟩ := norms64 A B (h.mono Finset.inter_subset_left) (h.mono Finset.inter_subset_right)
  simp only [similarity]
  generalize hp : PyMath.rnd (PyMath.sqrt (A.card : ℝ) * PyMath.sqrt (B.card : ℝ)) = p at *
  rw [rnd64]
  have hp0 : 0 < p := by linarith
  have hI : ((A ∩ B).card : ℝ) ≤ Real.sqrt A.card * Real.sqrt B.card := by
    rw [← Real.sqrt_mul (Nat.cast_nonneg _)]
    apply Real.le_sqrt_of_sq_le
    rw [sq]
    exact mul_le_mul (by exact_mod_cast Finset.card_le_card Finset.inter_subset_left)
      (by exact_mod_cast Finset.card_le_card Finset.inter_subset_right) (Nat.cast_nonneg _) (Nat.cast_nonneg _)
  have hI1 : (1 : ℝ) ≤ (A ∩ B).card := by exact_mod_cast Finset.card_pos.2 h
  have hq : (0 : ℝ) ≤ ((A ∩ B).card : ℝ) / p := by positivity
  refine ⟨round64_nonneg hq, ?_, ?_⟩
  · have h4 : ((A ∩ B).card : ℝ) / p ≤ ((2 ^ 52 + 2 : ℤ) : ℝ) * 2 ^ (-52 : ℤ) := by
      rw [div_le_iff₀ hp0]
      have h5 : ((A ∩ B).card : ℝ) * (1 - 1 / 2 ^ 53) ^ 3 ≤ p :=
        le_trans (mul_le_mul_of_nonneg_right hI (by norm_num)) h2
      have h6 : (1 : ℝ) ≤ ((2 ^ 52 + 2 : ℤ) : ℝ) * 2 ^ (-52 : ℤ) * (1 - 1 / 2 ^ 53) ^ 3 := by norm_num
      calc ((A ∩ B).card : ℝ) ≤ ((A ∩ B).card : ℝ) * (((2 ^ 52 + 2 : ℤ) : ℝ) * 2 ^ (-52 : ℤ) * (1 - 1 / 2 ^ 53) ^ 3) :=
            le_mul_of_one_le_right (by linarith) h6
        _ = ((2 ^ 52 + 2 : ℤ) : ℝ) * 2 ^ (-52 : ℤ) * (((A ∩ B).card : ℝ) * (1 - 1 / 2 ^ 53) ^ 3) := by ring
        _ ≤ ((2 ^ 52 + 2 : ℤ) : ℝ) * 2 ^ (-52 : ℤ) * p := mul_le_mul_of_nonneg_left h5 (by norm_num)
    have h7 := round64_mono hq h4
    rw [round64_float (by norm_num) ⟨2 ^ 52 + 2, -52, by norm_num, by norm_num, rfl⟩] at h7
    refine h7.trans (by norm_num)
  · rintro rfl
    rw [Finset.inter_self] at *
    have h4 : ((2 ^ 53 - 4 : ℤ) : ℝ) * 2 ^ (-53 : ℤ) ≤ (A.card : ℝ) / p := by
      rw [le_div_iff₀ hp0]
      rw [Real.mul_self_sqrt (Nat.cast_nonneg _)] at h3
      calc ((2 ^ 53 - 4 : ℤ) : ℝ) * 2 ^ (-53 : ℤ) * p
          ≤ ((2 ^ 53 - 4 : ℤ) : ℝ) * 2 ^ (-53 : ℤ) * (A.card * (1 + 1 / 2 ^ 53) ^ 3) :=
            mul_le_mul_of_nonneg_left h3 (by norm_num)
        _ = A.card * (((2 ^ 53 - 4 : ℤ) : ℝ) * 2 ^ (-53 : ℤ) * (1 + 1 / 2 ^ 53) ^ 3) := by ring
        _ ≤ A.card := mul_le_of_le_one_right (by linarith) (by norm_num)
    have h7 := round64_mono (by norm_num) h4
    rw [round64_float (by norm_num) ⟨2 ^ 53 - 4, -53, by norm_num, by norm_num, rfl⟩] at h7
    refine le_trans (by norm_num) h7

/-- Two nodes with the same two neighbors. -/
theorem binaryCosine64_two (h : A.card = 2) : similarity .binaryCosine A A a b = 1 - 1 / 2 ^ 52 := by
  have s : PyMath.sqrt ((2 : ℕ) : ℝ) = ((6369051672525773 : ℤ) : ℝ) * 2 ^ (-52 : ℤ) := by
    have l1 : (6369051672525772.51 : ℝ) * 2 ^ (-52 : ℤ) < Real.sqrt 2 :=
      Real.lt_sqrt_of_sq_lt (by norm_num)
    have l2 : Real.sqrt 2 < (6369051672525773.49 : ℝ) * 2 ^ (-52 : ℤ) := by
      rw [Real.sqrt_lt' (by norm_num)]; norm_num
    rw [sqrt64, Nat.cast_ofNat]
    refine round64_eq (by norm_num) (le_trans (by norm_num) l1.le) (l2.trans (by norm_num)) ?_
    rw [abs_lt]
    norm_num at l1 l2 ⊢
    constructor <;> linarith
  have p : PyMath.rnd (PyMath.sqrt ((2 : ℕ) : ℝ) * PyMath.sqrt ((2 : ℕ) : ℝ)) =
      ((4503599627370497 : ℤ) : ℝ) * 2 ^ (-51 : ℤ) := by
    rw [s, rnd64]
    refine round64_eq (by norm_num) (by norm_num) (by norm_num) ?_
    rw [abs_lt]; norm_num
  simp only [similarity, Finset.inter_self, h, p]
  rw [rnd64]
  have : round64 (((2 : ℕ) : ℝ) / (((4503599627370497 : ℤ) : ℝ) * 2 ^ (-51 : ℤ))) =
      ((9007199254740990 : ℤ) : ℝ) * 2 ^ (-53 : ℤ) := by
    refine round64_eq (by norm_num) (by norm_num) (by norm_num) ?_
    rw [abs_lt]; norm_num
  rw [this]; norm_num

/-- Two nodes with the same three neighbors. -/
theorem binaryCosine64_three (h : A.card = 3) : similarity .binaryCosine A A a b = 1 + 1 / 2 ^ 52 := by
  have s : PyMath.sqrt ((3 : ℕ) : ℝ) = ((7800463371553962 : ℤ) : ℝ) * 2 ^ (-52 : ℤ) := by
    have l1 : (7800463371553961.51 : ℝ) * 2 ^ (-52 : ℤ) < Real.sqrt 3 :=
      Real.lt_sqrt_of_sq_lt (by norm_num)
    have l2 : Real.sqrt 3 < (7800463371553962.49 : ℝ) * 2 ^ (-52 : ℤ) := by
      rw [Real.sqrt_lt' (by norm_num)]; norm_num
    rw [sqrt64, Nat.cast_ofNat]
    refine round64_eq (by norm_num) (le_trans (by norm_num) l1.le) (l2.trans (by norm_num)) ?_
    rw [abs_lt]
    norm_num at l1 l2 ⊢
    constructor <;> linarith
  have p : PyMath.rnd (PyMath.sqrt ((3 : ℕ) : ℝ) * PyMath.sqrt ((3 : ℕ) : ℝ)) =
      ((6755399441055743 : ℤ) : ℝ) * 2 ^ (-51 : ℤ) := by
    rw [s, rnd64]
    refine round64_eq (by norm_num) (by norm_num) (by norm_num) ?_
    rw [abs_lt]; norm_num
  simp only [similarity, Finset.inter_self, h, p]
  rw [rnd64]
  have : round64 (((3 : ℕ) : ℝ) / (((6755399441055743 : ℤ) : ℝ) * 2 ^ (-51 : ℤ))) =
      ((4503599627370497 : ℤ) : ℝ) * 2 ^ (-52 : ℤ) := by
    refine round64_eq (by norm_num) (by norm_num) (by norm_num) ?_
    rw [abs_lt]; norm_num
  rw [this]; norm_num

end

section
variable {V : Type} [LinearOrder V] [PyOrd V] [AttrVal (Val ℝ)]

theorem card_nbhd_le {A : Type} (g : Graph V A) (n : V) : (g.nbhd n).card ≤ g.order := by
  unfold Graph.nbhd Graph.order
  refine (List.toFinset_card_le _).trans ((List.length_filter_le _ _).trans ?_)
  simp [Graph.nodes, Dict.keys]

/-- C39 with doubles, for the metrics which count neighbors: the weights are the rounded metrics. -/
theorem projection64_exact {g : Graph V (Val ℝ)} {part : Part V ℝ} {partAttr weightAttr : String}
    {kind : Metric} {check : Bool} {w : V → V → ℝ} (h : Projectable g part partAttr weightAttr kind check w)
    (hk : kind ∈ [Metric.intersection, .jaccard, .overlap, .dice, .binaryCosine])
    {metric : Option String} (hn : (metric, kind) ∈ metricNames)
    {threshold : Option (Val ℝ)} (ht : ∀ v, threshold = some v → ∃ t, v.toNum = .ok t ∧ 0 < t) :
    ∃ m, monopartiteProjection g part partAttr weightAttr metric check threshold = .ok m ∧ m.WF ∧
      ∀ u v a, m.edge? u v (.int 0) = some a ↔
        u ≠ v ∧ InPart g partAttr part u ∧ InPart g partAttr part v ∧ (g.nbhd u ∩ g.nbhd v).Nonempty ∧
        ReachesThreshold threshold (similarity kind (g.nbhd u) (g.nbhd v) (w u) (w v)) ∧
        a = [(.str "weight", .num (similarity kind (g.nbhd u) (g.nbhd v) (w u) (w v)))] := by
  refine projection_rounded h (fun u v _ _ hne => ?_) hn ht
  simp only [List.mem_cons, List.not_mem_nil, or_false] at hk
  rcases hk with rfl | rfl | rfl | rfl | rfl <;> try trivial
  have := (norms64 _ _ (hne.mono Finset.inter_subset_left) (hne.mono Finset.inter_subset_right)).1
  change _ ≠ _
  linarith

/-- C65, the true part.  With doubles, the weights of the projections by Jaccard, overlap and dice similarity are in
`(0, 1]`, and 1 exactly when they should be; those by binary cosine similarity exceed 1 by `2 ^ (-51)` at most, and are
no further below 1 for equal neighborhoods. -/
theorem projection64_range_partial {g : Graph V (Val ℝ)} {part : Part V ℝ} {partAttr weightAttr : String}
    {kind : Metric} {check : Bool} {w : V → V → ℝ} (h : Projectable g part partAttr weightAttr kind check w)
    (hk : kind ∈ [Metric.jaccard, .overlap, .dice, .binaryCosine]) (hsize : g.order < 2 ^ 52)
    {metric : Option String} (hn : (metric, kind) ∈ metricNames)
    {threshold : Option (Val ℝ)} (ht : ∀ v, threshold = some v → ∃ t, v.toNum = .ok t ∧ 0 < t)
    {m : Graph V (Val ℝ)}
    (hm : monopartiteProjection g part partAttr weightAttr metric check threshold = .ok m)
    {u v : V} {a : Attrs (Val ℝ)} (he : m.edge? u v (.int 0) = some a) :
    ∃ x, a = [(.str "weight", .num x)] ∧
      (kind ≠ .binaryCosine → 0 < x ∧ x ≤ 1) ∧
      (kind = .jaccard ∨ kind = .dice → (x = 1 ↔ g.nbhd u = g.nbhd v)) ∧
      (kind = .overlap → (x = 1 ↔ g.nbhd u ⊆ g.nbhd v ∨ g.nbhd v ⊆ g.nbhd u)) ∧
      (kind = .binaryCosine → 0 ≤ x ∧ x ≤ 1 + 1 / 2 ^ 51 ∧ (g.nbhd u = g.nbhd v → 1 - 1 / 2 ^ 51 ≤ x)) := by
  obtain ⟨m', hm', _, hE⟩ := projection64_exact h (by simp at hk ⊢; tauto) hn ht
  rw [hm] at hm'; cases hm'
  obtain ⟨_, _, _, hne, _, rfl⟩ := (hE u v a).1 he
  refine ⟨_, rfl, ?_⟩
  obtain ⟨⟨j1, j2, j3⟩, ⟨d1, d2, d3⟩, ⟨o1, o2, o3⟩, -⟩ := similarity64_range (g.nbhd u) (g.nbhd v) (w u) (w v) hne
    (lt_of_le_of_lt (card_nbhd_le g u) hsize) (lt_of_le_of_lt (card_nbhd_le g v) hsize)
  have hb := binaryCosine64_range (g.nbhd u) (g.nbhd v) (w u) (w v) hne
  simp only [List.mem_cons, List.not_mem_nil, or_false] at hk
  rcases hk with rfl | rfl | rfl | rfl
  · exact ⟨fun _ => ⟨j1, j2⟩, fun _ => j3, by simp, by simp⟩
  · exact ⟨fun _ => ⟨o1, o2⟩, by simp, fun _ => o3, by simp⟩
  · exact ⟨fun _ => ⟨d1, d2⟩, fun _ => d3, by simp, by simp⟩
  · exact ⟨by simp, by simp, by simp, fun _ => hb⟩

/-- C65.  With doubles, the weights by Jaccard are at most those by dice, at most those by overlap. -/
theorem projection64_order_partial {g : Graph V (Val ℝ)} {part : Part V ℝ} {partAttr weightAttr : String}
    {check : Bool} {w : V → V → ℝ} (hsize : g.order < 2 ^ 52)
    (h : ∀ kind ∈ [Metric.jaccard, .dice, .overlap], Projectable g part partAttr weightAttr kind check w) :
    ∃ mj md mo, monopartiteProjection g part partAttr weightAttr (some "jaccard") check none = .ok mj ∧
      monopartiteProjection g part partAttr weightAttr (some "dice") check none = .ok md ∧
      monopartiteProjection g part partAttr weightAttr (some "overlap") check none = .ok mo ∧
      ∀ u v, (mj.edge? u v (.int 0) = none ∧ md.edge? u v (.int 0) = none ∧ mo.edge? u v (.int 0) = none) ∨
        ∃ j d o, mj.edge? u v (.int 0) = some [(.str "weight", .num j)] ∧
          md.edge? u v (.int 0) = some [(.str "weight", .num d)] ∧
          mo.edge? u v (.int 0) = some [(.str "weight", .num o)] ∧ j ≤ d ∧ d ≤ o := by
  obtain ⟨mj, j1, _, j2⟩ := projection64_exact (h .jaccard (by simp)) (by simp) (metric := some "jaccard")
    (by simp [metricNames]) (threshold := none) (by simp)
  obtain ⟨md, d1, _, d2⟩ := projection64_exact (h .dice (by simp)) (by simp) (metric := some "dice")
    (by simp [metricNames]) (threshold := none) (by simp)
  obtain ⟨mo, o1, _, o2⟩ := projection64_exact (h .overlap (by simp)) (by simp) (metric := some "overlap")
    (by simp [metricNames]) (threshold := none) (by simp)
  refine ⟨mj, md, mo, j1, d1, o1, ?_⟩
  intro u v
  have hr : ∀ x : ℝ, ReachesThreshold (none : Option (Val ℝ)) x := by intro x v t hv; cases hv
  by_cases hc : u ≠ v ∧ InPart g partAttr part u ∧ InPart g partAttr part v ∧ (g.nbhd u ∩ g.nbhd v).Nonempty
  · right
    obtain ⟨c1, c2, c3, c4⟩ := hc
    obtain ⟨-, -, -, r1, r2⟩ := similarity64_range _ _ (w u) (w v) c4
      (lt_of_le_of_lt (card_nbhd_le g u) hsize) (lt_of_le_of_lt (card_nbhd_le g v) hsize)
    exact ⟨_, _, _, (j2 _ _ _).2 ⟨c1, c2, c3, c4, hr _, rfl⟩, (d2 _ _ _).2 ⟨c1, c2, c3, c4, hr _, rfl⟩,
      (o2 _ _ _).2 ⟨c1, c2, c3, c4, hr _, rfl⟩, r1, r2⟩
  · left
    have hno : ∀ (m : Graph V (Val ℝ)) (kind : Metric), (∀ u v a, m.edge? u v (.int 0) = some a ↔
        u ≠ v ∧ InPart g partAttr part u ∧ InPart g partAttr part v ∧ (g.nbhd u ∩ g.nbhd v).Nonempty ∧
        ReachesThreshold (none : Option (Val ℝ)) (similarity kind (g.nbhd u) (g.nbhd v) (w u) (w v)) ∧
        a = [(.str "weight", .num (similarity kind (g.nbhd u) (g.nbhd v) (w u) (w v)))]) →
        m.edge? u v (.int 0) = none := by
      intro m kind hm
      cases he : m.edge? u v (.int 0) with
      | none => rfl
      | some a =>
        obtain ⟨c1, c2, c3, c4, _⟩ := (hm _ _ _).1 he
        exact absurd ⟨c1, c2, c3, c4⟩ hc
    exact ⟨hno _ _ j2, hno _ _ d2, hno _ _ o2⟩

/-- C65 is false of binary cosine similarity: two nodes having the same three neighbors get a weight greater than 1, two
nodes having the same two neighbors get a weight smaller than 1, and are not linked when the threshold is 1.  In every
bipartite graph where such nodes are found. -/
theorem projection64_binaryCosine_wrong {g : Graph V (Val ℝ)} {part : Part V ℝ} {partAttr weightAttr : String}
    {check : Bool} {w : V → V → ℝ} (h : Projectable g part partAttr weightAttr .binaryCosine check w) :
    ∃ m m1, monopartiteProjection g part partAttr weightAttr (some "binary_cosine") check none = .ok m ∧
      monopartiteProjection g part partAttr weightAttr (some "binary_cosine") check (some (.num 1)) = .ok m1 ∧
      ∀ u v, u ≠ v → InPart g partAttr part u → InPart g partAttr part v → g.nbhd u = g.nbhd v →
        ((g.nbhd u).card = 3 → m.edge? u v (.int 0) = some [(.str "weight", .num (1 + 1 / 2 ^ 52))]) ∧
        ((g.nbhd u).card = 2 → m.edge? u v (.int 0) = some [(.str "weight", .num (1 - 1 / 2 ^ 52))] ∧
          m1.edge? u v (.int 0) = none) := by
  obtain ⟨m, e1, _, e2⟩ := projection64_exact h (by simp) (metric := some "binary_cosine")
    (by simp [metricNames]) (threshold := none) (by simp)
  obtain ⟨m1, f1, _, f2⟩ := projection64_exact h (by simp) (metric := some "binary_cosine")
    (by simp [metricNames]) (threshold := some (.num 1)) (by intro v hv; cases hv; exact ⟨1, rfl, one_pos⟩)
  refine ⟨m, m1, e1, f1, fun u v hne hu hv hs => ⟨fun hc => ?_, fun hc => ⟨?_, ?_⟩⟩⟩
  · rw [e2, ← hs, Finset.inter_self, binaryCosine64_three _ _ _ hc]
    exact ⟨hne, hu, hv, Finset.card_pos.1 (by omega), (by intro v t hv; cases hv), rfl⟩
  · rw [e2, ← hs, Finset.inter_self, binaryCosine64_two _ _ _ hc]
    exact ⟨hne, hu, hv, Finset.card_pos.1 (by omega), (by intro v t hv; cases hv), rfl⟩
  · cases he : m1.edge? u v (.int 0) with
    | none => rfl
    | some a =>
      obtain ⟨-, -, -, -, hr, -⟩ := (f2 _ _ _).1 he
      rw [← hs, binaryCosine64_two _ _ _ hc] at hr
      have := hr _ _ rfl rfl
      norm_num at this

end

/-- Accounts 1 and 2 share the same three pages, 3 and 4 the same two. -/
def twins : Graph Int (Val ℝ) :=
  ⟨false, false, [], [(1, []), (2, []), (3, []), (4, []), (10, []), (11, []), (12, []), (20, []), (21, [])],
    [⟨1, 10, [(.int 0, [])]⟩, ⟨1, 11, [(.int 0, [])]⟩, ⟨1, 12, [(.int 0, [])]⟩,
      ⟨2, 10, [(.int 0, [])]⟩, ⟨2, 11, [(.int 0, [])]⟩, ⟨2, 12, [(.int 0, [])]⟩,
      ⟨3, 20, [(.int 0, [])]⟩, ⟨3, 21, [(.int 0, [])]⟩, ⟨4, 20, [(.int 0, [])]⟩, ⟨4, 21, [(.int 0, [])]⟩]⟩

/-- A case meeting the hypotheses of the theorems above. -/
theorem twins_projectable (kind : Metric) (hk : kind ∈ [Metric.jaccard, .overlap, .dice, .binaryCosine]) (check : Bool) :
    Projectable twins (.collection [1, 2, 3, 4]) "part" "weight" kind check (fun _ _ => 1) ∧ twins.order < 2 ^ 52 ∧
      InPart twins "part" (.collection [1, 2, 3, 4]) 1 ∧ InPart twins "part" (.collection [1, 2, 3, 4]) 2 ∧
      twins.nbhd 1 = twins.nbhd 2 ∧ (twins.nbhd 1).card = 3 ∧
      InPart twins "part" (.collection [1, 2, 3, 4]) 3 ∧ InPart twins "part" (.collection [1, 2, 3, 4]) 4 ∧
      twins.nbhd 3 = twins.nbhd 4 ∧ (twins.nbhd 3).card = 2 := by
  have hwf : twins.WF := by constructor <;> decide
  refine ⟨⟨hwf, rfl, rfl, by simp, ⟨1, by decide, by decide⟩, ?_, fun _ _ _ _ => rfl, ?_, by simp, ?_, ?_⟩, by decide,
    ⟨by decide, by decide⟩, ⟨by decide, by decide⟩, by decide, by decide, ⟨by decide, by decide⟩,
    ⟨by decide, by decide⟩, by decide, by decide⟩
  · intro u v he
    obtain ⟨d, hd⟩ := Option.isSome_iff_exists.1 he
    obtain ⟨l, hl, hs, rfl⟩ := (Graph.keydict?_eq_some hwf).1 hd
    have hs := samePair_iff.1 hs
    simp only [InPart, twins, Graph.nodes, Dict.keys, List.map_cons, List.map_nil, List.mem_cons,
      List.not_mem_nil, or_false] at hl ⊢
    rcases hl with rfl | rfl | rfl | rfl | rfl | rfl | rfl | rfl | rfl | rfl <;>
      rcases hs with ⟨rfl, rfl⟩ | ⟨_, rfl, rfl⟩ <;> simp
  · intro n a ha _
    have : a = [] := by
      have := Dict.mem_of_get? ha
      simp only [twins, List.mem_cons, Prod.mk.injEq, List.not_mem_nil, or_false] at this
      rcases this with h | h | h | h | h | h | h | h | h <;> exact h.2
    subst this
    intro k hk
    simp [Dict.erase, Dict.keys] at hk
  · rintro (rfl | rfl) <;> simp at hk
  · rintro rfl; simp at hk

end Pelote
