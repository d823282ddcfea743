import Verif.Props.Projection

/-! C40: the ranges of the similarities given by the monopartite projection, over the real numbers. -/
set_option linter.unusedSectionVars false
namespace Pelote

/-- The square root and the natural logarithm; nothing is rounded. -/
noncomputable instance : PyMath ℝ := ⟨Real.sqrt, Real.log, fun x => x⟩

@[simp] theorem rnd_real (x : ℝ) : PyMath.rnd x = x := rfl

theorem sqrt_pos_real : ∀ x : ℝ, 0 < x → 0 < PyMath.sqrt x := fun _ h => Real.sqrt_pos.2 h

section
variable {V : Type} [DecidableEq V] (A B : Finset V) (a b : V → ℝ)

theorem card_facts (h : (A ∩ B).Nonempty) :
    0 < ((A ∩ B).card : ℝ) ∧ ((A ∩ B).card : ℝ) ≤ A.card ∧ ((A ∩ B).card : ℝ) ≤ B.card ∧
      ((A ∪ B).card : ℝ) = A.card + B.card - (A ∩ B).card := by
  refine ⟨by exact_mod_cast Finset.card_pos.2 h, by exact_mod_cast Finset.card_le_card Finset.inter_subset_left,
    by exact_mod_cast Finset.card_le_card Finset.inter_subset_right, ?_⟩
  have := Finset.card_union_add_card_inter A B
  have h2 : ((A ∪ B).card : ℝ) + (A ∩ B).card = A.card + B.card := by exact_mod_cast this
  linarith

theorem eq_of_cards (h1 : ((A ∩ B).card : ℝ) = A.card) (h2 : ((A ∩ B).card : ℝ) = B.card) : A = B := by
  have e1 : A ∩ B = A := Finset.eq_of_subset_of_card_le Finset.inter_subset_left
    (by exact_mod_cast h1.ge)
  have e2 : A ∩ B = B := Finset.eq_of_subset_of_card_le Finset.inter_subset_right
    (by exact_mod_cast h2.ge)
  exact e1.symm.trans e2

theorem sqrt_mul_sqrt_card : PyMath.sqrt (A.card : ℝ) * PyMath.sqrt (B.card : ℝ) = Real.sqrt (A.card * B.card) :=
  (Real.sqrt_mul (Nat.cast_nonneg _) _).symm

/-- Jaccard similarity is in `(0, 1]`, and 1 exactly for equal neighborhoods. -/
theorem jaccard_range (h : (A ∩ B).Nonempty) :
    0 < similarity .jaccard A B a b ∧ similarity .jaccard A B a b ≤ 1 ∧
      (similarity .jaccard A B a b = 1 ↔ A = B) := by
  obtain ⟨h0, h1, h2, h3⟩ := card_facts A B h
  simp only [similarity, rnd_real, h3]
  have hd : (0 : ℝ) < A.card + B.card - (A ∩ B).card := by linarith
  refine ⟨div_pos h0 hd, (div_le_one hd).2 (by linarith), ?_⟩
  rw [div_eq_one_iff_eq hd.ne']
  constructor
  · intro he
    exact eq_of_cards A B (by linarith) (by linarith)
  · rintro rfl; simp

/-- Dice similarity is in `(0, 1]`, and 1 exactly for equal neighborhoods. -/
theorem dice_range (h : (A ∩ B).Nonempty) :
    0 < similarity .dice A B a b ∧ similarity .dice A B a b ≤ 1 ∧
      (similarity .dice A B a b = 1 ↔ A = B) := by
  obtain ⟨h0, h1, h2, h3⟩ := card_facts A B h
  simp only [similarity, rnd_real, Nat.cast_add]
  have hd : (0 : ℝ) < A.card + B.card := by linarith
  refine ⟨div_pos (by linarith) hd, (div_le_one hd).2 (by linarith), ?_⟩
  rw [div_eq_one_iff_eq hd.ne']
  constructor
  · intro he
    exact eq_of_cards A B (by linarith) (by linarith)
  · rintro rfl; simp; ring

/-- Overlap is in `(0, 1]`, and 1 exactly when one neighborhood contains the other. -/
theorem overlap_range (h : (A ∩ B).Nonempty) :
    0 < similarity .overlap A B a b ∧ similarity .overlap A B a b ≤ 1 ∧
      (similarity .overlap A B a b = 1 ↔ A ⊆ B ∨ B ⊆ A) := by
  obtain ⟨h0, h1, h2, h3⟩ := card_facts A B h
  simp only [similarity, rnd_real, Nat.cast_min]
  have hd : (0 : ℝ) < min (A.card : ℝ) B.card := lt_min (by linarith) (by linarith)
  refine ⟨div_pos h0 hd, (div_le_one hd).2 (le_min h1 h2), ?_⟩
  rw [div_eq_one_iff_eq hd.ne']
  constructor
  · intro he
    rcases le_total (A.card : ℝ) B.card with hle | hle
    · rw [min_eq_left hle] at he
      left
      have : A ∩ B = A := Finset.eq_of_subset_of_card_le Finset.inter_subset_left (by exact_mod_cast he.ge)
      exact Finset.inter_eq_left.1 this
    · rw [min_eq_right hle] at he
      right
      have : A ∩ B = B := Finset.eq_of_subset_of_card_le Finset.inter_subset_right (by exact_mod_cast he.ge)
      exact Finset.inter_eq_right.1 this
  · rintro (hs | hs)
    · have := Finset.card_le_card hs
      rw [Finset.inter_eq_left.2 hs, min_eq_left (by exact_mod_cast this)]
    · have := Finset.card_le_card hs
      rw [Finset.inter_eq_right.2 hs, min_eq_right (by exact_mod_cast this)]

/-- Binary cosine similarity is in `(0, 1]`, and 1 exactly for equal neighborhoods. -/
theorem binaryCosine_range (h : (A ∩ B).Nonempty) :
    0 < similarity .binaryCosine A B a b ∧ similarity .binaryCosine A B a b ≤ 1 ∧
      (similarity .binaryCosine A B a b = 1 ↔ A = B) := by
  obtain ⟨h0, h1, h2, h3⟩ := card_facts A B h
  simp only [similarity, rnd_real, sqrt_mul_sqrt_card]
  have hA : (0 : ℝ) < A.card := by linarith
  have hB : (0 : ℝ) < B.card := by linarith
  have hd : 0 < Real.sqrt (A.card * B.card) := Real.sqrt_pos.2 (mul_pos hA hB)
  have hle : ((A ∩ B).card : ℝ) ≤ Real.sqrt (A.card * B.card) := by
    apply Real.le_sqrt_of_sq_le
    rw [sq]
    exact mul_le_mul h1 h2 h0.le hA.le
  refine ⟨div_pos h0 hd, (div_le_one hd).2 hle, ?_⟩
  rw [div_eq_one_iff_eq hd.ne']
  constructor
  · intro he
    have hsq : ((A ∩ B).card : ℝ) * (A ∩ B).card = A.card * B.card := by
      have := Real.mul_self_sqrt (mul_pos hA hB).le
      rw [← he] at this
      exact this
    refine eq_of_cards A B ?_ ?_
    · by_contra hne
      have hlt := lt_of_le_of_ne h1 hne
      nlinarith
    · by_contra hne
      have hlt := lt_of_le_of_ne h2 hne
      nlinarith
  · rintro rfl
    rw [Finset.inter_self, Real.sqrt_mul_self hA.le]

/-- Jaccard ≤ dice ≤ binary cosine ≤ overlap. -/
theorem similarity_order (h : (A ∩ B).Nonempty) :
    similarity .jaccard A B a b ≤ similarity .dice A B a b ∧
      similarity .dice A B a b ≤ similarity .binaryCosine A B a b ∧
      similarity .binaryCosine A B a b ≤ similarity .overlap A B a b := by
  obtain ⟨h0, h1, h2, h3⟩ := card_facts A B h
  have hA : (0 : ℝ) < A.card := by linarith
  have hB : (0 : ℝ) < B.card := by linarith
  have hd : 0 < Real.sqrt (A.card * B.card) := Real.sqrt_pos.2 (mul_pos hA hB)
  refine ⟨?_, ?_, ?_⟩
  · simp only [similarity, rnd_real, h3, Nat.cast_add]
    rw [div_le_div_iff₀ (by linarith) (by linarith)]
    nlinarith
  · simp only [similarity, rnd_real, sqrt_mul_sqrt_card, Nat.cast_add]
    rw [div_le_div_iff₀ (by linarith) hd]
    have hamgm : 2 * Real.sqrt (A.card * B.card) ≤ A.card + B.card := by
      have e1 := Real.mul_self_sqrt (mul_pos hA hB).le
      nlinarith [sq_nonneg ((A.card : ℝ) - B.card)]
    nlinarith
  · simp only [similarity, rnd_real, sqrt_mul_sqrt_card, Nat.cast_min]
    apply div_le_div_of_nonneg_left h0.le (lt_min hA hB)
    apply Real.le_sqrt_of_sq_le
    rw [sq]
    exact mul_le_mul (min_le_left _ _) (min_le_right _ _) (lt_min hA hB).le hA.le

/-- Cosine similarity is at most 1 in absolute value whatever the weights. -/
theorem cosine_le_one : |similarity .cosine A B a b| ≤ 1 := by
  simp only [similarity, rnd_real]
  have e : PyMath.sqrt (∑ t ∈ A, a t * a t) * PyMath.sqrt (∑ t ∈ B, b t * b t) =
      Real.sqrt ((∑ t ∈ A, a t * a t) * ∑ t ∈ B, b t * b t) :=
    (Real.sqrt_mul (Finset.sum_nonneg fun t _ => mul_self_nonneg (a t)) _).symm
  rw [e, abs_div, abs_of_nonneg (Real.sqrt_nonneg _)]
  apply div_le_one_of_le₀ _ (Real.sqrt_nonneg _)
  apply Real.abs_le_sqrt
  have h1 : (∑ t ∈ A ∩ B, a t * b t) ^ 2 ≤ (∑ t ∈ A ∩ B, a t ^ 2) * ∑ t ∈ A ∩ B, b t ^ 2 :=
    Finset.sum_mul_sq_le_sq_mul_sq _ _ _
  have h2 : ∑ t ∈ A ∩ B, a t ^ 2 ≤ ∑ t ∈ A, a t * a t := by
    simp only [sq]
    exact Finset.sum_le_sum_of_subset_of_nonneg Finset.inter_subset_left fun t _ _ => mul_self_nonneg _
  have h3 : ∑ t ∈ A ∩ B, b t ^ 2 ≤ ∑ t ∈ B, b t * b t := by
    simp only [sq]
    exact Finset.sum_le_sum_of_subset_of_nonneg Finset.inter_subset_right fun t _ _ => mul_self_nonneg _
  exact h1.trans (mul_le_mul h2 h3 (Finset.sum_nonneg fun t _ => sq_nonneg _)
    (Finset.sum_nonneg fun t _ => mul_self_nonneg _))

/-- Cosine similarity with positive weights is in `(0, 1]`. -/
theorem cosine_range (h : (A ∩ B).Nonempty) (ha : ∀ t ∈ A, 0 < a t) (hb : ∀ t ∈ B, 0 < b t) :
    0 < similarity .cosine A B a b ∧ similarity .cosine A B a b ≤ 1 := by
  refine ⟨?_, (le_abs_self _).trans (cosine_le_one A B a b)⟩
  simp only [similarity, rnd_real]
  have hA : A.Nonempty := h.mono Finset.inter_subset_left
  have hB : B.Nonempty := h.mono Finset.inter_subset_right
  apply div_pos
  · exact Finset.sum_pos (fun t ht => mul_pos (ha t (Finset.mem_inter.1 ht).1) (hb t (Finset.mem_inter.1 ht).2)) h
  · exact mul_pos (Real.sqrt_pos.2 (Finset.sum_pos (fun t ht => mul_pos (ha t ht) (ha t ht)) hA))
      (Real.sqrt_pos.2 (Finset.sum_pos (fun t ht => mul_pos (hb t ht) (hb t ht)) hB))

/-- With all weights 1, cosine is binary cosine and the dot product is the size of the intersection. -/
theorem unweighted_similarity :
    similarity .cosine A B (fun _ => 1) (fun _ => 1) = similarity .binaryCosine A B a b ∧
      similarity .dotProduct A B (fun _ => (1 : ℝ)) (fun _ => 1) = similarity .intersection A B a b := by
  simp [similarity]

/-- Pointwise mutual information is at most 0 here, and 0 exactly when both nodes have one neighbor, the
same. -/
theorem pmi_range (h : (A ∩ B).Nonempty) :
    similarity .pmi A B a b ≤ 0 ∧ (similarity .pmi A B a b = 0 ↔ A.card = 1 ∧ B.card = 1) := by
  obtain ⟨h0, h1, h2, _⟩ := card_facts A B h
  have hI : (1 : ℝ) ≤ (A ∩ B).card := by exact_mod_cast Finset.card_pos.2 h
  simp only [similarity, rnd_real]
  have hA : (0 : ℝ) < A.card := by linarith
  have hB : (0 : ℝ) < B.card := by linarith
  have hx : 0 < ((A ∩ B).card : ℝ) / (A.card * B.card) := div_pos h0 (mul_pos hA hB)
  have hx1 : ((A ∩ B).card : ℝ) / (A.card * B.card) ≤ 1 := by
    rw [div_le_one (mul_pos hA hB)]; nlinarith
  refine ⟨Real.log_nonpos hx.le hx1, ?_⟩
  change Real.log _ = 0 ↔ _
  rw [Real.log_eq_zero]
  constructor
  · rintro (he | he | he)
    · exact absurd he hx.ne'
    · rw [div_eq_one_iff_eq (mul_pos hA hB).ne'] at he
      have e1 : (A.card : ℝ) = 1 := by nlinarith
      have e2 : (B.card : ℝ) = 1 := by nlinarith
      exact ⟨by exact_mod_cast e1, by exact_mod_cast e2⟩
    · linarith
  · rintro ⟨e1, e2⟩
    right; left
    have : ((A ∩ B).card : ℝ) = 1 := by rw [e1] at h1; push_cast at h1; linarith
    rw [this, e1, e2]; norm_num

end

section
variable {V : Type} [LinearOrder V] [PyOrd V] [AttrVal (Val ℝ)]

/-- C39 over the real numbers, without hypothesis on the square root. -/
theorem projection_exact_real {g : Graph V (Val ℝ)} {part : Part V ℝ} {partAttr weightAttr : String}
    {kind : Metric} {check : Bool} {w : V → V → ℝ} (h : Projectable g part partAttr weightAttr kind check w)
    {metric : Option String} (hk : (metric, kind) ∈ metricNames)
    {threshold : Option (Val ℝ)} (ht : ∀ v, threshold = some v → ∃ t, v.toNum = .ok t ∧ 0 < t) :
    ∃ m, monopartiteProjection g part partAttr weightAttr metric check threshold = .ok m ∧ m.WF ∧
      ∀ u v a, m.edge? u v (.int 0) = some a ↔
        u ≠ v ∧ InPart g partAttr part u ∧ InPart g partAttr part v ∧ (g.nbhd u ∩ g.nbhd v).Nonempty ∧
        ReachesThreshold threshold (similarity kind (g.nbhd u) (g.nbhd v) (w u) (w v)) ∧
        a = [(.str "weight", .num (similarity kind (g.nbhd u) (g.nbhd v) (w u) (w v)))] :=
  projection_exact sqrt_pos_real (fun _ h => h) h hk ht

/-- C40.  The weights of the projections by Jaccard, overlap, dice and binary cosine similarity are in
`(0, 1]`; so are those by cosine similarity when the edges have positive weights. -/
theorem projection_range {g : Graph V (Val ℝ)} {part : Part V ℝ} {partAttr weightAttr : String}
    {kind : Metric} {check : Bool} {w : V → V → ℝ} (h : Projectable g part partAttr weightAttr kind check w)
    (hk : kind ∈ [Metric.jaccard, .overlap, .dice, .binaryCosine, .cosine])
    (hw : kind = .cosine → ∀ u v, g.hasEdge u v = true → 0 < w u v)
    {metric : Option String} (hn : (metric, kind) ∈ metricNames)
    {threshold : Option (Val ℝ)} (ht : ∀ v, threshold = some v → ∃ t, v.toNum = .ok t ∧ 0 < t)
    {m : Graph V (Val ℝ)}
    (hm : monopartiteProjection g part partAttr weightAttr metric check threshold = .ok m)
    {u v : V} {a : Attrs (Val ℝ)} (he : m.edge? u v (.int 0) = some a) :
    ∃ x, a = [(.str "weight", .num x)] ∧ 0 < x ∧ x ≤ 1 ∧
      (kind ∈ [Metric.jaccard, .dice, .binaryCosine] → (x = 1 ↔ g.nbhd u = g.nbhd v)) ∧
      (kind = .overlap → (x = 1 ↔ g.nbhd u ⊆ g.nbhd v ∨ g.nbhd v ⊆ g.nbhd u)) := by
  obtain ⟨m', hm', _, hE⟩ := projection_exact_real h hn ht
  rw [hm] at hm'; cases hm'
  obtain ⟨_, _, _, hne, _, rfl⟩ := (hE u v a).1 he
  refine ⟨_, rfl, ?_⟩
  simp only [List.mem_cons, List.not_mem_nil, or_false] at hk
  rcases hk with rfl | rfl | rfl | rfl | rfl
  · obtain ⟨r1, r2, r3⟩ := jaccard_range _ _ (w u) (w v) hne
    exact ⟨r1, r2, fun _ => r3, by simp⟩
  · obtain ⟨r1, r2, r3⟩ := overlap_range _ _ (w u) (w v) hne
    exact ⟨r1, r2, by simp, fun _ => r3⟩
  · obtain ⟨r1, r2, r3⟩ := dice_range _ _ (w u) (w v) hne
    exact ⟨r1, r2, fun _ => r3, by simp⟩
  · obtain ⟨r1, r2, r3⟩ := binaryCosine_range _ _ (w u) (w v) hne
    exact ⟨r1, r2, fun _ => r3, by simp⟩
  · obtain ⟨r1, r2⟩ := cosine_range _ _ (w u) (w v) hne
      (fun t ht => hw rfl u t ((mem_nbhd h.wf).1 ht)) (fun t ht => hw rfl v t ((mem_nbhd h.wf).1 ht))
    exact ⟨r1, r2, by simp, by simp⟩

/-- C40.  The projections of one graph by Jaccard, dice, binary cosine and overlap have the same edges,
with weights in this order. -/
theorem projection_order {g : Graph V (Val ℝ)} {part : Part V ℝ} {partAttr weightAttr : String}
    {check : Bool} {w : V → V → ℝ} (h : ∀ kind, kind ≠ .cosine → kind ≠ .dotProduct →
      Projectable g part partAttr weightAttr kind check w) :
    ∃ mj md mb mo, monopartiteProjection g part partAttr weightAttr (some "jaccard") check none = .ok mj ∧
      monopartiteProjection g part partAttr weightAttr (some "dice") check none = .ok md ∧
      monopartiteProjection g part partAttr weightAttr (some "binary_cosine") check none = .ok mb ∧
      monopartiteProjection g part partAttr weightAttr (some "overlap") check none = .ok mo ∧
      ∀ u v, (mj.edge? u v (.int 0) = none ∧ md.edge? u v (.int 0) = none ∧ mb.edge? u v (.int 0) = none ∧
          mo.edge? u v (.int 0) = none) ∨
        ∃ j d b o, mj.edge? u v (.int 0) = some [(.str "weight", .num j)] ∧
          md.edge? u v (.int 0) = some [(.str "weight", .num d)] ∧
          mb.edge? u v (.int 0) = some [(.str "weight", .num b)] ∧
          mo.edge? u v (.int 0) = some [(.str "weight", .num o)] ∧ j ≤ d ∧ d ≤ b ∧ b ≤ o := by
  obtain ⟨mj, j1, _, j2⟩ := projection_exact_real (h .jaccard (by simp) (by simp)) (metric := some "jaccard")
    (by simp [metricNames]) (threshold := none) (by simp)
  obtain ⟨md, d1, _, d2⟩ := projection_exact_real (h .dice (by simp) (by simp)) (metric := some "dice")
    (by simp [metricNames]) (threshold := none) (by simp)
  obtain ⟨mb, b1, _, b2⟩ := projection_exact_real (h .binaryCosine (by simp) (by simp))
    (metric := some "binary_cosine") (by simp [metricNames]) (threshold := none) (by simp)
  obtain ⟨mo, o1, _, o2⟩ := projection_exact_real (h .overlap (by simp) (by simp)) (metric := some "overlap")
    (by simp [metricNames]) (threshold := none) (by simp)
  refine ⟨mj, md, mb, mo, j1, d1, b1, o1, ?_⟩
  intro u v
  have hr : ∀ x : ℝ, ReachesThreshold (none : Option (Val ℝ)) x := by intro x v t hv; cases hv
  by_cases hc : u ≠ v ∧ InPart g partAttr part u ∧ InPart g partAttr part v ∧ (g.nbhd u ∩ g.nbhd v).Nonempty
  · right
    obtain ⟨c1, c2, c3, c4⟩ := hc
    obtain ⟨r1, r2, r3⟩ := similarity_order _ _ (w u) (w v) c4
    exact ⟨_, _, _, _, (j2 _ _ _).2 ⟨c1, c2, c3, c4, hr _, rfl⟩, (d2 _ _ _).2 ⟨c1, c2, c3, c4, hr _, rfl⟩,
      (b2 _ _ _).2 ⟨c1, c2, c3, c4, hr _, rfl⟩, (o2 _ _ _).2 ⟨c1, c2, c3, c4, hr _, rfl⟩, r1, r2, r3⟩
  · left
    have hno : ∀ (m : Graph V (Val ℝ)) (kind : Metric), (∀ u v a, m.edge? u v (.int 0) = some a ↔
        u ≠ v ∧ InPart g partAttr part u ∧ InPart g partAttr part v ∧ (g.nbhd u ∩ g.nbhd v).Nonempty ∧
        ReachesThreshold (none : Option (Val ℝ)) (similarity kind (g.nbhd u) (g.nbhd v) (w u) (w v)) ∧
        a = [(.str "weight", .num (similarity kind (g.nbhd u) (g.nbhd v) (w u) (w v)))]) →
        m.edge? u v (.int 0) = none := by
      intro m kind hm
      cases he : m.edge? u v (.int 0) with
      | none => rfl
      | some a =>
        obtain ⟨c1, c2, c3, c4, _⟩ := (hm _ _ _).1 he
        exact absurd ⟨c1, c2, c3, c4⟩ hc
    exact ⟨hno _ _ j2, hno _ _ d2, hno _ _ b2, hno _ _ o2⟩

end

end Pelote
