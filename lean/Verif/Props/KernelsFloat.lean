import Verif.Props.Kernels

/-! C114 with doubles: the quadratic form of the Jaccard and dice similarities is hardly ever negative. -/
set_option linter.unusedSectionVars false
namespace Pelote

theorem round64_within {x : ℝ} (h0 : 0 ≤ x) (h1 : x ≤ 1) : |round64 x - x| ≤ 1 / 2 ^ 53 := by
  rcases h0.eq_or_lt with rfl | hpos
  · rw [round64_zero, sub_zero, abs_zero]; positivity
  · have hu : ulpExp x ≤ -52 := by
      refine (ulpExp_mono hpos h1).trans ?_
      unfold ulpExp
      simp
    refine (abs_round64_sub x).trans ?_
    have := zpow_le_zpow_right₀ (a := (2 : ℝ)) (by norm_num) hu
    refine (div_le_div_of_nonneg_right this (by norm_num)).trans (le_of_eq ?_)
    norm_num

section
attribute [local instance] binary64
variable {V : Type} [LinearOrder V] [PyOrd V] [AttrVal (Val ℝ)] {g : Graph V (Val ℝ)} {part : Part V ℝ}
  {partAttr weightAttr : String} {check : Bool} {w : V → V → ℝ}

/-- C114.  With doubles, the quadratic form of the weights of a projection by Jaccard or dice similarity is at least `-2 ^ (-53)` times
the square of the sum of the absolute values of the coefficients. -/
theorem projection64_kernel {kind : Metric} (hk : kind = .jaccard ∨ kind = .dice)
    (h : Projectable g part partAttr weightAttr kind check w) {metric : Option String} (hn : (metric, kind) ∈ metricNames) :
    ∃ m, monopartiteProjection g part partAttr weightAttr metric check none = .ok m ∧
      ∀ x : V → ℝ, -(1 / 2 ^ 53 * (∑ u ∈ m.nodes.toFinset, |x u|) ^ 2) ≤ m.kernelForm (fun _ => 1) x := by
  obtain ⟨m, h1, h2, h3⟩ := projection64_exact h (by rcases hk with rfl | rfl <;> simp) hn (threshold := none) (by simp)
  refine ⟨m, h1, fun x => ?_⟩
  have hin : ∀ n, n ∈ m.nodes ↔ InPart g partAttr part n := projection_part h.wf h.notFrozen h1
  have hm : m.multi = false := (projection_nodes_partial _ _ _ _ _ _ _ h.wf h.notFrozen h1).2.1
  obtain ⟨s, hs0, hs1, hself, hsim, hdis⟩ : ∃ s : V → V → ℝ,
      0 ≤ ∑ u ∈ m.nodes.toFinset, ∑ v ∈ m.nodes.toFinset, x u * x v * s u v ∧ (∀ u v, 0 ≤ s u v ∧ s u v ≤ 1) ∧
      (∀ u, s u u ≤ 1) ∧ (∀ u v, similarity kind (g.nbhd u) (g.nbhd v) (w u) (w v) = round64 (s u v)) ∧
      ∀ u v, g.nbhd u ∩ g.nbhd v = ∅ → s u v = 0 := by
    have c1 : ∀ u v, ((g.nbhd u ∩ g.nbhd v).card : ℝ) ≤ (g.nbhd u).card := fun u v =>
      by exact_mod_cast Finset.card_le_card Finset.inter_subset_left
    have c2 : ∀ u v, ((g.nbhd u ∩ g.nbhd v).card : ℝ) ≤ (g.nbhd v).card := fun u v =>
      by exact_mod_cast Finset.card_le_card Finset.inter_subset_right
    have c3 : ∀ u v, ((g.nbhd u ∩ g.nbhd v).card : ℝ) ≤ (g.nbhd u ∪ g.nbhd v).card := fun u v =>
      by exact_mod_cast Finset.card_le_card (Finset.inter_subset_left.trans Finset.subset_union_left)
    rcases hk with rfl | rfl
    · have r : ∀ u v, 0 ≤ ((g.nbhd u ∩ g.nbhd v).card : ℝ) / ((g.nbhd u ∪ g.nbhd v).card : ℝ) ∧
          ((g.nbhd u ∩ g.nbhd v).card : ℝ) / ((g.nbhd u ∪ g.nbhd v).card : ℝ) ≤ 1 := fun u v =>
        ⟨by positivity, div_le_one_of_le₀ (c3 u v) (by positivity)⟩
      exact ⟨_, jaccard_nonneg m.nodes.toFinset g.nbhd x, r, fun u => (r u u).2, fun _ _ => rfl, fun u v hd => by rw [hd]; simp⟩
    · have r : ∀ u v, 0 ≤ 2 * ((g.nbhd u ∩ g.nbhd v).card : ℝ) / (((g.nbhd u).card + (g.nbhd v).card : ℕ) : ℝ) ∧
          2 * ((g.nbhd u ∩ g.nbhd v).card : ℝ) / (((g.nbhd u).card + (g.nbhd v).card : ℕ) : ℝ) ≤ 1 := fun u v =>
        ⟨by positivity, div_le_one_of_le₀ (by push_cast; linarith [c1 u v, c2 u v]) (by positivity)⟩
      exact ⟨_, dice_nonneg m.nodes.toFinset g.nbhd x, r, fun u => (r u u).2, fun _ _ => rfl, fun u v hd => by rw [hd]; simp⟩
  have hlink : ∀ u ∈ m.nodes, ∀ v ∈ m.nodes, u ≠ v → |m.linkWeight u v - s u v| ≤ 1 / 2 ^ 53 := by
    intro u hu v hv hne
    rw [hin] at hu hv
    by_cases he : (g.nbhd u ∩ g.nbhd v).Nonempty
    · have : m.linkWeight u v = round64 (s u v) := by
        unfold Graph.linkWeight
        rw [(h3 u v _).2 ⟨hne, hu, hv, he, reaches_none _, rfl⟩, ← hsim]
        rfl
      rw [this]
      exact round64_within (hs1 u v).1 (hs1 u v).2
    · have hno : m.hasEdge u v = false := by
        by_contra hc
        obtain ⟨a, ha⟩ := edge_exists h2 hm (by simpa using hc)
        exact he ((h3 u v a).1 ha).2.2.2.1
      rw [linkWeight_none hno, hdis u v (Finset.not_nonempty_iff_eq_empty.1 he), sub_zero, abs_zero]
      positivity
  have hterm : ∀ u ∈ m.nodes.toFinset, ∀ v ∈ m.nodes.toFinset,
      x u * x v * s u v - 1 / 2 ^ 53 * (|x u| * |x v|) ≤ x u * x v * (if u = v then 1 else m.linkWeight u v) := by
    intro u hu v hv
    split_ifs with e
    · subst e
      have := mul_le_mul_of_nonneg_left (hself u) (mul_self_nonneg (x u))
      have : 0 ≤ 1 / 2 ^ 53 * (|x u| * |x u|) := by positivity
      linarith
    · have hl := hlink u (List.mem_toFinset.1 hu) v (List.mem_toFinset.1 hv) e
      have h5 : |x u * x v * (m.linkWeight u v - s u v)| ≤ 1 / 2 ^ 53 * (|x u| * |x v|) := by
        rw [abs_mul, abs_mul, mul_comm]
        exact mul_le_mul_of_nonneg_right hl (by positivity)
      have := neg_le_of_abs_le h5
      linarith
  have hsum := Finset.sum_le_sum fun u hu => Finset.sum_le_sum fun v hv => hterm u hu v hv
  simp only [Finset.sum_sub_distrib, ← Finset.mul_sum] at hsum
  rw [← Finset.sum_mul] at hsum
  unfold Graph.kernelForm
  rw [sq]
  linarith

/-- Non-triviality: the hypotheses hold of `twins`. -/
example : ∃ m, monopartiteProjection twins (.collection [1, 2, 3, 4]) "part" "weight" (some "jaccard") true none = .ok m ∧
    ∀ x : Int → ℝ, -(1 / 2 ^ 53 * (∑ u ∈ m.nodes.toFinset, |x u|) ^ 2) ≤ m.kernelForm (fun _ => 1) x :=
  projection64_kernel (.inl rfl) (twins_projectable .jaccard (by simp) true).1 (by simp [metricNames])

end
end Pelote
