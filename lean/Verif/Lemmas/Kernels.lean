import Mathlib.Analysis.SpecialFunctions.Integrals.Basic
import Mathlib.Algebra.BigOperators.Ring.Finset
import Mathlib.Tactic.Positivity

/-! Quadratic forms of the similarities of finite sets: those of Jaccard, dice and cosine are positive. -/
set_option linter.unusedSectionVars false
namespace Pelote
variable {V : Type} [DecidableEq V] (P : Finset V) (A : V → Finset V)

theorem square_form (y : V → ℝ) : ∑ u ∈ P, ∑ v ∈ P, y u * y v = (∑ u ∈ P, y u) ^ 2 := by
  rw [sq, Finset.sum_mul_sum]

theorem gram_nonneg (f : V → V → ℝ) (x : V → ℝ) :
    0 ≤ ∑ u ∈ P, ∑ v ∈ P, x u * x v * ∑ t ∈ A u ∩ A v, f u t * f v t := by
  have key : ∀ u ∈ P, ∀ v ∈ P, x u * x v * ∑ t ∈ A u ∩ A v, f u t * f v t =
      ∑ t ∈ P.biUnion A, (x u * if t ∈ A u then f u t else 0) * (x v * if t ∈ A v then f v t else 0) := by
    intro u hu v _
    rw [Finset.mul_sum]
    refine Finset.sum_subset_zero_on_sdiff (fun t ht => Finset.mem_biUnion.2 ⟨u, hu, (Finset.mem_inter.1 ht).1⟩) ?_ ?_
    · intro t ht
      have h2 := (Finset.mem_sdiff.1 ht).2
      rw [Finset.mem_inter, not_and_or] at h2
      rcases h2 with h2 | h2 <;> simp [h2]
    · intro t ht
      rw [Finset.mem_inter] at ht
      rw [if_pos ht.1, if_pos ht.2]
      ring
  rw [Finset.sum_congr rfl fun u hu => Finset.sum_congr rfl fun v hv => key u hu v hv]
  rw [Finset.sum_congr rfl fun u _ => Finset.sum_comm, Finset.sum_comm]
  refine Finset.sum_nonneg fun t _ => ?_
  rw [square_form P (fun u => x u * if t ∈ A u then f u t else 0)]
  exact sq_nonneg _

theorem form_integral (c : V → V → ℝ) (n : V → V → ℕ) (x : V → ℝ)
    (h : ∀ t : ℝ, 0 ≤ t → t ≤ 1 → 0 ≤ ∑ u ∈ P, ∑ v ∈ P, x u * x v * (c u v * t ^ n u v)) :
    0 ≤ ∑ u ∈ P, ∑ v ∈ P, x u * x v * (c u v / (n u v + 1)) := by
  have key : ∫ t in (0 : ℝ)..1, ∑ u ∈ P, ∑ v ∈ P, x u * x v * (c u v * t ^ n u v) =
      ∑ u ∈ P, ∑ v ∈ P, x u * x v * (c u v / (n u v + 1)) := by
    rw [intervalIntegral.integral_finset_sum (fun u _ => Continuous.intervalIntegrable (by fun_prop) _ _)]
    refine Finset.sum_congr rfl fun u _ => ?_
    rw [intervalIntegral.integral_finset_sum (fun v _ => Continuous.intervalIntegrable (by fun_prop) _ _)]
    refine Finset.sum_congr rfl fun v _ => ?_
    rw [intervalIntegral.integral_const_mul, intervalIntegral.integral_const_mul, integral_pow]
    simp [div_eq_mul_inv]
  rw [← key]
  exact intervalIntegral.integral_nonneg zero_le_one fun t ht => h t ht.1 ht.2

/-- Dice. -/
theorem dice_nonneg (x : V → ℝ) :
    0 ≤ ∑ u ∈ P, ∑ v ∈ P, x u * x v * (2 * ((A u ∩ A v).card : ℝ) / (((A u).card + (A v).card : ℕ) : ℝ)) := by
  have := form_integral P (fun u v => 2 * ((A u ∩ A v).card : ℝ)) (fun u v => (A u).card + (A v).card - 1) x (by
    intro t h0 _
    have hg := gram_nonneg P A (fun _ _ => 1) (fun u => x u * t ^ ((A u).card - 1))
    refine le_of_le_of_eq (mul_nonneg (by positivity : (0 : ℝ) ≤ 2 * t) hg) ?_
    rw [Finset.mul_sum]
    refine Finset.sum_congr rfl fun u _ => ?_
    rw [Finset.mul_sum]
    refine Finset.sum_congr rfl fun v _ => ?_
    simp only [mul_one, Finset.sum_const, nsmul_eq_mul]
    rcases Nat.eq_zero_or_pos (A u ∩ A v).card with h | h
    · rw [h]; simp
    · have h1 : 1 ≤ (A u).card := h.trans_le (Finset.card_le_card Finset.inter_subset_left)
      have h2 : 1 ≤ (A v).card := h.trans_le (Finset.card_le_card Finset.inter_subset_right)
      rw [show (A u).card + (A v).card - 1 = ((A u).card - 1) + ((A v).card - 1) + 1 by omega]
      ring)
  refine le_of_le_of_eq this (Finset.sum_congr rfl fun u _ => Finset.sum_congr rfl fun v _ => ?_)
  rcases Nat.eq_zero_or_pos (A u ∩ A v).card with h | h
  · rw [h]; simp
  · have h1 : 1 ≤ (A u).card := h.trans_le (Finset.card_le_card Finset.inter_subset_left)
    congr 2
    rw [← Nat.cast_add_one]
    congr 1
    omega

theorem union_pow {U B C : Finset V} (hB : B ⊆ U) (hC : C ⊆ U) {e : V} (he : e ∈ B) (t : ℝ) :
    t ^ ((B ∪ C).card - 1) = ∑ S ∈ (U.erase e).powerset, ((1 - t) ^ S.card * t ^ ((U.erase e) \ S).card) *
      ((if Disjoint S B then 1 else 0) * (if Disjoint S C then 1 else 0)) := by
  have h1 : t ^ ((B ∪ C).card - 1) = ∏ z ∈ U.erase e, ((1 - t) * (if z ∉ B ∧ z ∉ C then 1 else 0) + t) := by
    have : ∀ z ∈ U.erase e, ((1 - t) * (if z ∉ B ∧ z ∉ C then 1 else 0) + t) = if z ∈ B ∪ C then t else 1 := by
      intro z _
      by_cases hz : z ∈ B ∪ C
      · rw [if_pos hz, if_neg]
        · ring
        · rw [Finset.mem_union] at hz; tauto
      · rw [if_neg hz, if_pos]
        · ring
        · rw [Finset.mem_union] at hz; tauto
    rw [Finset.prod_congr rfl this, Finset.prod_ite]
    simp only [Finset.prod_const, one_pow, mul_one]
    congr 1
    have h2 : (U.erase e).filter (fun z => z ∈ B ∪ C) = (B ∪ C).erase e := by
      ext z
      simp only [Finset.mem_filter, Finset.mem_erase, Finset.mem_union]
      constructor
      · rintro ⟨⟨a, _⟩, b⟩; exact ⟨a, b⟩
      · rintro ⟨a, b⟩; exact ⟨⟨a, b.elim (fun h => hB h) (fun h => hC h)⟩, b⟩
    rw [h2, Finset.card_erase_of_mem (Finset.mem_union_left _ he)]
  rw [h1, Finset.prod_add]
  refine Finset.sum_congr rfl fun S _ => ?_
  rw [Finset.prod_mul_distrib, Finset.prod_const, Finset.prod_const]
  have h3 : (∏ z ∈ S, if z ∉ B ∧ z ∉ C then (1 : ℝ) else 0) = (if Disjoint S B then 1 else 0) * (if Disjoint S C then 1 else 0) := by
    by_cases hd : Disjoint S B ∧ Disjoint S C
    · rw [if_pos hd.1, if_pos hd.2, mul_one]
      refine Finset.prod_eq_one fun z hz => if_pos ⟨?_, ?_⟩
      · exact Finset.disjoint_left.1 hd.1 hz
      · exact Finset.disjoint_left.1 hd.2 hz
    · rw [show ((if Disjoint S B then (1 : ℝ) else 0) * (if Disjoint S C then 1 else 0)) = 0 by
        rw [not_and_or] at hd; rcases hd with hd | hd <;> simp [hd]]
      rw [not_and_or, Finset.not_disjoint_iff, Finset.not_disjoint_iff] at hd
      rcases hd with ⟨z, hz, hz'⟩ | ⟨z, hz, hz'⟩ <;> exact Finset.prod_eq_zero hz (if_neg (by tauto))
  rw [h3]
  ring

/-- Jaccard. -/
theorem jaccard_nonneg (x : V → ℝ) :
    0 ≤ ∑ u ∈ P, ∑ v ∈ P, x u * x v * (((A u ∩ A v).card : ℝ) / ((A u ∪ A v).card : ℝ)) := by
  have := form_integral P (fun u v => ((A u ∩ A v).card : ℝ)) (fun u v => (A u ∪ A v).card - 1) x (by
    intro t h0 h1
    have key : ∀ u ∈ P, ∀ v ∈ P, x u * x v * (((A u ∩ A v).card : ℝ) * t ^ ((A u ∪ A v).card - 1)) =
        ∑ e ∈ P.biUnion A, ∑ S ∈ ((P.biUnion A).erase e).powerset,
          ((1 - t) ^ S.card * t ^ (((P.biUnion A).erase e) \ S).card) *
            ((x u * ((if e ∈ A u then 1 else 0) * (if Disjoint S (A u) then 1 else 0))) *
              (x v * ((if e ∈ A v then 1 else 0) * (if Disjoint S (A v) then 1 else 0)))) := by
      intro u hu v hv
      have hB : A u ⊆ P.biUnion A := Finset.subset_biUnion_of_mem A hu
      have hC : A v ⊆ P.biUnion A := Finset.subset_biUnion_of_mem A hv
      have : ((A u ∩ A v).card : ℝ) * t ^ ((A u ∪ A v).card - 1) = ∑ e ∈ A u ∩ A v, t ^ ((A u ∪ A v).card - 1) := by
        rw [Finset.sum_const, nsmul_eq_mul]
      rw [this, Finset.mul_sum]
      refine Finset.sum_subset_zero_on_sdiff (fun e he => hB (Finset.mem_inter.1 he).1) ?_ ?_
      · intro e he
        have h2 := (Finset.mem_sdiff.1 he).2
        rw [Finset.mem_inter, not_and_or] at h2
        refine Finset.sum_eq_zero fun S _ => ?_
        rcases h2 with h2 | h2 <;> simp [h2]
      · intro e he
        rw [Finset.mem_inter] at he
        rw [union_pow hB hC he.1, Finset.mul_sum]
        refine Finset.sum_congr rfl fun S _ => ?_
        rw [if_pos he.1, if_pos he.2]
        ring
    rw [Finset.sum_congr rfl fun u hu => Finset.sum_congr rfl fun v hv => key u hu v hv]
    rw [Finset.sum_congr rfl fun u _ => Finset.sum_comm, Finset.sum_comm]
    refine Finset.sum_nonneg fun e _ => ?_
    rw [Finset.sum_congr rfl fun u _ => Finset.sum_comm, Finset.sum_comm]
    refine Finset.sum_nonneg fun S _ => ?_
    simp only [← Finset.mul_sum]
    rw [← Finset.sum_mul]
    exact mul_nonneg (mul_nonneg (pow_nonneg (sub_nonneg.2 h1) _) (pow_nonneg h0 _)) (mul_self_nonneg _))
  refine le_of_le_of_eq this (Finset.sum_congr rfl fun u _ => Finset.sum_congr rfl fun v _ => ?_)
  rcases Nat.eq_zero_or_pos (A u ∩ A v).card with h | h
  · rw [h]; simp
  · have h1 : 1 ≤ (A u ∪ A v).card := h.trans_le (Finset.card_le_card (Finset.inter_subset_left.trans Finset.subset_union_left))
    congr 2
    rw [← Nat.cast_add_one]
    congr 1
    omega

end Pelote
