import Mathlib.Probability.ConditionalProbability
import Mathlib.MeasureTheory.Measure.Lebesgue.EqHaar
import Mathlib.MeasureTheory.Measure.Haar.OfBasis

/-! Specification vocabulary: the null model of the disparity filter (Serrano, Boguñá and Vespignani, 2009): the strength of a
node is cut at random into as many shares as the node has edges. -/
namespace Pelote
open MeasureTheory

/-- The ways of cutting 1 into `n + 1` shares, given by `n` of them. -/
def cuts (n : Nat) : Set (Fin n → ℝ) := {y | (∀ i, 0 ≤ y i) ∧ ∑ i, y i ≤ 1}

/-- The shares of a cut; the one that is not given is what remains. -/
def share {n : Nat} (y : Fin n → ℝ) : Option (Fin n) → ℝ
  | some i => y i
  | none => 1 - ∑ i, y i

/-- A cut into `n + 1` shares drawn uniformly at random. -/
noncomputable def nullModel (n : Nat) : Measure (Fin n → ℝ) := ProbabilityTheory.cond volume (cuts n)

end Pelote
