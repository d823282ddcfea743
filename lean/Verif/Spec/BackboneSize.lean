import Verif.Spec.Disparity
import Mathlib.Analysis.SpecialFunctions.Pow.Real

/-! Specification vocabulary: the share of the strength of a node which an edge needs to be in the multiscale backbone. -/
namespace Pelote
variable {V : Type} [DecidableEq V]

/-- The edge between `u` and `v` has at least the part `1 - alpha ^ (1 / (k - 1))` of the strength of `u`, whose degree `k` is
at least 2. -/
def Graph.Dominates (g : Graph V (Val ℝ)) (w : V → V → ℝ) (alpha : ℝ) (u v : V) : Prop :=
  2 ≤ g.degree u ∧ (1 - alpha ^ (1 / ((g.degree u : ℝ) - 1))) * g.nodeStrength w u ≤ w u v

end Pelote
