import Verif.Spec.Components
import Verif.Spec.Graph
import Verif.Py.Val
import Mathlib.Analysis.SpecialFunctions.Log.Basic

/-! Specification of the floatsam algorithm. -/
namespace Pelote
variable {V K : Type} [DecidableEq V] [Field K] [LinearOrder K]

/-- The weight of an edge, if it is a number. -/
def numWeight (attr : String) (a : Attrs (Val K)) : Option K :=
  match a.get? (.str attr) with
  | some (.num w) => some w
  | some (.bool true) => some 1
  | some (.bool false) => some 0
  | _ => none

/-- Every edge has a numeric weight. -/
def Weighted (g : Graph V (Val K)) (attr : String) : Prop :=
  ∀ e ∈ g.edgesData, ∃ w, numWeight attr e.2.2 = some w

/-- The edges of weight at least `t`. -/
def heavyEdges (g : Graph V (Val K)) (attr : String) (t : K) : List (V × V) :=
  (g.edgesData.filter (fun e => (numWeight attr e.2.2).any (fun w => decide (t ≤ w)))).map (fun e => (e.1, e.2.1))

/-- The orders of the connected components left by the edges of weight at least `t`. -/
noncomputable def heavyOrders (g : Graph V (Val K)) (attr : String) (t : K) : List Nat :=
  componentOrders g.nodes (heavyEdges g attr t)

/-- Two different components of order `m` or more are left by the edges of weight at least `t`. -/
def Drifts (g : Graph V (Val K)) (attr : String) (m t : K) : Prop :=
  ∃ a ∈ g.nodes, ∃ b ∈ g.nodes, ¬ Linked (heavyEdges g attr t) a b ∧
    m ≤ ((componentOf g.nodes (heavyEdges g attr t) a).ncard : K) ∧
    m ≤ ((componentOf g.nodes (heavyEdges g attr t) b).ncard : K)

/-- `c` is the order of the second largest component left by the edges of weight at least `t`, or `None`. -/
def DrifterOrder (g : Graph V (Val K)) (attr : String) (t : K) (c : Option Nat) : Prop :=
  (c = none ↔ (heavyOrders g attr t).length < 2) ∧ ∀ r, c = some r → IsSecondLargest (heavyOrders g attr t) r

/-- The limit used: the given one, or the integer part of the natural logarithm of the order of the largest component. -/
def DrifterLimit (g : Graph V (Val K)) (given : Option K) (m : K) : Prop :=
  given = some m ∨ (given = none ∧ ∃ order k : Nat, order ∈ componentOrders g.nodes g.edges ∧
    (∀ s ∈ componentOrders g.nodes g.edges, s ≤ order) ∧ m = (k : K) ∧
    Real.exp k ≤ order ∧ (order : ℝ) < Real.exp (k + 1))

/-- The thresholds tried when each sum is rounded by `rnd`: `start`, `rnd (start + rate)`, … -/
def steps (rnd : K → K) (start rate : K) : Nat → K
  | 0 => start
  | k + 1 => rnd (steps rnd start rate k + rate)

end Pelote
