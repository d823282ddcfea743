import Verif.Spec.Linked
import Mathlib.Data.Set.Card

/-! Specification of connected components: classes of the linkage relation among a list of nodes. -/
namespace Pelote
variable {V : Type} [DecidableEq V]

/-- The connected component of `n`: the nodes linked to `n`. -/
def componentOf (nodes : List V) (pairs : List (V × V)) (n : V) : Set V :=
  {x | x ∈ nodes ∧ Linked pairs n x}

open Classical in
/-- The first node of each connected component, in node order: the nodes linked to no earlier node. -/
noncomputable def firstNodes (nodes : List V) (pairs : List (V × V)) : List V :=
  nodes.filter (fun n => decide (∀ m ∈ nodes, nodes.idxOf m < nodes.idxOf n → ¬ Linked pairs m n))

/-- The sizes of the connected components, in order of their first nodes. -/
noncomputable def componentOrders (nodes : List V) (pairs : List (V × V)) : List Nat :=
  (firstNodes nodes pairs).map (fun n => (componentOf nodes pairs n).ncard)

/-- `r` is the second largest of the numbers, counted with multiplicity. -/
def IsSecondLargest (sizes : List Nat) (r : Nat) : Prop :=
  ∃ a rest, sizes.Perm (a :: r :: rest) ∧ r ≤ a ∧ ∀ x ∈ rest, x ≤ r

/-- The largest of `a` and the first `k + 1` sizes. -/
def runningMax (a : Nat) (sizes : List Nat) (k : Nat) : Nat := (sizes.take (k + 1)).foldl max a

end Pelote
