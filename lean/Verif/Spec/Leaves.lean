import Verif.Model.Graph
import Mathlib.Data.Set.Basic

/-! Specification vocabulary: what is left when leaves are removed again and again. -/
namespace Pelote
variable {V A : Type} [DecidableEq V]

open Classical in
/-- The number of ends at `n` of the edges having both ends in `S`. -/
noncomputable def Graph.degreeWithin (g : Graph V A) (S : Set V) (n : V) : Nat :=
  ((g.edges.filter (fun e => decide (e.1 ∈ S ∧ e.2 ∈ S))).map
    (fun e => (if e.1 = n then 1 else 0) + (if e.2 = n then 1 else 0))).sum

/-- A node of the core: it belongs to a set of nodes each of which has at least two edge ends inside the set. -/
def Graph.InCore (g : Graph V A) (n : V) : Prop := ∃ S : Set V, n ∈ S ∧ ∀ m ∈ S, 2 ≤ g.degreeWithin S m

/-- `for _ in range(k): remove_leaves(graph)`. -/
def removeLeavesTimes : Nat → Graph V A → Graph V A × Py Unit
  | 0, g => (g, .ok ())
  | k + 1, g =>
    match removeLeaves g with
    | (g, .ok ()) => removeLeavesTimes k g
    | (g, .error e) => (g, .error e)

end Pelote
