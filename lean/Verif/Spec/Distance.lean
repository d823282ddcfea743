import Verif.Nx.Graph

/-! Specification vocabulary: distances in a directed graph. -/
namespace Pelote
variable {V A : Type}

/-- There is a walk of `n` steps from `u`. -/
inductive Walk (step : V → V → Prop) (u : V) : V → Nat → Prop
  | nil : Walk step u u 0
  | snoc {v w : V} {n : Nat} : Walk step u v n → step v w → Walk step u w (n + 1)

/-- The shortest walks from `u` to `v` have `d` steps. -/
def IsDist (step : V → V → Prop) (u v : V) (d : Nat) : Prop := Walk step u v d ∧ ∀ k < d, ¬ Walk step u v k

/-- One step along an edge, or against it. -/
def Graph.Step [DecidableEq V] (g : Graph V A) (reverse : Bool) (u v : V) : Prop :=
  (if reverse then g.hasEdge v u else g.hasEdge u v) = true

end Pelote
