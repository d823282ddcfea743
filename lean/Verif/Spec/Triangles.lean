import Verif.Nx.Graph
import Mathlib.Data.Finset.Insert
import Mathlib.Data.Set.Card

/-! Specification of triangles and of triangular strength. -/
namespace Pelote
variable {V A : Type} [DecidableEq V]

/-- Two nodes are adjacent when an edge joins them, in either direction. -/
def Graph.Adjacent (g : Graph V A) (u v : V) : Prop := g.hasEdge u v = true ∨ g.hasEdge v u = true

instance (g : Graph V A) (u v : V) : Decidable (g.Adjacent u v) := by
  unfold Graph.Adjacent; infer_instance

/-- A triangle: a set of three different, mutually adjacent nodes. -/
def Graph.IsTriangle (g : Graph V A) (s : Finset V) : Prop :=
  ∃ a b c, a ≠ b ∧ b ≠ c ∧ a ≠ c ∧ g.Adjacent a b ∧ g.Adjacent b c ∧ g.Adjacent a c ∧ s = {a, b, c}

/-- The number of triangles an edge between `u` and `v` is a part of (none if it is a self loop). -/
noncomputable def Graph.strength (g : Graph V A) (u v : V) : Nat :=
  Set.ncard {s : Finset V | g.IsTriangle s ∧ u ≠ v ∧ u ∈ s ∧ v ∈ s}

/-- The set of the members of a triple. -/
def tripleSet (t : V × V × V) : Finset V := {t.1, t.2.1, t.2.2}

end Pelote
