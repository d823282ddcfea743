import Verif.Spec.Graph
import Mathlib.Data.List.Forall2

/-! Specification vocabulary: listings of the same edges in another order. -/
namespace Pelote
variable {V B : Type} [DecidableEq V]

/-- The same edges, with the same data, listed in another order; the ends of an undirected edge may be exchanged. -/
def SameEdges (directed : Bool) (l l' : List (V × V × B)) : Prop :=
  ∃ m, l.Perm m ∧ List.Forall₂ (fun e e' => samePair directed e.1 e.2.1 e'.1 e'.2.1 = true ∧ e.2.2 = e'.2.2) m l'

end Pelote
