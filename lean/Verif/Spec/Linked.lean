import Mathlib.Logic.Relation

/-! Specification vocabulary: connectivity by a finite set of pairs. -/
namespace Pelote

/-- `x` and `y` are linked by the given pairs: they are related by the smallest equivalence relation
containing the pairs. -/
def Linked {α : Type} (pairs : List (α × α)) (x y : α) : Prop :=
  Relation.EqvGen (fun a b => (a, b) ∈ pairs) x y

end Pelote
