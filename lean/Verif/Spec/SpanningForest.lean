import Verif.Spec.Linked
import Mathlib.Algebra.BigOperators.Group.Finset.Basic
import Mathlib.Algebra.Order.Field.Basic

/-! Specification vocabulary: maximum spanning forests of a finite family of weighted edges.  Edges are
designated by an index, so that parallel edges stay distinct; the direction of an edge is ignored. -/
namespace Pelote
variable {ι V K : Type}

/-- `x` and `y` are joined by a path made of edges of `F`. -/
def LinkedBy (ends : ι → V × V) (F : Set ι) (x y : V) : Prop :=
  Relation.EqvGen (fun a b => ∃ i ∈ F, ends i = (a, b)) x y

/-- `F` joins the ends of every edge, and no edge of `F` joins nodes the rest of `F` joins already. -/
structure IsSpanningForest (ends : ι → V × V) (F : Finset ι) : Prop where
  spans : ∀ i, LinkedBy ends F (ends i).1 (ends i).2
  acyclic : ∀ i ∈ F, ¬ LinkedBy ends {j | j ∈ F ∧ j ≠ i} (ends i).1 (ends i).2

/-- A spanning forest no spanning forest outweighs. -/
structure IsMaxSpanningForest [AddCommMonoid K] [LE K] (ends : ι → V × V) (weight : ι → K) (F : Finset ι) :
    Prop where
  forest : IsSpanningForest ends F
  max : ∀ F', IsSpanningForest ends F' → F'.sum weight ≤ F.sum weight

end Pelote
