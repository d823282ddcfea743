import Verif.Nx.Graph
import Verif.Py.Val

/-! Specification vocabulary: the same graph with weights in another unit. -/
namespace Pelote
variable {V K : Type}

/-- The same attributes, but for the weight, a number satisfying `P` in the first dict, multiplied by `c` in the second one. -/
def RescaledAttrs [Mul K] (attr : String) (P : K → Prop) (c : K) (a a' : Attrs (Val K)) : Prop :=
  PyKey.str attr ∈ a.keys ∧
    List.Forall₂ (fun p p' => p'.1 = p.1 ∧
      if p.1 = .str attr then ∃ x, P x ∧ p.2 = .num x ∧ p'.2 = .num (c * x) else p'.2 = p.2) a a'

/-- The same entry of adjacency, in another unit. -/
def RescaledLink [Mul K] (attr : String) (P : K → Prop) (c : K) (l l' : Link V (Val K)) : Prop :=
  l'.u = l.u ∧ l'.v = l.v ∧ List.Forall₂ (fun d d' => d'.1 = d.1 ∧ RescaledAttrs attr P c d.2 d'.2) l.data l'.data

/-- The same graph in another unit: every edge of `g` has a weight satisfying `P`, and the weights of `g'` are those of `g`
multiplied by `c`. -/
structure Rescaled [Mul K] (attr : String) (P : K → Prop) (c : K) (g g' : Graph V (Val K)) : Prop where
  directed : g'.directed = g.directed
  multi : g'.multi = g.multi
  attrs : g'.attrs = g.attrs
  node : g'.node = g.node
  links : List.Forall₂ (RescaledLink attr P c) g.links g'.links

end Pelote
