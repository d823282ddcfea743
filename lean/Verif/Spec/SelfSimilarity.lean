import Verif.Spec.Distance
import Mathlib.Data.Finset.Card
import Mathlib.Data.Nat.Find
import Mathlib.Algebra.Field.Basic

/-! Specification of the self similarity projection: Jaccard similarity of neighborhoods tagged with the
direction and the distance, leaving the links between the two nodes aside. -/
namespace Pelote
variable {V A K : Type} [DecidableEq V]

/-- A tagged neighbor: `(out, d, x)` when there is a shortest walk of `d` steps to (`out = true`) or from `x`. -/
abbrev Tag (V : Type) := Bool × Nat × V

/-- `T` is the neighborhood of `n` up to distance `lo` outwards and `li` inwards. -/
def Neighborhood (g : Graph V A) (n : V) (lo li : Int) (T : Finset (Tag V)) : Prop :=
  ∀ out d x, (out, d, x) ∈ T ↔ 1 ≤ d ∧ (d : Int) ≤ (if out then lo else li) ∧ IsDist (g.Step (!out)) n x d

/-- A neighborhood without the direct links with `v`. -/
def unlinked (v : V) (T : Finset (Tag V)) : Finset (Tag V) := T.filter (fun k => ¬ (k.2.1 = 1 ∧ k.2.2 = v))

/-- The similarity of two nodes of neighborhoods `T u` and `T v`. -/
def tagSimilarity [Field K] (T : V → Finset (Tag V)) (u v : V) : K :=
  ((T u ∩ T v).card : K) / ((unlinked v (T u) ∪ unlinked u (T v)).card : K)

open Classical in
/-- How deep the neighborhood of `n` is, up to `depth`: the greatest distance at most `depth` at which there is
a node; `depth` itself when `n` has no neighbor at these distances. -/
noncomputable def Graph.reach (g : Graph V A) (reverse : Bool) (n : V) (depth : Int) : Int :=
  if ∃ (d : Nat) (x : V), 1 ≤ d ∧ (d : Int) ≤ depth ∧ IsDist (g.Step reverse) n x d then
    (Nat.findGreatest (fun d => ∃ x, IsDist (g.Step reverse) n x d) depth.toNat : Nat)
  else depth

/-- The distances (outwards, inwards) up to which the neighborhoods are really explored, when the nodes are
visited in this order: the depth of each neighborhood is the limit of the next search. -/
noncomputable def radii (g : Graph V A) : List V → Int → V → Int × Int
  | [], depth, _ => (depth, depth)
  | n :: ns, depth, m =>
    if m = n then (depth, g.reach false n depth)
    else radii g ns (g.reach true n (g.reach false n depth)) m

/-- The other nodes to which `n` has a link. -/
def Graph.outs (g : Graph V A) (n : V) : Finset V := (g.nodes.filter (fun m => g.hasEdge n m && m ≠ n)).toFinset

/-- The other nodes which have a link to `n`. -/
def Graph.ins (g : Graph V A) (n : V) : Finset V := (g.nodes.filter (fun m => g.hasEdge m n && m ≠ n)).toFinset

/-- The similarity of two nodes at depth 1: Jaccard index of their neighborhoods, in and out links being told
apart, and the links between the two nodes left aside. -/
def linkSimilarity [Field K] (g : Graph V A) (u v : V) : K :=
  ((g.outs u ∩ g.outs v).card + (g.ins u ∩ g.ins v).card : ℕ) /
    (((g.outs u).erase v ∪ (g.outs v).erase u).card + ((g.ins u).erase v ∪ (g.ins v).erase u).card : ℕ)

end Pelote
