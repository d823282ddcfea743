import Verif.Py.NonFinite
import Verif.Spec.Sparsification
import Verif.Spec.Disparity

/-! Specification vocabulary: comparing floats, NaN and infinities included. -/
namespace Pelote
variable {K : Type}

/-- `x` is at most `y`, neither being NaN. -/
def XNum.AtMost [LE K] (x y : XNum K) : Prop :=
  x ≠ .nan ∧ y ≠ .nan ∧ (x = .inf true ∨ y = .inf false ∨ ∃ a b, x = .fin a ∧ y = .fin b ∧ a ≤ b)

/-- The weight reaches the threshold: at least `t`, or at most `t` with `reverse`. -/
def ReachesX [Zero K] [One K] [LE K] (t : XNum K) (attr : String) (reverse : Bool) (a : Attrs (Val (XNum K))) : Prop :=
  ∃ w, HasNumber attr a w ∧ if reverse then w.AtMost t else t.AtMost w

/-- The float with infinities replaced by `M` and `-M` (NaN is not meant to be given). -/
def XNum.clamp [Zero K] [Neg K] (M : K) : XNum K → K
  | .fin k => k
  | .inf false => M
  | .inf true => -M
  | .nan => 0

/-- The number behind a float (0 for an infinity or NaN). -/
def XNum.num [Zero K] : XNum K → K
  | .fin k => k
  | _ => 0

/-- The float for a number, or NaN. -/
def XNum.ofOption : Option K → XNum K
  | some k => .fin k
  | none => .nan

/-- A weight that is NaN, infinite or a positive number. -/
def XNum.PosOrNaN [Zero K] [LT K] (x : XNum K) : Prop := x = .nan ∨ x = .inf false ∨ ∃ k, x = .fin k ∧ 0 < k

open Classical in
/-- One side of the disparity of an edge of weight `x` at the node `n` (`none` is NaN).  A node of degree 1 gives 1.
Otherwise, an edge of weight NaN at the node, or an infinite weight of the edge itself, gives NaN; another edge of infinite
weight gives 1; and if all the weights at the node are finite it is the documented formula. -/
noncomputable def Graph.sideX {V A : Type} [DecidableEq V] [Field K] (g : Graph V A) (w : V → V → XNum K) (n : V) (x : XNum K) :
    Option K :=
  if g.degree n = 1 then some 1
  else if (∃ v, g.hasEdge n v = true ∧ w n v = .nan) ∨ x = .inf false then none
  else if ∃ v, g.hasEdge n v = true ∧ w n v = .inf false then some 1
  else some ((1 - x.num / g.nodeStrength (fun u v => (w u v).num) n) ^ (g.degree n - 1))

/-- The smaller of two scores; NaN if the first one is, the first one if only the second one is NaN. -/
def leastOrFirst [LinearOrder K] : Option K → Option K → Option K
  | some a, some b => some (min a b)
  | a, none => a
  | none, _ => none

/-- The disparity of the edge between `u ≤ v` (`none` is NaN). -/
noncomputable def Graph.disparityX {V A : Type} [DecidableEq V] [Field K] [LinearOrder K] (g : Graph V A)
    (w : V → V → XNum K) (u v : V) : Option K :=
  leastOrFirst (g.sideX w u (w u v)) (g.sideX w v (w u v))

end Pelote
