import Verif.Py.Val
import Mathlib.Algebra.BigOperators.Group.List.Basic

/-! Specification of edge disparity. -/
namespace Pelote
variable {V K : Type} [DecidableEq V] [Field K] [LinearOrder K]

/-- Every edge carries its weight in the attribute `attr`: a number, or a boolean (0 or 1). -/
def Graph.Weighted {N : Type} [Zero N] [One N] (g : Graph V (Val N)) (attr : String) (w : V → V → N) : Prop :=
  ∀ e ∈ g.edgesData, ∃ x : Val N, e.2.2.get? (.str attr) = some x ∧ x.toNum = .ok (w e.1 e.2.1)

/-- The weights of the edges at a node, added up; a self loop has two ends at its node. -/
def Graph.nodeStrength {A : Type} (g : Graph V A) (w : V → V → K) (n : V) : K :=
  (g.edges.map (fun e => (if e.1 = n then w e.1 e.2 else 0) + (if e.2 = n then w e.1 e.2 else 0))).sum

/-- The disparity of the edge between `u` and `v` as documented. -/
def Graph.disparity (g : Graph V (Val K)) (w : V → V → K) (u v : V) : K :=
  min ((1 - w u v / g.nodeStrength w u) ^ (g.degree u - 1))
    ((1 - w u v / g.nodeStrength w v) ^ (g.degree v - 1))

/-- The weights of the edges seen from a node, added up one after the other, `rnd` being applied to each sum; self loops are
added again at the end. -/
def Graph.roundedStrength (rnd : K → K) (g : Graph V (Val K)) (w : V → V → K) (n : V) : K :=
  ((g.edgesOf n).filter (fun e => e.2.1 = n)).foldl (fun s e => rnd (s + w n e.2.1))
    ((g.edgesOf n).foldl (fun s e => rnd (s + w n e.2.1)) 0)

/-- One side of the disparity of an edge of weight `w` at a node of strength `s` and degree `d`. -/
def sideScore (rnd : K → K) (pow : K → Nat → K) (w s : K) (d : Nat) : K := pow (rnd (1 - rnd (w / s))) (d - 1)

/-- The disparity of the edge between `u` and `v`, or the reversed one, with rounding. -/
def Graph.roundedDisparity (rnd : K → K) (pow : K → Nat → K) (reverse : Bool) (g : Graph V (Val K)) (w : V → V → K)
    (u v : V) : K :=
  if reverse then max (rnd (1 - sideScore rnd pow (w u v) (g.roundedStrength rnd w u) (g.degree u)))
    (rnd (1 - sideScore rnd pow (w u v) (g.roundedStrength rnd w v) (g.degree v)))
  else min (sideScore rnd pow (w u v) (g.roundedStrength rnd w u) (g.degree u))
    (sideScore rnd pow (w u v) (g.roundedStrength rnd w v) (g.degree v))

end Pelote
