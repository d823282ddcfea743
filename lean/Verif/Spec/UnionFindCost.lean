import Verif.Spec.UnionFind
import Mathlib.Order.ConditionallyCompleteLattice.Basic
import Mathlib.Order.Lattice.Nat

/-! Cost of the union-find operations, counted in reads of the array of parents: each iteration of the two loops of
`find` reads it once. -/
namespace Pelote

/-- The number of iterations a loop needs: the least fuel with which it does not run out of it. -/
noncomputable def iterations {α : Type} (loop : Nat → Py α) : Nat := sInf {n | loop n ≠ .error .diverges}

namespace UnionFind

/-- The number of reads made by `find(x)`: those of the climb to the root, then those of the second loop. -/
noncomputable def findReads (s : UnionFind) (x : Nat) : Nat :=
  iterations (fun n => climb s.parents n x) +
    match s.find x with
    | .ok r => iterations (fun n => rewalk s.parents r n x)
    | .error _ => 0

/-- The number of reads made by a call. -/
noncomputable def opReads (s : UnionFind) : UFOp Nat → Nat
  | .union x y => s.findReads x + s.findReads y
  | .find x => s.findReads x
  | .same x y => s.findReads x + s.findReads y
  | .card x => s.findReads x
  | .len => 0
  | .clear => 0

/-- The number of reads made by a history. -/
noncomputable def runReads (s : UnionFind) : List (UFOp Nat) → Nat
  | [] => 0
  | op :: ops => s.opReads op + (s.step op).1.runReads ops

end UnionFind

/-- Every union of the history is between representatives of classes, as `union(find(x), find(y))` makes them. -/
def UnitesRoots : UnionFind → List (UFOp Nat) → Prop
  | _, [] => True
  | s, .union x y :: ops => (s.find x = .ok x ∧ s.find y = .ok y) ∧ UnitesRoots (s.step (.union x y)).1 ops
  | s, op :: ops => UnitesRoots (s.step op).1 ops

end Pelote
