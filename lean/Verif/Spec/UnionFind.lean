import Verif.Spec.Linked
import Verif.Model.UnionFind
import Mathlib.SetTheory.Cardinal.Finite
import Mathlib.Data.Set.Card

/-! Specification of the union-find classes: what any history of calls should return. -/
namespace Pelote

/-- A call on a union-find structure over items of type `α`. -/
inductive UFOp (α : Type)
  | union (x y : α)
  | find (x : α)
  | same (x y : α)
  | card (x : α)
  | len
  | clear

/-- What a call returns. -/
inductive UFOut
  | bool (b : Bool)
  | nat (n : Nat)
  | int (i : Int)
  | unit
  deriving DecidableEq, Repr

/-- The items mentioned by a call. -/
def UFOp.items {α : Type} : UFOp α → List α
  | .union x y => [x, y]
  | .find x => [x]
  | .same x y => [x, y]
  | .card x => [x]
  | .len => []
  | .clear => []

/-- Abstract state: the pairs united since the last `clear`. -/
def UFOp.next {α : Type} (pairs : List (α × α)) : UFOp α → List (α × α)
  | .union x y => (x, y) :: pairs
  | .clear => []
  | _ => pairs

/-- The partition of `{0, …, cap-1}` into classes linked by the pairs. -/
def linkedSetoid (cap : Nat) (pairs : List (Nat × Nat)) : Setoid (Fin cap) where
  r x y := Linked pairs x.1 y.1
  iseqv := ⟨fun _ => .refl _, fun h => .symm _ _ h, fun h h' => .trans _ _ _ h h'⟩

/-- What a call on a `UnionFind` of the given capacity must return, given the pairs united so far. -/
def UFExpected (cap : Nat) (pairs : List (Nat × Nat)) : UFOp Nat → UFOut → Prop
  | .union x y, .bool b => b = true ↔ ¬ Linked pairs x y
  | .find x, .nat r => r < cap ∧ Linked pairs x r
  | .same x y, .bool b => b = true ↔ Linked pairs x y
  | .card x, .nat n => n = Set.ncard {y | y < cap ∧ Linked pairs x y}
  | .len, .int n => n = Nat.card (Quotient (linkedSetoid cap pairs))
  | .clear, .unit => True
  | _, _ => False

/-- Every output of the history is the expected one. -/
def UFConforms (cap : Nat) : List (Nat × Nat) → List (UFOp Nat) → List UFOut → Prop
  | _, [], [] => True
  | pairs, op :: ops, out :: outs =>
    UFExpected cap pairs op out ∧ UFConforms cap (op.next pairs) ops outs
  | _, _, _ => False

/-- One call on the concrete structure. -/
def UnionFind.step (s : UnionFind) : UFOp Nat → UnionFind × Py UFOut
  | .union x y => let r := s.union x y; (r.1, r.2.map .bool)
  | .find x => (s, (s.find x).map .nat)
  | .same x y => (s, (s.areInSameSet x y).map .bool)
  | .card x => (s, (s.cardinality x).map .nat)
  | .len => (s, .ok (.int s.len))
  | .clear => (s.clear, .ok .unit)

/-- A history of calls, stopped by the first exception. -/
def UnionFind.run (s : UnionFind) : List (UFOp Nat) → Py (UnionFind × List UFOut)
  | [] => .ok (s, [])
  | op :: ops =>
    match s.step op with
    | (_, .error e) => .error e
    | (s, .ok out) =>
      match s.run ops with
      | .error e => .error e
      | .ok (s, outs) => .ok (s, out :: outs)

end Pelote
