import Verif.Spec.UnionFind
import Verif.Spec.Register

/-! Specification of `DisjointSet`: what any history of calls should return. -/
namespace Pelote
variable {α : Type} [DecidableEq α]

/-- The distinct items shown since the last `clear`, in order of first appearance. -/
def UFOp.seenNext (seen : List α) : UFOp α → List α
  | .clear => []
  | op => op.items.foldl showKey seen

/-- The partition of the items seen so far into classes linked by the pairs. -/
def linkedSetoidOn (seen : List α) (pairs : List (α × α)) : Setoid {x // x ∈ seen} where
  r x y := Linked pairs x.1 y.1
  iseqv := ⟨fun _ => .refl _, fun h => .symm _ _ h, fun h h' => .trans _ _ _ h h'⟩

/-- What a call must return, given the items seen and the pairs united before the call.  Items never
seen count as one class each, up to the capacity. -/
def DSExpected (cap : Nat) (seen : List α) (pairs : List (α × α)) : UFOp α → UFOut → Prop
  | .union x y, .bool b => b = true ↔ ¬ Linked pairs x y
  | .find x, .nat r => ∃ y, (UFOp.seenNext seen (.find x))[r]? = some y ∧ Linked pairs x y
  | .same x y, .bool b => b = true ↔ Linked pairs x y
  | .card x, .nat n => n = Set.ncard {y | Linked pairs x y}
  | .len, .int n => n = (cap - seen.length : Int) + Nat.card (Quotient (linkedSetoidOn seen pairs))
  | .clear, .unit => True
  | _, _ => False

/-- Every output of the history is the expected one. -/
def DSConforms (cap : Nat) : List α → List (α × α) → List (UFOp α) → List UFOut → Prop
  | _, _, [], [] => True
  | seen, pairs, op :: ops, out :: outs =>
    DSExpected cap seen pairs op out ∧ DSConforms cap (op.seenNext seen) (op.next pairs) ops outs
  | _, _, _, _ => False

/-- One call on the concrete structure. -/
def DisjointSet.step (s : DisjointSet α) : UFOp α → DisjointSet α × Py UFOut
  | .union x y => let r := s.union x y; (r.1, r.2.map .bool)
  | .find x => let r := s.find x; (r.1, r.2.map .nat)
  | .same x y => let r := s.areInSameSet x y; (r.1, r.2.map .bool)
  | .card x => let r := s.cardinality x; (r.1, r.2.map .nat)
  | .len => (s, .ok (.int s.len))
  | .clear => (s.clear, .ok .unit)

/-- A history of calls, stopped by the first exception. -/
def DisjointSet.run (s : DisjointSet α) : List (UFOp α) → Py (DisjointSet α × List UFOut)
  | [] => .ok (s, [])
  | op :: ops =>
    match s.step op with
    | (_, .error e) => .error e
    | (s, .ok out) =>
      match s.run ops with
      | .error e => .error e
      | .ok (s, outs) => .ok (s, out :: outs)

end Pelote
