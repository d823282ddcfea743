import Verif.Model.Traversal

/-! Specification of the traversal structures: what each call of a history must return, in terms of the
nodes appended so far. -/
namespace Pelote
variable {V I : Type} [DecidableEq V]
namespace Traversal

/-- What the specification remembers: every node appended so far (with repetitions), the items accepted
and not popped yet, oldest first, and the nodes the current generator has not passed yet. -/
structure Past (V I : Type) where
  appended : List V
  held : List I
  ahead : List V

/-- Expected result of a call. -/
def expect (lifo : Bool) (graph : List V) (s : Past V I) : Op V I → Out V I
  | .append n _ => .bool (decide (n ∉ s.appended))
  | .pop => match (if lifo then s.held.reverse.head? else s.held.head?) with
    | none => .raised .indexError
    | some i => .item i
  | .len => .num s.held.length
  | .contains n => .bool (decide (n ∈ s.appended))
  | .seenAll => .bool (decide (∀ n ∈ graph, n ∈ s.appended))
  | .unseen => .unit
  | .next => match s.ahead.find? (fun n => decide (n ∉ s.appended)) with
    | none => .stop
    | some n => .node n

/-- What is remembered after a call. -/
def remember (lifo : Bool) (asItem : V → I) (graph : List V) (s : Past V I) : Op V I → Past V I
  | .append n item =>
    { s with
      appended := s.appended ++ [n]
      held := if n ∈ s.appended then s.held else s.held ++ [item.getD (asItem n)] }
  | .pop => { s with held := if lifo then s.held.take (s.held.length - 1) else s.held.drop 1 }
  | .unseen => { s with ahead := graph }
  | .next => { s with ahead := (s.ahead.dropWhile (fun n => decide (n ∈ s.appended))).drop 1 }
  | _ => s

/-- Expected results of a history. -/
def expects (lifo : Bool) (asItem : V → I) (graph : List V) : Past V I → List (Op V I) → List (Out V I)
  | _, [] => []
  | s, op :: ops => expect lifo graph s op :: expects lifo asItem graph (remember lifo asItem graph s op) ops

/-- The nodes appended by a history. -/
def appends : List (Op V I) → List V
  | [] => []
  | .append n _ :: ops => n :: appends ops
  | _ :: ops => appends ops

end Traversal
end Pelote
