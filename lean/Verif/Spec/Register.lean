import Verif.Model.Register

/-! Specification of the incremental id register. -/
namespace Pelote

/-- A call on a register. -/
inductive IdOp (α : Type)
  | lookup (k : α)
  | clear

/-- Distinct keys in order of first appearance, one more key being shown. -/
def showKey {α : Type} [DecidableEq α] (seen : List α) (k : α) : List α :=
  if k ∈ seen then seen else seen ++ [k]

/-- Distinct keys shown since the last `clear`, in order of first appearance. -/
def IdOp.next {α : Type} [DecidableEq α] (seen : List α) : IdOp α → List α
  | .lookup k => showKey seen k
  | .clear => []

/-- The expected outputs of a history: a lookup returns the rank of first appearance of its key. -/
def idExpected {α : Type} [DecidableEq α] : List α → List (IdOp α) → List (Option Nat)
  | _, [] => []
  | seen, .lookup k :: ops => some ((showKey seen k).idxOf k) :: idExpected (showKey seen k) ops
  | _, .clear :: ops => none :: idExpected [] ops

/-- One call on the concrete register. -/
def IdRegister.step {α : Type} [DecidableEq α] (r : IdRegister α) : IdOp α → IdRegister α × Option Nat
  | .lookup k => let p := r.lookup k; (p.2, some p.1)
  | .clear => (r.clear, none)

/-- A history of calls. -/
def IdRegister.run {α : Type} [DecidableEq α] (r : IdRegister α) :
    List (IdOp α) → IdRegister α × List (Option Nat)
  | [] => (r, [])
  | op :: ops =>
    let p := r.step op
    let q := p.1.run ops
    (q.1, p.2 :: q.2)

end Pelote
