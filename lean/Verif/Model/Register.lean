import Verif.Py.Basic

/-! Model of `pelote/classes/incremental_id_register.py`. -/
namespace Pelote

/-- `IncrementalIdRegister` (pelote/classes/incremental_id_register.py:7-16). -/
structure IdRegister (α : Type) where
  counter : Nat
  index : Dict α Nat

namespace IdRegister
variable {α : Type} [DecidableEq α]

/-- `__init__` (pelote/classes/incremental_id_register.py:14-16). -/
def init : IdRegister α := ⟨0, []⟩

/-- `__getitem__(item)` (pelote/classes/incremental_id_register.py:18-26): the id and the register
after the call. -/
def lookup (r : IdRegister α) (item : α) : Nat × IdRegister α :=
  match r.index.get? item with
  | some i => (i, r)
  | none => (r.counter, ⟨r.counter + 1, r.index.set item r.counter⟩)

/-- `clear()` (pelote/classes/incremental_id_register.py:28-30). -/
def clear (_ : IdRegister α) : IdRegister α := ⟨0, []⟩

end IdRegister
end Pelote
