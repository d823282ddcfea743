/-
Python primitives used by the model: exceptions as values, hashable keys, insertion-ordered dicts.

Nothing here models a line of /repo; it models the fragment of the Python language and builtins that
/repo relies on.  The interpretation is part of the trusted base (see DESIGN.md).
-/
namespace Pelote

/-- Python exceptions raised by the modelled code, by class.  The string is a short tag of the
message, so that two `TypeError`s raised for different reasons stay distinguishable. -/
inductive PyErr
  | typeError (tag : String)
  | keyError
  | indexError
  | overflowError
  | zeroDivisionError
  | valueError
  | attributeError
  | notImplementedError
  | missingPandas
  | networkxError
  | runtimeError
  /-- not an exception: a `while` loop used up the fuel its model was given (see the cited
  definition); theorems stating that a call returns `.ok` therefore include termination -/
  | diverges
  deriving DecidableEq, Repr

/-- A Python computation that returns a value or raises. -/
abbrev Py := Except PyErr

/-- A generator run to completion: the yielded values, then possibly an exception. -/
structure Gen (α : Type) where
  yields : List α
  err : Option PyErr := none

/-- Hashable Python values used as attribute names, multigraph edge keys, and (for the JSON writer)
node keys.  `other ty repr` is any other hashable, carrying its type name and its `str()`.
Simplification: Python identifies `True` with `1`; here they are different keys. -/
inductive PyKey
  | int (i : Int)
  | str (s : String)
  | bool (b : Bool)
  | other (ty repr : String)
  deriving DecidableEq, Repr

/-- `str(k)`. -/
def PyKey.toStr : PyKey → String
  | .int i => toString i
  | .str s => s
  | .bool true => "True"
  | .bool false => "False"
  | .other _ r => r

/-- `type(k)`, as a name. -/
def PyKey.type : PyKey → String
  | .int _ => "int"
  | .str _ => "str"
  | .bool _ => "bool"
  | .other ty _ => ty

/-- `isinstance(k, str)`. -/
def PyKey.isStr : PyKey → Bool
  | .str _ => true
  | _ => false

/-- A Python `dict`: key/value pairs in insertion order. -/
abbrev Dict (κ ν : Type) := List (κ × ν)

namespace Dict
variable {κ ν : Type} [DecidableEq κ]

/-- `d.get(k)`, with `none` for a missing key. -/
def get? : Dict κ ν → κ → Option ν
  | [], _ => none
  | (k', v) :: d, k => if k' = k then some v else get? d k

/-- `k in d`. -/
def has (d : Dict κ ν) (k : κ) : Bool := (get? d k).isSome

/-- `d[k]`, raising `KeyError`. -/
def getItem (d : Dict κ ν) (k : κ) : Py ν :=
  match get? d k with
  | some v => .ok v
  | none => .error .keyError

/-- `d[k] = v`: an existing key keeps its position, a new key goes last. -/
def set : Dict κ ν → κ → ν → Dict κ ν
  | [], k, v => [(k, v)]
  | (k', v') :: d, k, v => if k' = k then (k', v) :: d else (k', v') :: set d k v

/-- `d.update(e)`. -/
def update (d e : Dict κ ν) : Dict κ ν := e.foldl (fun d kv => set d kv.1 kv.2) d

/-- `d.pop(k, None)`. -/
def erase (d : Dict κ ν) (k : κ) : Dict κ ν := d.filter (fun kv => ¬ kv.1 = k)

/-- `d.keys()`. -/
def keys (d : Dict κ ν) : List κ := d.map Prod.fst

end Dict

/-- `sep.join`-free helper: does a list contain an element, as a Bool (`x in xs`). -/
def pyIn {α : Type} [DecidableEq α] (x : α) (xs : List α) : Bool := decide (x ∈ xs)

end Pelote
