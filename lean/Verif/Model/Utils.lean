import Verif.Py.Basic

/-! Model of `pelote/utils.py`. -/
namespace Pelote

/-! ### Unsigned representations -/

/-- `array` type codes used by pelote (pelote/utils.py:52-57). -/
inductive TypeCode | B | H | L | Q
  deriving DecidableEq, Repr

/-- `Representation = namedtuple("Representation", ("max", "code"))` (pelote/utils.py:50). -/
structure Representation where
  max : Nat
  code : TypeCode
  deriving DecidableEq, Repr

/-- `UINT_REPRESENTATIONS` (pelote/utils.py:52-57). -/
def uintRepresentations : List Representation :=
  [⟨2^8 - 1, .B⟩, ⟨2^16 - 1, .H⟩, ⟨2^32 - 1, .L⟩, ⟨2^64 - 1, .Q⟩]

/-- `uint_representation_for_max(upper_bound)` (pelote/utils.py:60-65). -/
def uintRepresentationForMax (upperBound : Int) : Py Representation :=
  match uintRepresentations.find? (fun r => decide (upperBound ≤ (r.max : Int))) with
  | some r => .ok r
  | none => .error (.typeError "capacity is over 64 bits")

/-- `uint_representation_for_capacity(capacity)` (pelote/utils.py:68-69). -/
def uintRepresentationForCapacity (capacity : Int) : Py Representation :=
  uintRepresentationForMax (capacity - 1)

/-- What an `array.array` cell of the given type code can hold.  `B`, `H`, `Q` have a fixed width;
`L` is a C `unsigned long`, whose maximum depends on the platform (`ulongMax`, at least `2^32-1`). -/
def TypeCode.cellMax (ulongMax : Nat) : TypeCode → Nat
  | .B => 2^8 - 1
  | .H => 2^16 - 1
  | .L => ulongMax
  | .Q => 2^64 - 1

end Pelote
