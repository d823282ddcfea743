import Verif.Py.Data

/-! Specification of JSON texts (RFC 8259, with the constants `NaN`, `Infinity` and `-Infinity` of Python): which
texts render which data, in any layout and with any choice of escapes. -/
namespace Pelote
namespace Json

/-- White space. -/
def Ws (w : List Char) : Prop := ∀ c ∈ w, c ∈ [' ', '\t', '\n', '\r']

/-- `c` is a hexadecimal digit of value `n`. -/
def IsHex (c : Char) (n : Nat) : Prop :=
  "0123456789abcdef".toList[n]? = some c ∨ "0123456789ABCDEF".toList[n]? = some c

/-- `h` is four hexadecimal digits, of value `n`. -/
def Hex4 (n : Nat) (h : List Char) : Prop :=
  ∃ a b c d i j k l, h = [a, b, c, d] ∧ IsHex a i ∧ IsHex b j ∧ IsHex c k ∧ IsHex d l ∧
    n = i * 4096 + j * 256 + k * 16 + l

/-- A text which stands for one character in a string. -/
inductive RendersChar : Char → List Char → Prop
  | raw {c : Char} : c ≠ '"' → c ≠ '\\' → 0x20 ≤ c.toNat → RendersChar c [c]
  | short {c e : Char} : (e, c) ∈ [('"', '"'), ('\\', '\\'), ('/', '/'), ('b', '\x08'), ('f', '\x0c'), ('n', '\n'),
      ('r', '\r'), ('t', '\t')] → RendersChar c ['\\', e]
  | basic {c : Char} {h : List Char} : Hex4 c.toNat h → RendersChar c ('\\' :: 'u' :: h)
  | pair {c : Char} {h l : List Char} : 0x10000 ≤ c.toNat → Hex4 (0xd800 + (c.toNat - 0x10000) / 0x400) h →
      Hex4 (0xdc00 + (c.toNat - 0x10000) % 0x400) l → RendersChar c ('\\' :: 'u' :: h ++ '\\' :: 'u' :: l)

/-- A text which stands for the characters of a string. -/
inductive RendersChars : List Char → List Char → Prop
  | nil : RendersChars [] []
  | cons {c : Char} {s t u : List Char} : RendersChar c s → RendersChars t u → RendersChars (c :: t) (s ++ u)

/-- Decimal digits. -/
def Digits (s : List Char) : Prop := s ≠ [] ∧ ∀ c ∈ s, c.isDigit = true

/-- A natural number: no leading zero. -/
def NatText (s : List Char) : Prop := Digits s ∧ (s.head? = some '0' → s = ['0'])

/-- A fractional part. -/
def FracText (s : List Char) : Prop := ∃ d, s = '.' :: d ∧ Digits d

/-- An exponent. -/
def ExpText (s : List Char) : Prop :=
  ∃ e sign d, s = e :: sign ++ d ∧ (e = 'e' ∨ e = 'E') ∧ (sign = [] ∨ sign = ['-'] ∨ sign = ['+']) ∧ Digits d

/-- An optional minus sign. -/
def minus (neg : Bool) : List Char := if neg then ['-'] else []

mutual

/-- `Renders x s`: `s` is a JSON text, without white space around it, of the data `x`.  A float is identified with
its text.  When a name is repeated in an object, the last value counts, at the place of the first. -/
inductive Renders : Data → List Char → Prop
  | null : Renders .none "null".toList
  | true : Renders (.bool true) "true".toList
  | false : Renders (.bool false) "false".toList
  | int {neg : Bool} {s : List Char} : NatText s →
      Renders (.int (if neg then -(Nat.ofDigitChars 10 s 0 : Int) else Nat.ofDigitChars 10 s 0)) (minus neg ++ s)
  | float {neg : Bool} {s f e : List Char} : NatText s → (f = [] ∨ FracText f) → (e = [] ∨ ExpText e) →
      ¬ (f = [] ∧ e = []) →
      Renders (.obj "float" (String.ofList (minus neg ++ s ++ f ++ e))) (minus neg ++ s ++ f ++ e)
  | nan : Renders (.obj "float" "nan") "NaN".toList
  | inf : Renders (.obj "float" "inf") "Infinity".toList
  | negInf : Renders (.obj "float" "-inf") "-Infinity".toList
  | str {t s : List Char} : RendersChars t s → Renders (.str (String.ofList t)) ('"' :: s ++ ['"'])
  | emptyList {w : List Char} : Ws w → Renders (.list []) ('[' :: w ++ [']'])
  | list {l : List Data} {w s : List Char} : Ws w → RendersItems l s → Renders (.list l) ('[' :: w ++ s ++ [']'])
  | emptyDict {w : List Char} : Ws w → Renders (.dict []) ('{' :: w ++ ['}'])
  | dict {ps : List (String × Data)} {w s : List Char} : Ws w → RendersPairs ps s →
      Renders (.dict (Dict.update [] (ps.map (fun p => (PyKey.str p.1, p.2))))) ('{' :: w ++ s ++ ['}'])

/-- The items of a list, each with the white space which follows it. -/
inductive RendersItems : List Data → List Char → Prop
  | last {x : Data} {s w : List Char} : Renders x s → Ws w → RendersItems [x] (s ++ w)
  | cons {x : Data} {l : List Data} {s w w' t : List Char} : Renders x s → Ws w → Ws w' → RendersItems l t →
      RendersItems (x :: l) (s ++ w ++ ',' :: w' ++ t)

/-- The fields of an object, each with the white space which follows it. -/
inductive RendersPairs : List (String × Data) → List Char → Prop
  | last {k : List Char} {x : Data} {r s w w' w'' : List Char} : RendersChars k r → Ws w → Ws w' → Renders x s →
      Ws w'' → RendersPairs [(String.ofList k, x)] ('"' :: r ++ '"' :: w ++ ':' :: w' ++ s ++ w'')
  | cons {k : List Char} {x : Data} {l : List (String × Data)} {r s w w' w'' v t : List Char} : RendersChars k r →
      Ws w → Ws w' → Renders x s → Ws w'' → Ws v → RendersPairs l t →
      RendersPairs ((String.ofList k, x) :: l) ('"' :: r ++ '"' :: w ++ ':' :: w' ++ s ++ w'' ++ ',' :: v ++ t)

end

/-- `s` is a JSON text of `x`, with white space around it. -/
def IsText (x : Data) (s : String) : Prop :=
  ∃ w t w', s.toList = w ++ t ++ w' ∧ Ws w ∧ Renders x t ∧ Ws w'

/-! ### Values which can be written -/

/-- The text of a float, given its `repr`: only the special values have another name in JSON. -/
def floatText (r : String) : String :=
  match [("nan", "NaN"), ("inf", "Infinity"), ("-inf", "-Infinity")].lookup r with
  | some t => t
  | none => r

/-- The `repr` of a float. -/
def FloatRepr (r : String) : Prop :=
  r ∈ ["nan", "inf", "-inf"] ∨
    ∃ (neg : Bool) (s f e : List Char), r.toList = minus neg ++ s ++ f ++ e ∧ NatText s ∧ (f = [] ∨ FracText f) ∧
      (e = [] ∨ ExpText e) ∧ ¬ (f = [] ∧ e = [])

/-- A name which can be written: a string, a number, a boolean or `None`. -/
def WritableName : PyKey → Prop
  | .other ty _ => ty = "float" ∨ ty = "NoneType"
  | _ => True

/-- A value which can be written: made of `None`, booleans, numbers, strings, lists and dicts. -/
inductive Serializable : Data → Prop
  | none : Serializable .none
  | bool (b : Bool) : Serializable (.bool b)
  | int (i : Int) : Serializable (.int i)
  | str (s : String) : Serializable (.str s)
  | float (r : String) : Serializable (.obj "float" r)
  | list {l : List Data} : (∀ x ∈ l, Serializable x) → Serializable (.list l)
  | dict {d : List (PyKey × Data)} : (∀ p ∈ d, WritableName p.1) → (∀ p ∈ d, Serializable p.2) →
      Serializable (.dict d)

/-- The floats in a value are represented by a `repr` of a float: true of every value in Python. -/
inductive ProperFloats : Data → Prop
  | none : ProperFloats .none
  | bool (b : Bool) : ProperFloats (.bool b)
  | int (i : Int) : ProperFloats (.int i)
  | str (s : String) : ProperFloats (.str s)
  | obj {ty r : String} : (ty = "float" → FloatRepr r) → ProperFloats (.obj ty r)
  | list {l : List Data} : (∀ x ∈ l, ProperFloats x) → ProperFloats (.list l)
  | dict {d : List (PyKey × Data)} : (∀ p ∈ d, ProperFloats p.2) → ProperFloats (.dict d)

/-- A name as written. -/
def jsonName : PyKey → String
  | .str s => s
  | .int i => toString i
  | .bool b => if b then "true" else "false"
  | .other ty r => if ty = "float" then floatText r else "null"

mutual

/-- What a value becomes when written and read: the names of dicts are strings.  When two names become the same, the
last value counts, at the place of the first. -/
def image : Data → Data
  | .none => .none
  | .bool b => .bool b
  | .int i => .int i
  | .str s => .str s
  | .obj ty r => .obj ty r
  | .list l => .list (imageList l)
  | .dict d => .dict (Dict.update [] (imagePairs d))

/-- The items of a list. -/
def imageList : List Data → List Data
  | [] => []
  | x :: l => image x :: imageList l

/-- The fields of a dict. -/
def imagePairs : List (PyKey × Data) → List (PyKey × Data)
  | [] => []
  | (k, x) :: d => (.str (jsonName k), image x) :: imagePairs d

end

/-- A value which writing and reading leaves as it is: the names of its dicts are strings. -/
inductive Plain : Data → Prop
  | none : Plain .none
  | bool (b : Bool) : Plain (.bool b)
  | int (i : Int) : Plain (.int i)
  | str (s : String) : Plain (.str s)
  | obj (ty r : String) : Plain (.obj ty r)
  | list {l : List Data} : (∀ x ∈ l, Plain x) → Plain (.list l)
  | dict {d : List (PyKey × Data)} : (Dict.keys d).Nodup → (∀ p ∈ d, ∃ s, p.1 = .str s) →
      (∀ p ∈ d, Plain p.2) → Plain (.dict d)

end Json
end Pelote
