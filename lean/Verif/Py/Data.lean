import Verif.Nx.Graph

/-! Python data as read from (or written to) JSON: `None`, booleans, integers, strings, lists and dicts.
Any other value (a float, a set, …) is an opaque hashable object: true in a boolean context, neither
subscriptable nor iterable. -/
namespace Pelote

/-- A Python value. -/
inductive Data
  | none
  | bool (b : Bool)
  | int (i : Int)
  | str (s : String)
  | list (l : List Data)
  | dict (d : List (PyKey × Data))
  | obj (ty repr : String)

namespace Data

/-- `bool(x)`. -/
def truthy : Data → Bool
  | none => false
  | bool b => b
  | int i => decide (i ≠ 0)
  | str s => decide (s ≠ "")
  | list l => !l.isEmpty
  | dict d => !d.isEmpty
  | obj _ _ => true

/-- `x == s` for a string `s`. -/
def eqStr : Data → String → Bool
  | str t, s => decide (t = s)
  | _, _ => false

/-- `x == b` for a boolean `b`: integers compare with booleans as numbers. -/
def eqBool : Data → Bool → Bool
  | bool a, b => decide (a = b)
  | int i, b => decide (i = if b then 1 else 0)
  | _, _ => false

/-- `x[name]` for a string `name`. -/
def item : Data → String → Py Data
  | dict d, k => Dict.getItem d (.str k)
  | _, _ => .error (.typeError "not subscriptable by a string")

/-- `x[0]`. -/
def first : Data → Py Data
  | list (x :: _) => .ok x
  | list [] => .error .indexError
  | dict d => Dict.getItem d (.int 0)
  | str s => match s.toList with
    | c :: _ => .ok (str (String.singleton c))
    | [] => .error .indexError
  | _ => .error (.typeError "not subscriptable")

/-- `x.get(name, default)`: only dicts have this method. -/
def getD : Data → String → Data → Py Data
  | dict d, k, default => .ok ((Dict.get? d (.str k)).getD default)
  | _, _, _ => .error .attributeError

/-- A key of a dict, as a value. -/
def ofKey : PyKey → Data
  | .int i => int i
  | .str s => str s
  | .bool b => bool b
  | .other ty r => obj ty r

/-- `list(x)`. -/
def iter : Data → Py (List Data)
  | list l => .ok l
  | dict d => .ok (d.map (fun p => ofKey p.1))
  | str s => .ok (s.toList.map (fun c => str (String.singleton c)))
  | _ => .error (.typeError "not iterable")

/-- The value as a dict key, if hashable. -/
def asHashable : Data → Py PyKey
  | bool b => .ok (.bool b)
  | int i => .ok (.int i)
  | str s => .ok (.str s)
  | obj ty r => .ok (.other ty r)
  | none => .ok (.other "NoneType" "None")
  | list _ => .error (.typeError "unhashable type")
  | dict _ => .error (.typeError "unhashable type")

/-- The value as a graph node: networkx refuses `None` (recent versions; older ones may take it as any other key) and
unhashable values. -/
def asNode : Data → Py PyKey
  | none => .error .valueError
  | x => x.asHashable

/-- `f(**x)`. -/
def asKwargs : Data → Py (Attrs Data)
  | dict d => .ok d
  | _ => .error (.typeError "argument after ** must be a mapping")

end Data

instance : AttrVal Data where
  asKey
    | .none => .ok none
    | x => match x.asHashable with
      | .error e => .error e
      | .ok k => .ok (some k)

end Pelote
