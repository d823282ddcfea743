import Verif.Model.Tabular
import Mathlib.Data.Rat.Defs

/-! Model of `table_to_bipartite_graph` (pelote/tabular_to_graph.py:54-174) on cells that Python may take for equal although they are
different objects, and on missing values: what a dict sees of two keys is `x is y or x == y`.

Simplifications: `disjoint_keys` is `False`, no data is collected for the nodes, and each row has both values. -/
namespace Pelote

/-- A cell of a table.  A number (`int`, `bool`, `float`…) is its value and its `str`; infinities are apart; a NaN is an object, as is
a value that is only equal to itself, with its `str`. -/
inductive Cell
  | num (value : ℚ) (text : String)
  | inf (negative : Bool)
  | nan (object : Nat)
  | none
  | str (s : String)
  | obj (object : Nat) (text : String)
  | unhashable
  deriving DecidableEq

namespace Cell

/-- `x is y or x == y`, the comparison of dict keys, and of the items of tuples (CPython, Objects/dictobject.c, Objects/tupleobject.c,
`PyObject_RichCompareBool`).  A NaN is not equal to itself, but is itself. -/
def same : Cell → Cell → Bool
  | num a _, num b _ => decide (a = b)
  | inf s, inf t => decide (s = t)
  | nan i, nan j => decide (i = j)
  | none, none => true
  | str s, str t => decide (s = t)
  | obj i _, obj j _ => decide (i = j)
  | _, _ => false

/-- `str(x)`. -/
def text : Cell → String
  | num _ t => t
  | inf false => "inf"
  | inf true => "-inf"
  | nan _ => "nan"
  | none => "None"
  | str s => s
  | obj _ t => t
  | unhashable => ""

/-- Whether the cell can be a dict key. -/
def hashable : Cell → Bool
  | unhashable => false
  | _ => true

end Cell

/-- `IncrementalIdRegister` (pelote/classes/incremental_id_register.py:7-30), the keys of which are pairs of a column and a cell. -/
structure CellRegister where
  counter : Nat
  index : List ((PyKey × Cell) × Nat)

/-- `__getitem__(item)` (pelote/classes/incremental_id_register.py:18-26): the id and the register after the call. -/
def CellRegister.lookup (r : CellRegister) (col : PyKey) (x : Cell) : Nat × CellRegister :=
  match r.index.find? (fun e => decide (e.1.1 = col) && e.1.2.same x) with
  | some e => (e.2, r)
  | none => (r.counter, ⟨r.counter + 1, r.index ++ [((col, x), r.counter)]⟩)

/-- The keyword arguments of `table_to_bipartite_graph` used here. -/
structure CellOptions where
  firstCol : PyKey
  secondCol : PyKey
  partAttr : String
  weightAttr : String
  firstName : Option PyKey
  secondName : Option PyKey

/-- `{node_part_attr: name, "label": str(label)}` (pelote/tabular_to_graph.py:153, 161). -/
def cellAttributes (partAttr : String) (name : PyKey) (x : Cell) : Attrs Data :=
  Dict.set [(.str partAttr, Data.ofKey name)] (.str "label") (.str x.text)

/-- `for i, row in enumerate(table): …` (pelote/tabular_to_graph.py:134-172). -/
def cellLoop (o : CellOptions) : List (Cell × Cell) → CellRegister → Graph PyKey Data → Py (Graph PyKey Data)
  | [], _, g => .ok g
  | (x, y) :: rest, reg, g =>
    if !x.hashable then .error (.typeError "unhashable type")
    else if !y.hashable then .error (.typeError "unhashable type")
    else
      let r1 := reg.lookup o.firstCol x
      let r2 := r1.2.lookup o.secondCol y
      match addPartNode g (.int r1.1) (.ok (cellAttributes o.partAttr (o.firstName.getD o.firstCol) x)) with
      | .error e => .error e
      | .ok g =>
        match addPartNode g (.int r2.1) (.ok (cellAttributes o.partAttr (o.secondName.getD o.secondCol) y)) with
        | .error e => .error e
        | .ok g =>
          match countEdge g (.int r1.1) (.int r2.1) o.weightAttr with
          | .error e => .error e
          | .ok g => cellLoop o rest r2.2 g

/-- `table_to_bipartite_graph(table, first_part_col, second_part_col, …)` (pelote/tabular_to_graph.py:54-174), the two cells of each row
being given. -/
def cellTable (rows : List (Cell × Cell)) (o : CellOptions) : Py (Graph PyKey Data) :=
  if o.firstCol = o.secondCol then .error (.typeError "first_part_col and second_part_col must be different")
  else cellLoop o rows ⟨0, []⟩ (Graph.empty false false [])

end Pelote
