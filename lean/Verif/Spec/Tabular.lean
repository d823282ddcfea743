import Verif.Model.Tabular
import Verif.Spec.Register
import Verif.Spec.Graph
import Mathlib.Data.List.Forall2

/-! Specification of the conversions from tables.

`Row.item` and `Row.get` (indexing a row as Python does), `Data.asHashable` and `Data.asNode` (a value as a dict key
or as a node) and the options are shared with the model. -/
namespace Pelote

/-! ### Bipartite graphs -/

/-- The row has the value `a` in the first column and `b` in the second one, both usable as keys. -/
structure RowCells (o : BipartiteOptions) (row : Row) (c : PyKey × PyKey) : Prop where
  first : ∃ v, row.item o.firstCol = .ok v ∧ (if o.disjointKeys then v.asNode else v.asHashable) = .ok c.1
  second : ∃ v, row.item o.secondCol = .ok v ∧ (if o.disjointKeys then v.asNode else v.asHashable) = .ok c.2

/-- The values met when reading the table row by row, each with its column. -/
def tagged (o : BipartiteOptions) (cells : List (PyKey × PyKey)) : List (PyKey × PyKey) :=
  cells.flatMap (fun c => [(o.firstCol, c.1), (o.secondCol, c.2)])

/-- The rank of an element in a list. -/
def rankIn {α : Type} [DecidableEq α] (l : List α) (a : α) : Nat := l.idxOf a

/-- The node standing for the value `v` of the column `col`: the value itself when keys are declared disjoint, else
its rank among the distinct values (with their columns) in order of first appearance. -/
def partNode (o : BipartiteOptions) (cells : List (PyKey × PyKey)) (col v : PyKey) : PyKey :=
  if o.disjointKeys then v else .int (rankIn ((tagged o cells).foldl showKey []) (col, v))

/-- Keys are not wrongly declared disjoint. -/
def Separate (o : BipartiteOptions) (cells : List (PyKey × PyKey)) : Prop :=
  o.disjointKeys = true → ∀ c ∈ cells, ∀ d ∈ cells, c.1 ≠ d.2

/-- The value of a weight attribute holding an integer. -/
def intWeight (w : String) (a : Attrs Data) : Int :=
  match a.get? (.str w) with
  | some (.int i) => i
  | _ => 0

/-- The function given, if any, returns Python dicts, without duplicate keys. -/
def FuncDicts (data : Option RowSpec) : Prop :=
  ∀ f, data = some (.func f) → ∀ (row : Row) (d : Dict PyKey Data), f row = .ok (.dict d) → d.keys.Nodup

/-- `d` is the data of a row asked for: the dict returned by the function, or the values which are not `None` under
the given names. -/
def CollectedData (data : Option RowSpec) (row : Row) (d : Attrs Data) : Prop :=
  match data with
  | none => d = []
  | some (.func f) => f row = .ok (.dict d)
  | some (.mapping m) => ∀ k, d.get? k =
      ((m.filter (fun p => decide (p.2 = k))).filterMap (fun p => notNone row p.1)).getLast?
  | some (.seq l) => ∀ k, d.get? k = if k ∈ l then notNone row k else none
  | some (.other t) => t = false ∧ d = []
where
  /-- The value of a column, unless missing or `None`. -/
  notNone (row : Row) (col : PyKey) : Option Data :=
    match row.get col with
    | .ok .none => none
    | .ok v => some v
    | .error _ => none

/-! ### Tables of nodes and edges -/

/-- The value of the column `col` of the row can be used as the node `n`. -/
def RowNode (col : PyKey) (row : Row) (n : PyKey) : Prop :=
  ∃ v, row.item col = .ok v ∧ v.asNode = .ok n

/-- The row describes an edge from `e.1` to `e.2`. -/
def RowEnds (o : EdgeOptions) (row : Row) (e : PyKey × PyKey) : Prop :=
  RowNode o.sourceCol row e.1 ∧ RowNode o.targetCol row e.2

/-- The row has all those columns. -/
def HasColumns (cols : List PyKey) (row : Row) : Prop := ∀ c ∈ cols, ∃ v, row.item c = .ok v

/-- The value of the last column whose name, as a string, is `k`. -/
def columnValue (cols : List PyKey) (row : Row) (k : PyKey) : Option Data :=
  ((cols.filter (fun c => decide (PyKey.str c.toStr = k))).getLast?).bind (fun c => (row.item c).toOption)

/-- The names of the columns can be passed as keyword arguments of `add_node`. -/
def NodeColumnsSafe (cols : List PyKey) : Prop := ∀ c ∈ cols, c.toStr ∉ ["self", "node_for_adding"]

/-- The names of the columns (and of the weight, when counting) can be passed as keyword arguments of `add_edge`. -/
def EdgeColumnsSafe (o : EdgeOptions) : Prop :=
  (∀ c ∈ o.edgeData, c.toStr ∉ ["self", "u_of_edge", "v_of_edge"]) ∧
    (o.countRows = true → o.weightAttr ∉ ["self", "u_of_edge", "v_of_edge"])

/-- Two pairs are the ends of the same edge. -/
def SameEnds (directed : Bool) (e f : PyKey × PyKey) : Prop :=
  e = f ∨ (directed = false ∧ e = (f.2, f.1))

instance (directed : Bool) (e f : PyKey × PyKey) : Decidable (SameEnds directed e f) := by
  unfold SameEnds; infer_instance

end Pelote
