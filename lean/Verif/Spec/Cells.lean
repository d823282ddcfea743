import Verif.Model.Cells

/-! Specification of the graph of a table whose cells may be equal without being the same. -/
namespace Pelote

/-- The text of the first cell of a column that a dict takes for `x`. -/
def firstText (column : List Cell) (x : Cell) : Option String := (column.find? (fun y => y.same x)).map Cell.text

/-- The number of rows whose cells a dict takes for `x` and `y`. -/
def rowsWith (rows : List (Cell × Cell)) (x y : Cell) : Nat := rows.countP (fun c => c.1.same x && c.2.same y)

end Pelote
