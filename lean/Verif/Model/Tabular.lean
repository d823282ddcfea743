import Verif.Model.Graph
import Verif.Model.Register
import Verif.Py.Data

/-! Model of `pelote/tabular_to_graph.py` and of `iterator_from_dataframe` (pelote/utils.py).

Tables are given as the list of their rows, or as a DataFrame, i.e. its columns by name; a DataFrame is only
recognised when pandas is available, which is assumed here.  A table which raises while being iterated and
columns of the same name are not modelled.  A label used as a node is checked (hashable, not `None`) before the
row data is collected, so that when both are wrong the error may be the other one. -/
namespace Pelote

/-! ### Tables -/

/-- A row of a table: a dict, or a list (or tuple). -/
inductive Row
  | dict (d : Dict PyKey Data)
  | list (l : List Data)

/-- `l[i]` for a list, with negative indices counted from the end. -/
def listItem (l : List Data) (i : Int) : Py Data :=
  let j := if i < 0 then i + l.length else i
  if j < 0 then .error .indexError
  else
    match l[j.toNat]? with
    | some x => .ok x
    | none => .error .indexError

/-- `row[col]`. -/
def Row.item : Row → PyKey → Py Data
  | .dict d, col => d.getItem col
  | .list l, .int i => listItem l i
  | .list l, .bool b => listItem l (if b then 1 else 0)
  | .list _, _ => .error (.typeError "list indices must be integers or slices")

/-- `row.get(col)`: lists have no such method. -/
def Row.get : Row → PyKey → Py Data
  | .dict d, col => .ok ((d.get? col).getD .none)
  | .list _, _ => .error .attributeError

/-- A table. -/
inductive Table
  | rows (l : List Row)
  | frame (columns : Dict PyKey (List Data))

/-- `table[col].values for col in columns` (pelote/utils.py:44). -/
def frameColumns (f : Dict PyKey (List Data)) : List PyKey → Py (List (List Data))
  | [] => .ok []
  | col :: cols =>
    match f.getItem col with
    | .error e => .error e
    | .ok values =>
      match frameColumns f cols with
      | .error e => .error e
      | .ok rest => .ok (values :: rest)

/-- `zip(*lists)`: as many tuples as the shortest list has elements, none for no list. -/
def zipLists : List (List Data) → List (List Data)
  | [] => []
  | l :: ls =>
    (List.range (ls.foldl (fun n l => min n l.length) l.length)).map (fun i => (l :: ls).filterMap (fun l => l[i]?))

/-- `iterator_from_dataframe(table, columns)` (pelote/utils.py:38-47). -/
def iteratorFromDataframe (table : Table) (columns : Option (List PyKey)) : Py (List Row) :=
  match table with
  | .rows l => .ok l
  | .frame f =>
    let columns := columns.getD f.keys
    match frameColumns f columns with
    | .error e => .error e
    | .ok values => .ok ((zipLists values).map (fun row => .dict (Dict.update [] (columns.zip row))))

/-! ### Row data -/

/-- The ways to say which data to collect; `other` is neither callable, nor a mapping, nor a sequence. -/
inductive RowSpec
  | func (f : Row → Py Data)
  | mapping (m : Dict PyKey PyKey)
  | seq (l : List PyKey)
  | other (truthy : Bool)

/-- `bool(spec)`, `None` being false. -/
def RowSpec.truthy : Option RowSpec → Bool
  | none => false
  | some (.func _) => true
  | some (.mapping m) => !m.isEmpty
  | some (.seq l) => !l.isEmpty
  | some (.other t) => t

/-- `for col_name, attr_name in spec.items(): …` (pelote/tabular_to_graph.py:30-34, 41-45). -/
def collectColumns (row : Row) : List (PyKey × PyKey) → Attrs Data → Py (Attrs Data)
  | [], attr => .ok attr
  | (col, name) :: rest, attr =>
    match row.get col with
    | .error e => .error e
    | .ok .none => collectColumns row rest attr
    | .ok v => collectColumns row rest (attr.set name v)

/-- `collect_row_data(spec, row)` (pelote/tabular_to_graph.py:15-51). -/
def collectRowData (spec : RowSpec) (row : Row) : Py (Attrs Data) :=
  match spec with
  | .func f =>
    match f row with
    | .error e => .error e
    | .ok (.dict d) => .ok d
    | .ok _ => .error (.typeError "row data collection should return a dict")
  | .mapping m => collectColumns row m []
  | .seq l => collectColumns row (l.map (fun c => (c, c))) []
  | .other _ => .error (.typeError "could not collect part data. expecting a callable, a mapping or a sequence")

/-! ### Edge weights -/

/-- `x + 1`; other values (floats) cannot occur below. -/
def Data.plusOne : Data → Py Data
  | .int i => .ok (.int (i + 1))
  | .bool b => .ok (.int (if b then 2 else 1))
  | _ => .error (.typeError "unsupported operand type")

/-- `graph[u][v][attr] += 1` in a graph which is not a multigraph (pelote/tabular_to_graph.py:169, 198). -/
def incrementEdge (g : Graph PyKey Data) (u v : PyKey) (attr : String) : Py (Graph PyKey Data) :=
  match (g.keydict? u v).bind (fun d => d.get? (.int 0)) with
  | none => .error .keyError
  | some a =>
    match a.getItem (.str attr) with
    | .error e => .error e
    | .ok x =>
      match x.plusOne with
      | .error e => .error e
      | .ok y =>
        .ok { g with
          links := g.links.map (fun l =>
            if samePair g.directed l.u l.v u v then { l with data := l.data.set (.int 0) (a.set (.str attr) y) }
            else l) }

/-! ### Bipartite graphs -/

/-- The keyword arguments of `table_to_bipartite_graph` (pelote/tabular_to_graph.py:54-66). -/
structure BipartiteOptions where
  firstCol : PyKey
  secondCol : PyKey
  nodePartAttr : String
  edgeWeightAttr : String
  firstData : Option RowSpec
  secondData : Option RowSpec
  firstName : Option PyKey
  secondName : Option PyKey
  disjointKeys : Bool

/-- `label1 = row[first_part_col]; label2 = row[second_part_col]`, `IndexError` and `KeyError` being turned into
`TypeError` (pelote/tabular_to_graph.py:135-142). -/
def rowLabels (o : BipartiteOptions) (row : Row) : Py (Data × Data) :=
  match row.item o.firstCol with
  | .error .indexError => .error (.typeError "row lacks a value")
  | .error .keyError => .error (.typeError "row lacks a value")
  | .error e => .error e
  | .ok label1 =>
    match row.item o.secondCol with
    | .error .indexError => .error (.typeError "row lacks a value")
    | .error .keyError => .error (.typeError "row lacks a value")
    | .error e => .error e
    | .ok label2 => .ok (label1, label2)

/-- `node_attr = {…}; if data: node_attr.update(collect_row_data(data, row))` (pelote/tabular_to_graph.py:153-156,
161-164). -/
def partAttributes (partAttr : String) (name label : PyKey) (data : Option RowSpec) (row : Row) : Py (Attrs Data) :=
  let attr : Attrs Data := Dict.set [(.str partAttr, Data.ofKey name)] (.str "label") (.str label.toStr)
  match data with
  | none => .ok attr
  | some spec =>
    if RowSpec.truthy data then
      match collectRowData spec row with
      | .error e => .error e
      | .ok d => .ok (attr.update d)
    else .ok attr

/-- `if n not in graph: … graph.add_node(n, **node_attr)` (pelote/tabular_to_graph.py:152-158, 160-166). -/
def addPartNode (g : Graph PyKey Data) (n : PyKey) (attr : Py (Attrs Data)) : Py (Graph PyKey Data) :=
  if g.hasNode n then .ok g
  else
    match attr with
    | .error e => .error e
    | .ok attr => g.addNode n attr

/-- `if graph.has_edge(n1, n2): … += 1 else: …` (pelote/tabular_to_graph.py:168-172). -/
def countEdge (g : Graph PyKey Data) (n1 n2 : PyKey) (attr : String) : Py (Graph PyKey Data) :=
  if g.hasEdge n1 n2 then incrementEdge g n1 n2 attr
  else g.addEdge n1 n2 [(.str attr, .int 1)]

/-- Lines 152-172 of pelote/tabular_to_graph.py: one row, once the nodes are known. -/
def bipartiteRow (o : BipartiteOptions) (row : Row) (label1 label2 n1 n2 : PyKey) (g : Graph PyKey Data) :
    Py (Graph PyKey Data) :=
  match addPartNode g n1 (partAttributes o.nodePartAttr (o.firstName.getD o.firstCol) label1 o.firstData row) with
  | .error e => .error e
  | .ok g =>
    match addPartNode g n2 (partAttributes o.nodePartAttr (o.secondName.getD o.secondCol) label2 o.secondData row) with
    | .error e => .error e
    | .ok g => countEdge g n1 n2 o.edgeWeightAttr

/-- `for i, row in enumerate(table): …` (pelote/tabular_to_graph.py:134-172). -/
def bipartiteLoop (o : BipartiteOptions) :
    List Row → IdRegister (PyKey × PyKey) → Graph PyKey Data → Py (Graph PyKey Data)
  | [], _, g => .ok g
  | row :: rest, reg, g =>
    match rowLabels o row with
    | .error e => .error e
    | .ok (label1, label2) =>
      if o.disjointKeys then
        match label1.asNode with
        | .error e => .error e
        | .ok n1 =>
          match label2.asNode with
          | .error e => .error e
          | .ok n2 =>
            match bipartiteRow o row n1 n2 n1 n2 g with
            | .error e => .error e
            | .ok g => bipartiteLoop o rest reg g
      else
        match label1.asHashable with
        | .error e => .error e
        | .ok l1 =>
          match label2.asHashable with
          | .error e => .error e
          | .ok l2 =>
            let r1 := reg.lookup (o.firstCol, l1)
            let r2 := r1.2.lookup (o.secondCol, l2)
            match bipartiteRow o row l1 l2 (.int r1.1) (.int r2.1) g with
            | .error e => .error e
            | .ok g => bipartiteLoop o rest r2.2 g

/-- `table_to_bipartite_graph(table, first_part_col, second_part_col, …)` (pelote/tabular_to_graph.py:54-174). -/
def tableToBipartiteGraph (table : Table) (o : BipartiteOptions) : Py (Graph PyKey Data) :=
  if o.firstCol = o.secondCol then .error (.typeError "first_part_col and second_part_col must be different")
  else
    match iteratorFromDataframe table none with
    | .error e => .error e
    | .ok rows => bipartiteLoop o rows IdRegister.init (Graph.empty false false [])

/-! ### Tables of edges and nodes -/

/-- `{str(attr): row[attr] for attr in columns}` (pelote/tabular_to_graph.py:194, 362). -/
def rowData (row : Row) : List PyKey → Attrs Data → Py (Attrs Data)
  | [], d => .ok d
  | col :: cols, d =>
    match row.item col with
    | .error e => .error e
    | .ok v => rowData row cols (d.set (.str col.toStr) v)

/-- `check_node_exists(graph, n)` (pelote/graph.py:39-43) for any value: `None` and unhashable values are in no
graph. -/
def checkValueExists (g : Graph PyKey Data) (n : Data) : Py Unit :=
  match n.asNode with
  | .error _ => .error .keyError
  | .ok n =>
    match checkNodeExists g n with
    | .error e => .error e
    | .ok _ => .ok ()

/-- The keyword arguments common to `edges_table_to_graph` and `tables_to_graph`
(pelote/tabular_to_graph.py:207-216, 272-285). -/
structure EdgeOptions where
  sourceCol : PyKey
  targetCol : PyKey
  edgeData : List PyKey
  countRows : Bool
  weightAttr : String
  addMissing : Bool

/-- Lines 190-192 of pelote/tabular_to_graph.py. -/
def checkEnds (o : EdgeOptions) (g : Graph PyKey Data) (n1 n2 : Data) : Py Unit :=
  if o.addMissing then .ok ()
  else
    match checkValueExists g n1 with
    | .error e => .error e
    | .ok () => checkValueExists g n2

/-- Lines 196-202 of pelote/tabular_to_graph.py. -/
def addTableEdge (o : EdgeOptions) (g : Graph PyKey Data) (n1 n2 : PyKey) (data : Attrs Data) :
    Py (Graph PyKey Data) :=
  if o.countRows then
    if g.hasEdge n1 n2 then incrementEdge g n1 n2 o.weightAttr
    else g.addEdge n1 n2 (data.set (.str o.weightAttr) (.int 1))
  else g.addEdge n1 n2 data

/-- `_edges_table_to_graph(graph, edge_table, …)` (pelote/tabular_to_graph.py:177-204). -/
def edgesLoop (o : EdgeOptions) : List Row → Graph PyKey Data → Py (Graph PyKey Data)
  | [], g => .ok g
  | row :: rest, g =>
    match row.item o.sourceCol with
    | .error e => .error e
    | .ok v1 =>
      match row.item o.targetCol with
      | .error e => .error e
      | .ok v2 =>
        match checkEnds o g v1 v2 with
        | .error e => .error e
        | .ok () =>
          match rowData row o.edgeData [] with
          | .error e => .error e
          | .ok data =>
            match v1.asNode with
            | .error e => .error e
            | .ok n1 =>
              match v2.asNode with
              | .error e => .error e
              | .ok n2 =>
                match addTableEdge o g n1 n2 data with
                | .error e => .error e
                | .ok g => edgesLoop o rest g

/-- `edges_table_to_graph(edge_table, …)` (pelote/tabular_to_graph.py:207-269). -/
def edgesTableToGraph (table : Table) (o : EdgeOptions) (directed : Bool) : Py (Graph PyKey Data) :=
  match iteratorFromDataframe table (some ([o.sourceCol, o.targetCol] ++ o.edgeData)) with
  | .error e => .error e
  | .ok rows => edgesLoop { o with addMissing := true } rows (Graph.empty directed false [])

/-- `for row in nodes_table: …` (pelote/tabular_to_graph.py:361-362). -/
def nodesLoop (nodeCol : PyKey) (nodeData : List PyKey) : List Row → Graph PyKey Data → Py (Graph PyKey Data)
  | [], g => .ok g
  | row :: rest, g =>
    match row.item nodeCol with
    | .error e => .error e
    | .ok v =>
      match rowData row nodeData [] with
      | .error e => .error e
      | .ok data =>
        match v.asNode with
        | .error e => .error e
        | .ok n =>
          match g.addNode n data with
          | .error e => .error e
          | .ok g => nodesLoop nodeCol nodeData rest g

/-- `tables_to_graph(nodes_table, edges_table, …)` (pelote/tabular_to_graph.py:272-373). -/
def tablesToGraph (nodes edges : Table) (nodeCol : PyKey) (nodeData : List PyKey) (o : EdgeOptions)
    (directed : Bool) : Py (Graph PyKey Data) :=
  match iteratorFromDataframe nodes (some (nodeCol :: nodeData)) with
  | .error e => .error e
  | .ok nodeRows =>
    match iteratorFromDataframe edges (some ([o.sourceCol, o.targetCol] ++ o.edgeData)) with
    | .error e => .error e
    | .ok edgeRows =>
      match nodesLoop nodeCol nodeData nodeRows (Graph.empty directed false []) with
      | .error e => .error e
      | .ok g => edgesLoop o edgeRows g

end Pelote
