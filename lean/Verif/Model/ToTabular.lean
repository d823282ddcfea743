import Verif.Model.Tabular

/-! Model of `pelote/graph_to_tabular.py`.

A DataFrame built from dicts has the union of their keys as columns, in order of first appearance, and NaN where a dict
lacks the column; it has no column when there are no dicts.  pandas then converts columns to a common type (integers
to floats when NaN occurs, say) and values to numpy ones: this is not modelled, values are kept as they are.
`check_graph` is not modelled. -/
namespace Pelote

/-- The value pandas puts where a record lacks a column. -/
def nan : Data := .obj "float" "nan"

/-- A DataFrame: its columns by name, and its index if it was given. -/
structure Frame where
  columns : Dict PyKey (List Data)
  index : Option (List PyKey)

/-- The keys of the records not among those already met, in order. -/
def newColumns (seen : List PyKey) : List PyKey → List PyKey
  | [] => seen
  | k :: ks => newColumns (if k ∈ seen then seen else seen ++ [k]) ks

/-- The columns of a DataFrame built from dicts. -/
def recordColumns (records : List (Attrs Data)) : List PyKey :=
  records.foldl (fun seen r => newColumns seen r.keys) []

/-- `pd.DataFrame(data=records)`. -/
def dataFrame (records : List (Attrs Data)) : Dict PyKey (List Data) :=
  (recordColumns records).map (fun c => (c, records.map (fun r => (r.get? c).getD nan)))

/-- `r = {node_key_col: n}; r.update(a)` (pelote/graph_to_tabular.py:48-49). -/
def nodeRecord (keyCol : PyKey) (n : PyKey) (a : Attrs Data) : Attrs Data :=
  Dict.update [(keyCol, Data.ofKey n)] a

/-- `graph_to_nodes_dataframe(graph, node_key_col)` (pelote/graph_to_tabular.py:13-52), pandas being available or
not. -/
def graphToNodesDataframe (available : Bool) (g : Graph PyKey Data) (keyCol : Option PyKey) : Py Frame :=
  if available then
    match keyCol with
    | none => .ok ⟨dataFrame (g.node.map Prod.snd), some g.nodes⟩
    | some c => .ok ⟨dataFrame (g.node.map (fun p => nodeRecord c p.1 p.2)), none⟩
  else .error .missingPandas

/-- The ways to ask for node data; `other` is not iterable. -/
inductive NodeDataSpec
  | mapping (m : Dict PyKey PyKey)
  | iterable (l : List PyKey)
  | other

/-- Lines 89-96 and 98-105 of pelote/graph_to_tabular.py. -/
def NodeDataSpec.columns : Option NodeDataSpec → Py (Option (Dict PyKey PyKey))
  | none => .ok none
  | some (.mapping m) => .ok (some m)
  | some (.iterable l) => .ok (some (Dict.update [] (l.map (fun k => (k, k)))))
  | some .other => .error (.typeError "node data should be an iterable of keys or a mapping of keys")

/-- `for attr_name, col_name in node_data.items(): r[col_name] = node_data.get(attr_name)`
(pelote/graph_to_tabular.py:112-116, 118-122). -/
def addNodeData (r : Attrs Data) (a : Attrs Data) : Option (Dict PyKey PyKey) → Attrs Data
  | none => r
  | some m => m.foldl (fun r p => r.set p.2 ((a.get? p.1).getD .none)) r

/-- The record of an edge (pelote/graph_to_tabular.py:109-122). -/
def edgeRecord (sourceCol targetCol : PyKey) (s t : Option (Dict PyKey PyKey)) (g : Graph PyKey Data)
    (e : PyKey × PyKey × Attrs Data) : Attrs Data :=
  let r := (Dict.set [(sourceCol, Data.ofKey e.1)] targetCol (Data.ofKey e.2.1)).update e.2.2
  let r := addNodeData r ((g.node.get? e.1).getD []) s
  addNodeData r ((g.node.get? e.2.1).getD []) t

/-- `graph_to_edges_dataframe(graph, …)` (pelote/graph_to_tabular.py:55-126). -/
def graphToEdgesDataframe (available : Bool) (g : Graph PyKey Data) (sourceCol targetCol : PyKey)
    (sourceData targetData : Option NodeDataSpec) : Py Frame :=
  if available then
    match NodeDataSpec.columns sourceData with
    | .error e => .error e
    | .ok s =>
      match NodeDataSpec.columns targetData with
      | .error e => .error e
      | .ok t => .ok ⟨dataFrame (g.edgesData.map (edgeRecord sourceCol targetCol s t g)), none⟩
  else .error .missingPandas

/-- `graph_to_dataframes(graph, …)` (pelote/graph_to_tabular.py:129-172). -/
def graphToDataframes (available : Bool) (g : Graph PyKey Data) (keyCol : Option PyKey) (sourceCol targetCol : PyKey)
    (sourceData targetData : Option NodeDataSpec) : Py (Frame × Frame) :=
  match graphToNodesDataframe available g keyCol with
  | .error e => .error e
  | .ok nodes =>
    match graphToEdgesDataframe available g sourceCol targetCol sourceData targetData with
    | .error e => .error e
    | .ok edges => .ok (nodes, edges)

end Pelote
