import Verif.Py.Data

/-! Model of `pelote/read.py` and `pelote/write.py`.

Reading from a path or an open file is in `Model/Json`: `readGraphologyJson` takes parsed data.  Node keys of subclasses of `int` and `str` other than `bool` are not modelled. -/
namespace Pelote
variable {A : Type}

/-! ### Writing -/

/-- `coerce_attributes(attr, allow_invalid_names)` (pelote/write.py:10-24); `copy` is the accumulator. -/
def coerceLoop (allow : Bool) : Attrs A → Attrs A → Py (Attrs A)
  | [], copy => .ok copy
  | (k, v) :: rest, copy =>
    if k.isStr then coerceLoop allow rest (copy.set k v)
    else if allow then coerceLoop allow rest (copy.set (.str k.toStr) v)
    else .error (.typeError "some attributes contain non-string name")

/-- `coerce_attributes(attr, allow_invalid_names)` (pelote/write.py:10-24). -/
def coerceAttributes (allow : Bool) (attr : Attrs A) : Py (Attrs A) := coerceLoop allow attr []

/-- `isinstance(n, VALID_KEY_TYPES)` (pelote/write.py:7, 70); `bool` is a subclass of `int`. -/
def validKeyType : PyKey → Bool
  | .int _ => true
  | .str _ => true
  | .bool _ => true
  | .other _ _ => false

/-- `if attr: data["attributes"] = coerce_attributes(…)` (pelote/write.py:87-90, 97-100). -/
def withAttributes (allow : Bool) (data : Dict PyKey Data) (attr : Attrs Data) : Py Data :=
  if attr.isEmpty then .ok (.dict data)
  else
    match coerceAttributes allow attr with
    | .error e => .error e
    | .ok copy => .ok (.dict (data.set (.str "attributes") (.dict copy)))

/-- `for n, attr in graph.nodes.data(): …` (pelote/write.py:69-92); `kt` is `node_key_type`. -/
def writeNodes (allowMixed allowInvalid : Bool) : Dict PyKey (Attrs Data) → Option String → List Data → Py (List Data)
  | [], _, nodes => .ok nodes
  | (n, attr) :: rest, kt, nodes =>
    if !validKeyType n then .error (.typeError "graph has node keys that cannot be represented in JSON")
    else if !allowMixed && kt.isSome && decide (kt ≠ some n.type) then
      .error (.typeError "graph has mixed node keys")
    else
      match withAttributes allowInvalid [(.str "key", .str n.toStr)] attr with
      | .error e => .error e
      | .ok nodeData =>
        writeNodes allowMixed allowInvalid rest
          (if !allowMixed && kt.isNone then some n.type else kt) (nodes ++ [nodeData])

/-- `for source, target, attr in graph.edges.data(): …` (pelote/write.py:94-102). -/
def writeEdges (allowInvalid : Bool) : List (PyKey × PyKey × Attrs Data) → List Data → Py (List Data)
  | [], edges => .ok edges
  | (source, target, attr) :: rest, edges =>
    match withAttributes allowInvalid [(.str "source", .str source.toStr), (.str "target", .str target.toStr)]
      attr with
    | .error e => .error e
    | .ok edgeData => writeEdges allowInvalid rest (edges ++ [edgeData])

/-- The `options` of a written graph (pelote/write.py:61-65). -/
def writeOptions (directed multi : Bool) : Data :=
  .dict [(.str "allowSelfLoops", .bool true), (.str "multi", .bool multi),
    (.str "type", .str (if directed then "directed" else "undirected"))]

/-- `write_graphology_json(graph, allow_mixed_keys, allow_invalid_attr_names)` (pelote/write.py:27-109). -/
def writeGraphologyJson (g : Graph PyKey Data) (allowMixed allowInvalid : Bool) : Py (Dict PyKey Data) :=
  match writeNodes allowMixed allowInvalid g.node none [] with
  | .error e => .error e
  | .ok nodes =>
    match writeEdges allowInvalid g.edgesData [] with
    | .error e => .error e
    | .ok edges =>
      let result : Dict PyKey Data :=
        [(.str "options", writeOptions g.directed g.multi), (.str "nodes", .list nodes), (.str "edges", .list edges)]
      .ok (if g.attrs.isEmpty then result else result.set (.str "attributes") (.dict g.attrs))

/-! ### Reading -/

/-- `nx.DiGraph(**graph_attributes)` and the like (pelote/read.py:35-44).  Simplification: an attribute named
`incoming_graph_data`, which networkx takes as a graph to convert, is refused as if it were not convertible. -/
def newGraph (directed multi : Bool) (attributes : Data) : Py (Graph PyKey Data) :=
  match attributes.asKwargs with
  | .error e => .error e
  | .ok attrs =>
    match Graph.checkKwargs ["self"] attrs with
    | .error e => .error e
    | .ok () =>
      if attrs.has (.str "incoming_graph_data") then .error .networkxError
      else .ok (Graph.empty directed multi (Dict.update [] attrs))

/-- `for serialized_node in nodes: …` (pelote/read.py:47-49). -/
def readNodes : List Data → Graph PyKey Data → Py (Graph PyKey Data)
  | [], g => .ok g
  | node :: rest, g =>
    match node.getD "attributes" (.dict []) with
    | .error e => .error e
    | .ok attr =>
      match node.item "key" with
      | .error e => .error e
      | .ok key =>
        match attr.asKwargs with
        | .error e => .error e
        | .ok attr =>
          match key.asNode with
          | .error e => .error e
          | .ok key =>
            match g.addNode key attr with
            | .error e => .error e
            | .ok g => readNodes rest g

/-- `graph.add_edge(source, target, key=key, **attr)` or `graph.add_edge(source, target, **attr)`
(pelote/read.py:66-69). -/
def readAddEdge (g : Graph PyKey Data) (multi : Bool) (source target key : Data) (attr : Attrs Data) :
    Py (Graph PyKey Data) :=
  match source.asNode with
  | .error e => .error e
  | .ok source =>
    match target.asNode with
    | .error e => .error e
    | .ok target =>
      match key with
      | .none => g.addEdge source target attr
      | key =>
        if multi then
          match key.asHashable with
          | .error e => .error e
          | .ok key => g.addEdgeKey source target key attr
        else g.addEdge source target attr

/-- `serialized_edge.get("undirected", False) == (graph_type == "undirected")` (pelote/read.py:59-61). -/
def mixedValid (directed : Bool) (edge : Data) : Py Bool :=
  match edge.getD "undirected" (.bool false) with
  | .error e => .error e
  | .ok u => .ok (u.eqBool (!directed))

/-- `for serialized_edge in edges: …` (pelote/read.py:52-69). -/
def readEdges (mustCheckMixed directed multi : Bool) : List Data → Graph PyKey Data → Py (Graph PyKey Data)
  | [], g => .ok g
  | edge :: rest, g =>
    match edge.getD "key" .none with
    | .error e => .error e
    | .ok key =>
      match edge.getD "attributes" (.dict []) with
      | .error e => .error e
      | .ok attr =>
        match edge.item "source" with
        | .error e => .error e
        | .ok source =>
          match edge.item "target" with
          | .error e => .error e
          | .ok target =>
            match (if mustCheckMixed then mixedValid directed edge else .ok true) with
            | .error e => .error e
            | .ok false => .error (.typeError "cannot parse true mixed graphs")
            | .ok true =>
              match attr.asKwargs with
              | .error e => .error e
              | .ok attr =>
                match readAddEdge g multi source target key attr with
                | .error e => .error e
                | .ok g => readEdges mustCheckMixed directed multi rest g

/-- `if edges and edges[0].get("undirected", False): …` (pelote/read.py:28-32): whether a mixed graph is taken as
directed. -/
def mixedDirected (edges : Data) : Py Bool :=
  if edges.truthy then
    match edges.first with
    | .error e => .error e
    | .ok e =>
      match e.getD "undirected" (.bool false) with
      | .error e => .error e
      | .ok u => .ok (!u.truthy)
  else .ok true

/-- `if nodes is not None: for … in nodes` (pelote/read.py:46-49). -/
def readSome (f : List Data → Graph PyKey Data → Py (Graph PyKey Data)) (x : Data) (g : Graph PyKey Data) :
    Py (Graph PyKey Data) :=
  match x with
  | .none => .ok g
  | x =>
    match x.iter with
    | .error e => .error e
    | .ok l => f l g

/-- `parse_graphology_json(data)` (pelote/read.py:13-71). -/
def parseGraphologyJson (data : Dict PyKey Data) : Py (Graph PyKey Data) :=
  match data.get? (.str "options") with
  | none => .error (.typeError "cannot parse a graphology json that does not record the graph options")
  | some options =>
    match options.item "type" with
    | .error e => .error e
    | .ok graphType =>
      let graphAttributes := (data.get? (.str "attributes")).getD (.dict [])
      let nodes := (data.get? (.str "nodes")).getD .none
      let edges := (data.get? (.str "edges")).getD .none
      let mustCheckMixed := graphType.eqStr "mixed"
      match (if mustCheckMixed then mixedDirected edges else .ok (graphType.eqStr "directed")) with
      | .error e => .error e
      | .ok directed =>
        match options.item "multi" with
        | .error e => .error e
        | .ok multi =>
          match newGraph directed multi.truthy graphAttributes with
          | .error e => .error e
          | .ok g =>
            match readSome readNodes nodes g with
            | .error e => .error e
            | .ok g => readSome (readEdges mustCheckMixed directed multi.truthy) edges g

/-- `read_graphology_json(target)` (pelote/read.py:74-103), for a target which is neither a path nor a file. -/
def readGraphologyJson : Data → Py (Graph PyKey Data)
  | .dict d => parseGraphologyJson d
  | _ => .error (.typeError "expected a path or a file")

end Pelote
