import Verif.Model.Traversal
import Verif.Model.Disparity

/-! Model of `bfs_from_node` and `self_similarity_projection` (pelote/projection.py:176-261).

The scores are rounded by `rnd`, the identity for exact arithmetic: they are quotients of two integers.  `check_graph` is not
modelled. -/
namespace Pelote
variable {V A K : Type} [DecidableEq V] [Field K] [LinearOrder K]

/-- `for neighbor in …: queue.append(neighbor, (neighbor, depth + 1))` (pelote/projection.py:189-190). -/
def bfsPush (depth : Nat) : List V → Traversal V (V × Nat) → Traversal V (V × Nat)
  | [], t => t
  | n :: ns, t => bfsPush depth ns (t.append (fun n => (n, 0)) n (some (n, depth + 1))).1

/-- `(graph.predecessors if reverse else graph.successors)(node)` (pelote/projection.py:189): these methods
only exist on directed graphs, and raise when the node is not in the graph. -/
def bfsNeighbors (g : Graph V A) (reverse : Bool) (n : V) : Py (List V) :=
  if !g.directed then .error .attributeError
  else if !g.hasNode n then .error .networkxError
  else .ok (if reverse then g.predecessors n else g.neighbors n)

/-- `while len(queue) != 0: …` (pelote/projection.py:180-190).  At most one iteration per node. -/
def searchLoop (g : Graph V A) (reverse : Bool) (limit : Int) : Nat → Traversal V (V × Nat) → Gen (V × Nat)
  | fuel, t =>
    if t.len = 0 then ⟨[], none⟩
    else
      match fuel with
      | 0 => ⟨[], some .diverges⟩
      | fuel + 1 =>
        match t.popleft with
        | .error e => ⟨[], some e⟩
        | .ok (t, (node, depth)) =>
          let out := if depth > 0 then [(node, depth)] else []
          if (depth : Int) ≥ limit then
            let r := searchLoop g reverse limit fuel t
            ⟨out ++ r.yields, r.err⟩
          else
            match bfsNeighbors g reverse node with
            | .error e => ⟨out, some e⟩
            | .ok ns =>
              let r := searchLoop g reverse limit fuel (bfsPush depth ns t)
              ⟨out ++ r.yields, r.err⟩

/-- `bfs_from_node(graph, source, reverse, limit)` (pelote/projection.py:176-190), run to the end. -/
def bfsFromNode (g : Graph V A) (source : V) (reverse : Bool) (limit : Int) : Gen (V × Nat) :=
  searchLoop g reverse limit (g.order + 1)
    ((Traversal.init g.nodes).append (fun n => (n, 0)) source (some (source, 0))).1

/-- The local variables of `self_similarity_projection` used by its two inner loops: `depth` (the parameter,
also the loop variable), `norm`, `candidates` and `inverted_index`. -/
structure TagState (V : Type) where
  depth : Int
  norm : Nat
  candidates : Dict V Nat
  index : Dict (Bool × Nat × V) (List V)

/-- `for candidate in container: candidates[candidate] += 1` (pelote/projection.py:224-225, 234-235). -/
def countCandidates : List V → Dict V Nat → Dict V Nat
  | [], d => d
  | c :: cs, d => countCandidates cs (d.set c ((d.get? c).getD 0 + 1))

/-- The two inner loops (pelote/projection.py:219-227 with `out = true`, 229-237 with `out = false`). -/
def tagLoop (node : V) (out : Bool) : List (V × Nat) → TagState V → TagState V
  | [], s => s
  | (x, depth) :: rest, s =>
    let k := (out, depth, x)
    let container := (s.index.get? k).getD []
    tagLoop node out rest
      ⟨depth, s.norm + 1, countCandidates container s.candidates, s.index.set k (container ++ [node])⟩

/-- `for candidate, intersection in candidates.items(): …` (pelote/projection.py:241-259). -/
def similarityLoop [AttrVal (Val K)] (rnd : K → K) (g : Graph V A) (norms : Dict V Nat) (node : V) (norm : Nat) :
    Dict V Nat → Graph V (Val K) → Py (Graph V (Val K))
  | [], projected => .ok projected
  | (candidate, intersection) :: rest, projected =>
    match norms.getItem candidate with
    | .error e => .error e
    | .ok cn =>
      let candidateNorm : Int := cn
      let candidateNorm := if g.hasEdge node candidate then candidateNorm - 2 else candidateNorm
      let candidateNorm := if g.hasEdge candidate node then candidateNorm - 2 else candidateNorm
      match pyDiv ((intersection : Int) : K) (((norm : Int) + candidateNorm - intersection : Int) : K) with
      | .error e => .error e
      | .ok similarity =>
        match projected.addEdge node candidate [(.str "weight", .num (rnd similarity))] with
        | .error e => .error e
        | .ok projected => similarityLoop rnd g norms node norm rest projected

/-- `for node, attr in graph.nodes.data(): …` (pelote/projection.py:211-259). -/
def selfSimilarityLoop [AttrVal (Val K)] (rnd : K → K) (g : Graph V (Val K)) :
    Dict V (Attrs (Val K)) → Int → Dict V Nat → Dict (Bool × Nat × V) (List V) → Graph V (Val K) →
    Py (Graph V (Val K))
  | [], _, _, _, projected => .ok projected
  | (node, attr) :: rest, depth, norms, index, projected =>
    match projected.addNode node attr with
    | .error e => .error e
    | .ok projected =>
      match (bfsFromNode g node false depth).err with
      | some e => .error e
      | none =>
        let s := tagLoop node true (bfsFromNode g node false depth).yields ⟨depth, 0, [], index⟩
        match (bfsFromNode g node true s.depth).err with
        | some e => .error e
        | none =>
          let s := tagLoop node false (bfsFromNode g node true s.depth).yields s
          let norms := norms.set node s.norm
          match similarityLoop rnd g norms node s.norm s.candidates projected with
          | .error e => .error e
          | .ok projected => selfSimilarityLoop rnd g rest s.depth norms s.index projected

/-- `self_similarity_projection(graph, depth)` (pelote/projection.py:193-261), with rounded scores. -/
def selfSimilarityProjectionR [AttrVal (Val K)] (rnd : K → K) (g : Graph V (Val K)) (depth : Int) : Py (Graph V (Val K)) :=
  if !g.directed then .error .notImplementedError
  else if g.order = 0 then .ok (Graph.empty false false [])
  else selfSimilarityLoop rnd g g.node depth [] [] (Graph.empty false false [])

/-- `self_similarity_projection(graph, depth)` (pelote/projection.py:193-261), in exact arithmetic. -/
def selfSimilarityProjection [AttrVal (Val K)] (g : Graph V (Val K)) (depth : Int) : Py (Graph V (Val K)) :=
  selfSimilarityProjectionR id g depth

end Pelote
