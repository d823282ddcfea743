import Verif.Model.UnionFind
import Verif.Py.Val
import Verif.Py.Sort

/-! Model of `union_of_maximum_spanning_trees` (pelote/graph.py:484-553). -/
namespace Pelote
variable {V K : Type} [DecidableEq V] [Field K] [LinearOrder K]

/-- `WEIGHT_EPSILON` (pelote/graph.py:484), as an exact number. -/
def weightEpsilon : K := 1 / 10 ^ 8

/-- `a.get(edge_weight_attr, 1)` (pelote/graph.py:520, 531) used as a number. -/
def weightOf {N : Type} [Zero N] [One N] (attr : String) (a : Attrs (Val N)) : Py N :=
  match a.get? (.str attr) with
  | none => .ok 1
  | some w => w.toNum

/-- The edges with their weight, as far as every weight is a number. -/
def weighted {N : Type} [Zero N] [One N] (attr : String) :
    List (V × V × Attrs (Val N)) → Py (List ((V × V × Attrs (Val N)) × N))
  | [] => .ok []
  | e :: es =>
    match weightOf attr e.2.2 with
    | .error x => .error x
    | .ok w =>
      match weighted attr es with
      | .error x => .error x
      | .ok r => .ok ((e, w) :: r)

/-- The edges with their sorting key: a single edge is never compared, so its weight is not looked at
(`1` stands for whatever it is). -/
def sortKeys {N : Type} [Zero N] [One N] (attr : String) :
    List (V × V × Attrs (Val N)) → Py (List ((V × V × Attrs (Val N)) × N))
  | [e] => .ok [(e, 1)]
  | es => weighted attr es

/-- `sorted(edges, key=…, reverse=True)` (pelote/graph.py:518-522): decreasing weights, ties in the
original order. -/
def sortByWeight {E : Type} (es : List (E × K)) : List (E × K) :=
  pySortedRev Prod.snd es

/-- `for relevant_edge in relevant_bucket_edges: yield relevant_edge; disjoint_set.union(…)`
(pelote/graph.py:539-541). -/
def flushBucket {A : Type} : DisjointSet V → List (V × V × A) → DisjointSet V × Gen (V × V × A)
  | ds, [] => (ds, ⟨[], none⟩)
  | ds, e :: es =>
    match ds.union e.1 e.2.1 with
    | (ds, .error x) => (ds, ⟨[e], some x⟩)
    | (ds, .ok _) =>
      match flushBucket ds es with
      | (ds, ⟨ys, err⟩) => (ds, ⟨e :: ys, err⟩)

/-- The loop over the sorted edges and the final `yield from` (pelote/graph.py:528-551), from a state
whose bucket variables are `current_bucket_weight` (`none` for `None`) and `relevant_bucket_edges`
(`None` being the empty list, both are skipped by `if relevant_bucket_edges`). -/
def bucketLoop {A : Type} (ds : DisjointSet V) (cur : Option K) (bucket : List (V × V × A)) :
    List ((V × V × A) × K) → Gen (V × V × A)
  | [] => ⟨bucket, none⟩
  | (e, w) :: rest =>
    match (match cur with
      | none => true
      | some c => decide (c - w > weightEpsilon)) with
    | true =>
      match flushBucket ds bucket with
      | (_, ⟨ys, some x⟩) => ⟨ys, some x⟩
      | (ds, ⟨ys, none⟩) =>
        match ds.areInSameSet e.1 e.2.1 with
        | (_, .error x) => ⟨ys, some x⟩
        | (ds, .ok b) =>
          match bucketLoop ds (some w) (if b then [] else [e]) rest with
          | ⟨zs, err⟩ => ⟨ys ++ zs, err⟩
    | false =>
      match ds.areInSameSet e.1 e.2.1 with
      | (_, .error x) => ⟨[], some x⟩
      | (ds, .ok b) => bucketLoop ds cur (if b then bucket else bucket ++ [e]) rest

/-- `union_of_maximum_spanning_trees(graph, edge_weight_attr)` (pelote/graph.py:487-553), run to
completion.  `check_graph` is not modelled.  A weight that is not a number raises `TypeError` before
anything is yielded: in `sorted`, or, when the values can be compared with each other but not subtracted
(strings), at the second edge.  A single edge is never compared, so its weight can be anything.
`ulongMax` is the largest `unsigned long` of the platform. -/
def unionOfMaximumSpanningTrees (ulongMax : Nat) (g : Graph V (Val K)) (attr : String) :
    Gen (V × V × Attrs (Val K)) :=
  if g.size = 0 then ⟨[], none⟩
  else
    match sortKeys attr g.edgesData with
    | .error x => ⟨[], some x⟩
    | .ok es =>
      match DisjointSet.init ulongMax g.order with
      | .error x => ⟨[], some x⟩
      | .ok ds => bucketLoop ds none [] (sortByWeight es)

end Pelote
