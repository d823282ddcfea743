import Verif.Model.SpanningTrees
import Verif.Py.Binary64

/-! Model of `union_of_maximum_spanning_trees` (pelote/graph.py:487-553) in floating point: `WEIGHT_EPSILON` is a float,
and the difference of two weights is rounded. -/
namespace Pelote
variable {V K : Type} [DecidableEq V] [Field K] [LinearOrder K] [IsStrictOrderedRing K] [FloorRing K]

/-- `WEIGHT_EPSILON = 1e-8` (pelote/graph.py:484): the float nearest to `10 ** -8`. -/
def weightEpsilon64 : K := round64 (1 / 10 ^ 8)

/-- `current_bucket_weight - current_weight > WEIGHT_EPSILON` (pelote/graph.py:536) on floats. -/
def changesBucket64 (c w : K) : Bool := decide (round64 (c - w) > weightEpsilon64)

/-- The loop over the sorted edges and the final `yield from` (pelote/graph.py:528-551), as in `bucketLoop`, on floats. -/
def bucketLoop64 {A : Type} (ds : DisjointSet V) (cur : Option K) (bucket : List (V × V × A)) :
    List ((V × V × A) × K) → Gen (V × V × A)
  | [] => ⟨bucket, none⟩
  | (e, w) :: rest =>
    match (match cur with
      | none => true
      | some c => changesBucket64 c w) with
    | true =>
      match flushBucket ds bucket with
      | (_, ⟨ys, some x⟩) => ⟨ys, some x⟩
      | (ds, ⟨ys, none⟩) =>
        match ds.areInSameSet e.1 e.2.1 with
        | (_, .error x) => ⟨ys, some x⟩
        | (ds, .ok b) =>
          match bucketLoop64 ds (some w) (if b then [] else [e]) rest with
          | ⟨zs, err⟩ => ⟨ys ++ zs, err⟩
    | false =>
      match ds.areInSameSet e.1 e.2.1 with
      | (_, .error x) => ⟨[], some x⟩
      | (ds, .ok b) => bucketLoop64 ds cur (if b then bucket else bucket ++ [e]) rest

/-- `union_of_maximum_spanning_trees(graph, edge_weight_attr)` (pelote/graph.py:487-553) on floats, with the simplifications
of `unionOfMaximumSpanningTrees`.  Weights compared by `sorted` are not rounded. -/
def unionOfMaximumSpanningTrees64 (ulongMax : Nat) (g : Graph V (Val K)) (attr : String) :
    Gen (V × V × Attrs (Val K)) :=
  if g.size = 0 then ⟨[], none⟩
  else
    match sortKeys attr g.edgesData with
    | .error x => ⟨[], some x⟩
    | .ok es =>
      match DisjointSet.init ulongMax g.order with
      | .error x => ⟨[], some x⟩
      | .ok ds => bucketLoop64 ds none [] (sortByWeight es)

end Pelote
