import Verif.Model.Utils
import Verif.Model.Register

/-! Model of `pelote/classes/union_find.py`. -/
namespace Pelote

/-- `UnionFind` (pelote/classes/union_find.py:12-20).  The three `array.array`s are lists of naturals;
`cellMax` is the largest value their cells can store (it is determined by `representation`).
Items are naturals here; `Model/UnionFindIndex` takes any integer. -/
structure UnionFind where
  count : Int
  capacity : Nat
  representation : Representation
  cellMax : Nat
  parents : List Nat
  ranks : List Nat
  cardinalities : List Nat

/-- `a[i]` on an `array.array`. -/
def arrGet (a : List Nat) (i : Nat) : Py Nat :=
  match a[i]? with
  | some v => .ok v
  | none => .error .indexError

/-- `a[i] = v` on an `array.array` whose cells hold at most `m`. -/
def arrSet (m : Nat) (a : List Nat) (i v : Nat) : Py (List Nat) :=
  if a.length ≤ i then .error .indexError
  else if m < v then .error .overflowError
  else .ok (a.set i v)

namespace UnionFind

/-- `__init__(capacity)` and `allocate(capacity)` (pelote/classes/union_find.py:22-25, 37-43). -/
def init (ulongMax : Nat) (capacity : Nat) : Py UnionFind :=
  match uintRepresentationForCapacity capacity with
  | .error e => .error e
  | .ok r =>
    .ok { count := capacity
          capacity := capacity
          representation := r
          cellMax := r.code.cellMax ulongMax
          parents := List.range capacity
          ranks := List.replicate capacity 0
          cardinalities := List.replicate capacity 1 }

/-- `__len__` (pelote/classes/union_find.py:34-35). -/
def len (s : UnionFind) : Int := s.count

/-- `clear()` (pelote/classes/union_find.py:45-51). -/
def clear (s : UnionFind) : UnionFind :=
  { s with
    count := s.capacity
    parents := List.range s.capacity
    ranks := List.replicate s.capacity 0
    cardinalities := List.replicate s.capacity 1 }

/-- First loop of `find` (pelote/classes/union_find.py:57-63): climb to the root. -/
def climb (parents : List Nat) : Nat → Nat → Py Nat
  | 0, _ => .error .diverges
  | fuel + 1, y =>
    match arrGet parents y with
    | .error e => .error e
    | .ok c => if y = c then .ok y else climb parents fuel c

/-- Second loop of `find` (pelote/classes/union_find.py:66-72).  It is labelled "path compression"
but writes nothing: it walks up again until the parent is the root. -/
def rewalk (parents : List Nat) (root : Nat) : Nat → Nat → Py Unit
  | 0, _ => .error .diverges
  | fuel + 1, x =>
    match arrGet parents x with
    | .error e => .error e
    | .ok p => if p = root then .ok () else rewalk parents root fuel p

/-- `find(x)` (pelote/classes/union_find.py:53-74).  The fuel of both loops is the capacity plus one. -/
def find (s : UnionFind) (x : Nat) : Py Nat :=
  match climb s.parents (s.capacity + 1) x with
  | .error e => .error e
  | .ok y =>
    match rewalk s.parents y (s.capacity + 1) x with
    | .error e => .error e
    | .ok () => .ok y

/-- `cardinality(x)` (pelote/classes/union_find.py:76-77). -/
def cardinality (s : UnionFind) (x : Nat) : Py Nat :=
  match s.find x with
  | .error e => .error e
  | .ok r => arrGet s.cardinalities r

/-- `cardinalities[a] += cardinalities[b]; parents[b] = a` (pelote/classes/union_find.py:98-99,
101-102, 104-105), on a state whose count has already been decremented. -/
def attach (s : UnionFind) (a b : Nat) : UnionFind × Py Unit :=
  match arrGet s.cardinalities a, arrGet s.cardinalities b with
  | .ok ca, .ok cb =>
    match arrSet s.cellMax s.cardinalities a (ca + cb) with
    | .error e => (s, .error e)
    | .ok cards =>
      let s := { s with cardinalities := cards }
      match arrSet s.cellMax s.parents b a with
      | .error e => (s, .error e)
      | .ok parents => ({ s with parents := parents }, .ok ())
  | .error e, _ => (s, .error e)
  | _, .error e => (s, .error e)

/-- `union(x, y)` (pelote/classes/union_find.py:79-108): the state after the call and what it
returned or raised.  The ranks compared are those of `x` and `y`, not of their roots, as in the code. -/
def union (s : UnionFind) (x y : Nat) : UnionFind × Py Bool :=
  match s.find x with
  | .error e => (s, .error e)
  | .ok xRoot =>
    match s.find y with
    | .error e => (s, .error e)
    | .ok yRoot =>
      if xRoot = yRoot then (s, .ok false)
      else
        let s := { s with count := s.count - 1 }
        match arrGet s.ranks x, arrGet s.ranks y with
        | .ok xRank, .ok yRank =>
          if xRank < yRank then
            match s.attach yRoot xRoot with
            | (s, .error e) => (s, .error e)
            | (s, .ok ()) => (s, .ok true)
          else if yRank < xRank then
            match s.attach xRoot yRoot with
            | (s, .error e) => (s, .error e)
            | (s, .ok ()) => (s, .ok true)
          else
            match s.attach xRoot yRoot with
            | (s, .error e) => (s, .error e)
            | (s, .ok ()) =>
              match arrGet s.ranks xRoot with
              | .error e => (s, .error e)
              | .ok r =>
                match arrSet s.cellMax s.ranks xRoot (r + 1) with
                | .error e => (s, .error e)
                | .ok ranks => ({ s with ranks := ranks }, .ok true)
        | .error e, _ => (s, .error e)
        | _, .error e => (s, .error e)

/-- `are_in_same_set(x, y)` (pelote/classes/union_find.py:110-111). -/
def areInSameSet (s : UnionFind) (x y : Nat) : Py Bool :=
  match s.find x with
  | .error e => .error e
  | .ok a =>
    match s.find y with
    | .error e => .error e
    | .ok b => .ok (decide (a = b))

end UnionFind

/-- `DisjointSet` (pelote/classes/union_find.py:114-119). -/
structure DisjointSet (α : Type) where
  uf : UnionFind
  register : IdRegister α

namespace DisjointSet
variable {α : Type} [DecidableEq α]

/-- `__init__(capacity)` (pelote/classes/union_find.py:117-119). -/
def init (ulongMax : Nat) (capacity : Nat) : Py (DisjointSet α) :=
  match UnionFind.init ulongMax capacity with
  | .error e => .error e
  | .ok uf => .ok ⟨uf, IdRegister.init⟩

/-- `clear()` (pelote/classes/union_find.py:121-123). -/
def clear (s : DisjointSet α) : DisjointSet α := ⟨s.uf.clear, s.register.clear⟩

/-- `__len__` (pelote/classes/union_find.py:129-130). -/
def len (s : DisjointSet α) : Int := s.uf.len

/-- `capacity` (pelote/classes/union_find.py:125-127). -/
def capacity (s : DisjointSet α) : Nat := s.uf.capacity

/-- `find(x)` (pelote/classes/union_find.py:132-134).  The register may grow. -/
def find (s : DisjointSet α) (x : α) : DisjointSet α × Py Nat :=
  let (i, r) := s.register.lookup x
  (⟨s.uf, r⟩, s.uf.find i)

/-- `union(x, y)` (pelote/classes/union_find.py:136-139). -/
def union (s : DisjointSet α) (x y : α) : DisjointSet α × Py Bool :=
  let (i, r) := s.register.lookup x
  let (j, r) := r.lookup y
  let (uf, out) := s.uf.union i j
  (⟨uf, r⟩, out)

/-- `cardinality(x)` (pelote/classes/union_find.py:141-143). -/
def cardinality (s : DisjointSet α) (x : α) : DisjointSet α × Py Nat :=
  let (i, r) := s.register.lookup x
  (⟨s.uf, r⟩, s.uf.cardinality i)

/-- `are_in_same_set(x, y)` (pelote/classes/union_find.py:145-146). -/
def areInSameSet (s : DisjointSet α) (x y : α) : DisjointSet α × Py Bool :=
  match s.find x with
  | (s, .error e) => (s, .error e)
  | (s, .ok a) =>
    match s.find y with
    | (s, .error e) => (s, .error e)
    | (s, .ok b) => (s, .ok (decide (a = b)))

end DisjointSet
end Pelote
