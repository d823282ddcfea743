import Verif.Model.UnionFind
import Verif.Model.Sort

/-! Model of `UnionFind` (pelote/classes/union_find.py) called with any Python integers, negative ones included: the arrays are
indexed as Python indexes them.  `Model/UnionFind` is the same code with items that are natural numbers. -/
namespace Pelote

/-- `a[i]` on an `array.array` with any integer. -/
def arrGetI (a : List Nat) (i : Int) : Py Nat :=
  match pyIndex a.length i with
  | .error e => .error e
  | .ok j => arrGet a j

/-- `a[i] = v` on an `array.array` with any integers: a negative value raises `OverflowError`, after the index was checked. -/
def arrSetI (m : Nat) (a : List Nat) (i v : Int) : Py (List Nat) :=
  match pyIndex a.length i with
  | .error e => .error e
  | .ok j => if v < 0 then .error .overflowError else arrSet m a j v.toNat

namespace UnionFind

/-- First loop of `find` (pelote/classes/union_find.py:57-63). -/
def climbI (parents : List Nat) : Nat → Int → Py Int
  | 0, _ => .error .diverges
  | fuel + 1, y =>
    match arrGetI parents y with
    | .error e => .error e
    | .ok c => if y = (c : Int) then .ok y else climbI parents fuel c

/-- Second loop of `find` (pelote/classes/union_find.py:66-72). -/
def rewalkI (parents : List Nat) (root : Int) : Nat → Int → Py Unit
  | 0, _ => .error .diverges
  | fuel + 1, x =>
    match arrGetI parents x with
    | .error e => .error e
    | .ok p => if (p : Int) = root then .ok () else rewalkI parents root fuel p

/-- `find(x)` (pelote/classes/union_find.py:53-74).  The fuel of both loops is the capacity plus two: a negative item takes one
more step. -/
def findI (s : UnionFind) (x : Int) : Py Int :=
  match climbI s.parents (s.capacity + 2) x with
  | .error e => .error e
  | .ok y =>
    match rewalkI s.parents y (s.capacity + 2) x with
    | .error e => .error e
    | .ok () => .ok y

/-- `cardinality(x)` (pelote/classes/union_find.py:76-77). -/
def cardinalityI (s : UnionFind) (x : Int) : Py Nat :=
  match s.findI x with
  | .error e => .error e
  | .ok r => arrGetI s.cardinalities r

/-- `cardinalities[a] += cardinalities[b]; parents[b] = a` (pelote/classes/union_find.py:98-99, 101-102, 104-105). -/
def attachI (s : UnionFind) (a b : Int) : UnionFind × Py Unit :=
  match arrGetI s.cardinalities a, arrGetI s.cardinalities b with
  | .ok ca, .ok cb =>
    match arrSetI s.cellMax s.cardinalities a (ca + cb) with
    | .error e => (s, .error e)
    | .ok cards =>
      let s := { s with cardinalities := cards }
      match arrSetI s.cellMax s.parents b a with
      | .error e => (s, .error e)
      | .ok parents => ({ s with parents := parents }, .ok ())
  | .error e, _ => (s, .error e)
  | _, .error e => (s, .error e)

/-- `union(x, y)` (pelote/classes/union_find.py:79-108). -/
def unionI (s : UnionFind) (x y : Int) : UnionFind × Py Bool :=
  match s.findI x with
  | .error e => (s, .error e)
  | .ok xRoot =>
    match s.findI y with
    | .error e => (s, .error e)
    | .ok yRoot =>
      if xRoot = yRoot then (s, .ok false)
      else
        let s := { s with count := s.count - 1 }
        match arrGetI s.ranks x, arrGetI s.ranks y with
        | .ok xRank, .ok yRank =>
          if xRank < yRank then
            match s.attachI yRoot xRoot with
            | (s, .error e) => (s, .error e)
            | (s, .ok ()) => (s, .ok true)
          else if yRank < xRank then
            match s.attachI xRoot yRoot with
            | (s, .error e) => (s, .error e)
            | (s, .ok ()) => (s, .ok true)
          else
            match s.attachI xRoot yRoot with
            | (s, .error e) => (s, .error e)
            | (s, .ok ()) =>
              match arrGetI s.ranks xRoot with
              | .error e => (s, .error e)
              | .ok r =>
                match arrSetI s.cellMax s.ranks xRoot (r + 1) with
                | .error e => (s, .error e)
                | .ok ranks => ({ s with ranks := ranks }, .ok true)
        | .error e, _ => (s, .error e)
        | _, .error e => (s, .error e)

/-- `are_in_same_set(x, y)` (pelote/classes/union_find.py:110-111). -/
def areInSameSetI (s : UnionFind) (x y : Int) : Py Bool :=
  match s.findI x with
  | .error e => .error e
  | .ok a =>
    match s.findI y with
    | .error e => .error e
    | .ok b => .ok (decide (a = b))

end UnionFind
end Pelote
