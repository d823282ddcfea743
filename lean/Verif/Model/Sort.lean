import Verif.Model.Utils

/-! Model of the sorting and collection helpers of `pelote/utils.py`. -/
namespace Pelote
variable {α : Type}

/-- Python index into a sequence of the given length: negative indices count from the end. -/
def pyIndex (len : Nat) (i : Int) : Py Nat :=
  if 0 ≤ i then (if i < len then .ok i.toNat else .error .indexError)
  else (if 0 ≤ i + len then .ok (i + len).toNat else .error .indexError)

/-- `a[i]` with a Python index. -/
def seqGet (a : List α) (i : Int) : Py α :=
  match pyIndex a.length i with
  | .error e => .error e
  | .ok j =>
    match a[j]? with
    | some v => .ok v
    | none => .error .indexError

/-- `a[i] = v` on a list, with a Python index. -/
def seqSet (a : List α) (i : Int) (v : α) : Py (List α) :=
  match pyIndex a.length i with
  | .error e => .error e
  | .ok j => .ok (a.set j v)

/-- `a[i] = v` on an unsigned `array.array` whose cells hold at most `m`. -/
def uarrSet (m : Nat) (a : List Int) (i v : Int) : Py (List Int) :=
  match pyIndex a.length i with
  | .error e => .error e
  | .ok j => if v < 0 ∨ (m : Int) < v then .error .overflowError else .ok (a.set j v)

/-- Bounds of the keys (pelote/utils.py:80-96). -/
def keyBounds (keys : List Int) : Option Int × Option Int :=
  keys.foldl (fun b k =>
    (match b.1 with
      | none => some k
      | some lo => if k < lo then some k else some lo,
     match b.2 with
      | none => some k
      | some hi => if k > hi then some k else some hi)) (none, none)

/-- Counting loop (pelote/utils.py:103-105). -/
def countKeys (m : Nat) (lo : Int) : List Int → List Int → Py (List Int)
  | counts, [] => .ok counts
  | counts, k :: ks =>
    match seqGet counts (k - lo) with
    | .error e => .error e
    | .ok c =>
      match uarrSet m counts (k - lo) (c + 1) with
      | .error e => .error e
      | .ok counts => countKeys m lo counts ks

/-- Cumulating loop, from index `i` on, `n` iterations left (pelote/utils.py:108-109). -/
def cumulate (m : Nat) : Nat → Nat → List Int → Py (List Int)
  | 0, _, counts => .ok counts
  | n + 1, i, counts =>
    match seqGet counts i, seqGet counts ((i : Int) - 1) with
    | .ok a, .ok b =>
      match uarrSet m counts i (a + b) with
      | .error e => .error e
      | .ok counts => cumulate m n (i + 1) counts
    | .error e, _ => .error e
    | _, .error e => .error e

/-- Placement loop (pelote/utils.py:114-122), over the zip of keys and items. -/
def placeItems (m : Nat) (l : Nat) (reverse : Bool) (lo : Int) :
    List (Int × α) → List Int → List (Option α) → Py (List (Option α))
  | [], _, output => .ok output
  | (k, item) :: rest, counts, output =>
    match seqGet counts (k - lo) with
    | .error e => .error e
    | .ok c =>
      match uarrSet m counts (k - lo) (c - 1) with
      | .error e => .error e
      | .ok counts =>
        match seqSet output (if reverse then (l : Int) - (c - 1) - 1 else c - 1) (some item) with
        | .error e => .error e
        | .ok output => placeItems m l reverse lo rest counts output

/-- `counting_sort(items, key=key, reverse=reverse)` (pelote/utils.py:72-124).  `items` is a list and
`key` returns an int (`key=None` is the identity on a list of ints).  `upper_bound - lower_bound` on two
`None`s raises `TypeError`.  The result is the list `[None] * l` after the placements. -/
def countingSort (ulongMax : Nat) (key : α → Int) (reverse : Bool) (items : List α) :
    Py (List (Option α)) :=
  let keys := items.map key
  match keyBounds keys with
  | (some lo, some hi) =>
    let span := hi - lo
    match uintRepresentationForMax items.length with
    | .error e => .error e
    | .ok r =>
      let m := r.code.cellMax ulongMax
      match countKeys m lo (List.replicate (span + 1).toNat 0) keys with
      | .error e => .error e
      | .ok counts =>
        match cumulate m span.toNat 1 counts with
        | .error e => .error e
        | .ok counts =>
          placeItems m items.length reverse lo (keys.zip items) counts
            (List.replicate items.length none)
  | _ => .error (.typeError "unsupported operand type(s) for -: 'NoneType' and 'NoneType'")

/-- Counting loop of `fast_intersection_size` (pelote/utils.py:137-141). -/
def countIn [DecidableEq α] (A B : List α) : Nat :=
  A.foldl (fun i item => if item ∈ B then i + 1 else i) 0

/-- `fast_intersection_size(A, B)` (pelote/utils.py:127-143).  Sets are duplicate-free lists; `same`
tells whether the two arguments are one object (`A is B`). -/
def fastIntersectionSize [DecidableEq α] (same : Bool) (A B : List α) : Nat :=
  let (A, B) := if A.length > B.length then (B, A) else (A, B)
  if A.isEmpty then 0
  else if same then A.length
  else countIn A B

/-- `has_mixed_types(iterable)` (pelote/utils.py:15-28); `type` is Python's `type`. -/
def hasMixedTypes {τ : Type} [DecidableEq τ] (type : α → τ) : List α → Bool
  | [] => false
  | x :: xs => xs.any (fun y => ¬ type y = type x)

end Pelote
