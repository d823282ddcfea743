import Verif.Nx.Graph

/-! Model of `pelote/classes/traversal.py`: `DFSStack` (lines 8-51) and `BFSQueue` (lines 54-97).

The two classes have the same code except for `pop` / `popleft`, so they are one structure here.  The
graph they hold is only iterated over and measured, so it is represented by its list of nodes.  The
Python `set` of seen nodes is a duplicate free list. -/
namespace Pelote
variable {V I : Type} [DecidableEq V]

/-- State of a `DFSStack` or of a `BFSQueue`: the nodes of the graph, the held items (oldest first, as in
the Python list or deque), the seen nodes. -/
structure Traversal (V I : Type) where
  graph : List V
  items : List I
  seen : List V

namespace Traversal

/-- `__init__` (pelote/classes/traversal.py:14-17, 60-63). -/
def init (graph : List V) : Traversal V I := ⟨graph, [], []⟩

/-- `__len__` (pelote/classes/traversal.py:19-20, 65-66). -/
def len (t : Traversal V I) : Nat := t.items.length

/-- `__contains__` (pelote/classes/traversal.py:22-23, 68-69). -/
def contains (t : Traversal V I) (n : V) : Bool := decide (n ∈ t.seen)

/-- `has_already_seen_everything` (pelote/classes/traversal.py:25-26, 71-72). -/
def seenAll (t : Traversal V I) : Bool := t.seen.length == t.graph.length

/-- `nodes_yet_unseen` (pelote/classes/traversal.py:28-36, 74-82), one `next()` on the generator: the
argument is what the `for` loop has not consumed yet; the result is the yielded node and what is left, or
`none` when the generator stops. -/
def nextUnseen (t : Traversal V I) : List V → Option (V × List V)
  | [] => none
  | n :: ns =>
    if t.seenAll then none
    else if t.contains n then nextUnseen t ns
    else some (n, ns)

/-- `append(node, item=None)` (pelote/classes/traversal.py:38-48, 84-94).  `asItem` embeds the nodes
among the Python objects the structure holds. -/
def append (asItem : V → I) (t : Traversal V I) (n : V) (item : Option I) : Traversal V I × Bool :=
  let sizeBefore := t.seen.length
  let seen := if n ∈ t.seen then t.seen else n :: t.seen
  if sizeBefore == seen.length then ({ t with seen := seen }, false)
  else ({ t with seen := seen, items := t.items ++ [item.getD (asItem n)] }, true)

/-- `DFSStack.pop` (pelote/classes/traversal.py:50-51), raising `IndexError` when empty. -/
def pop (t : Traversal V I) : Py (Traversal V I × I) :=
  match t.items.getLast? with
  | none => .error .indexError
  | some i => .ok ({ t with items := t.items.dropLast }, i)

/-- `BFSQueue.popleft` (pelote/classes/traversal.py:96-97), raising `IndexError` when empty. -/
def popleft (t : Traversal V I) : Py (Traversal V I × I) :=
  match t.items with
  | [] => .error .indexError
  | i :: rest => .ok ({ t with items := rest }, i)

/-- The calls a user can make on a `DFSStack` (`lifo = true`) or a `BFSQueue` (`lifo = false`), with one
`nodes_yet_unseen` generator at a time: `unseen` creates it, `next` advances it. -/
inductive Op (V I : Type)
  | append (n : V) (item : Option I)
  | pop
  | len
  | contains (n : V)
  | seenAll
  | unseen
  | next

/-- What a call returns. -/
inductive Out (V I : Type)
  | unit
  | bool (b : Bool)
  | num (n : Nat)
  | item (i : I)
  | node (n : V)
  | stop
  | raised (e : PyErr)

/-- One call; the second component of the state is the generator. -/
def step (lifo : Bool) (asItem : V → I) (s : Traversal V I × List V) : Op V I → (Traversal V I × List V) × Out V I
  | .append n item => let r := s.1.append asItem n item; ((r.1, s.2), .bool r.2)
  | .pop =>
    match (if lifo then s.1.pop else s.1.popleft) with
    | .error e => (s, .raised e)
    | .ok (t, i) => ((t, s.2), .item i)
  | .len => (s, .num s.1.len)
  | .contains n => (s, .bool (s.1.contains n))
  | .seenAll => (s, .bool s.1.seenAll)
  | .unseen => ((s.1, s.1.graph), .unit)
  | .next =>
    match s.1.nextUnseen s.2 with
    | none => ((s.1, []), .stop)
    | some (n, ns) => ((s.1, ns), .node n)

/-- A history of calls. -/
def run (lifo : Bool) (asItem : V → I) : Traversal V I × List V → List (Op V I) → List (Out V I)
  | _, [] => []
  | s, op :: ops => let r := step lifo asItem s op; r.2 :: run lifo asItem r.1 ops

end Traversal
end Pelote
