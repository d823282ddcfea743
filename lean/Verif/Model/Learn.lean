import Verif.Model.Components
import Verif.Py.Val
import Mathlib.Analysis.SpecialFunctions.Log.Basic

/-! Model of `pelote/learn.py`.

`threshold += learning_rate` is followed by a rounding, a parameter of the model: none (`floatsam`), or that of floats.
The loop takes the number of iterations it may run: a run exceeding it, whatever it
is, never ends.  `on_epoch` may raise but is taken not to modify the graph.  `check_graph` is not modelled. -/
namespace Pelote
variable {V K : Type} [DecidableEq V] [Field K] [LinearOrder K]

/-- `FloatsamEpoch` (pelote/learn.py:16-18). -/
structure FloatsamEpoch (K : Type) where
  nth : Nat
  maxDrifterOrder : K
  drifterOrder : Option Nat
  threshold : K

/-- The argument `on_epoch`. -/
inductive OnEpoch (K : Type)
  | none
  | notCallable
  | function (f : FloatsamEpoch K → Py Unit)

/-- `if on_epoch is not None: on_epoch(epoch)` (pelote/learn.py:92-94): the calls made and their outcome. -/
def OnEpoch.call : OnEpoch K → FloatsamEpoch K → List (FloatsamEpoch K) × Py Unit
  | .function f, e => ([e], f e)
  | _, _ => ([], .ok ())

/-- `attr[edge_weight_attr] >= threshold` (pelote/learn.py:76-77). -/
def floatsamFilter (attr : String) (threshold : K) : EdgePred V (Val K) := fun _ _ a =>
  match a.getItem (.str attr) with
  | .error e => .error e
  | .ok x =>
    match x.toNum with
    | .error e => .error e
    | .ok w => .ok (decide (w ≥ threshold))

/-- `while True: …` (pelote/learn.py:84-99): the epochs given to `on_epoch` and the outcome.  `rnd` rounds the sum. -/
def floatsamLoopR (rnd : K → K) (g : Graph V (Val K)) (rate maxDrifter : K) (attr : String) (onEpoch : OnEpoch K) :
    Nat → Nat → K → List (FloatsamEpoch K) × Py K
  | 0, _, _ => ([], .error .diverges)
  | fuel + 1, n, threshold =>
    let n := n + 1
    let best := threshold
    let threshold := rnd (threshold + rate)
    match secondLargestComponentOrder g (some (floatsamFilter attr threshold)) with
    | .error e => ([], .error e)
    | .ok c =>
      match onEpoch.call ⟨n, maxDrifter, c, threshold⟩ with
      | (calls, .error e) => (calls, .error e)
      | (calls, .ok _) =>
        if c.any (fun c : Nat => decide ((c : K) ≥ maxDrifter)) then (calls, .ok best)
        else
          let r := floatsamLoopR rnd g rate maxDrifter attr onEpoch fuel n threshold
          (calls ++ r.1, r.2)

/-- The loop in exact arithmetic (pelote/learn.py:84-99). -/
abbrev floatsamLoop (g : Graph V (Val K)) (rate maxDrifter : K) (attr : String) (onEpoch : OnEpoch K) :
    Nat → Nat → K → List (FloatsamEpoch K) × Py K := floatsamLoopR (fun x => x) g rate maxDrifter attr onEpoch

/-- `int(math.log(n))`, for a positive `n`. -/
noncomputable def intLog (n : Nat) : Nat := ⌊Real.log n⌋₊

/-- `max_drifter_order` once its default is chosen (pelote/learn.py:79-80). -/
noncomputable def maxDrifterOrder (g : Graph V (Val K)) : Option K → Py K
  | some m => .ok m
  | none =>
    match largestComponentOrder g with
    | .error e => .error e
    | .ok none => .ok (intLog 1 : Nat)
    | .ok (some n) => .ok (intLog (if n = 0 then 1 else n) : Nat)

/-- `floatsam_threshold_learner(graph, starting_threshold, learning_rate, max_drifter_order, edge_weight_attr,
on_epoch)` (pelote/learn.py:21-99), the sums being rounded by `rnd`. -/
noncomputable def floatsamR (rnd : K → K) (g : Graph V (Val K)) (start rate : K) (maxDrifter : Option K)
    (attr : String) (onEpoch : OnEpoch K) (fuel : Nat) : List (FloatsamEpoch K) × Py K :=
  match onEpoch with
  | .notCallable => ([], .error (.typeError "on_epoch should be callable"))
  | onEpoch =>
    if g.size = 0 then ([], .ok start)
    else
      match maxDrifterOrder g maxDrifter with
      | .error e => ([], .error e)
      | .ok m => floatsamLoopR rnd g rate m attr onEpoch fuel 0 start

/-- `floatsam_threshold_learner` in exact arithmetic (pelote/learn.py:21-99). -/
noncomputable abbrev floatsam (g : Graph V (Val K)) (start rate : K) (maxDrifter : Option K) (attr : String)
    (onEpoch : OnEpoch K) (fuel : Nat) : List (FloatsamEpoch K) × Py K :=
  floatsamR (fun x => x) g start rate maxDrifter attr onEpoch fuel

end Pelote
