import Verif.Py.Basic

/-! Model of `pelote/shim.py`. -/
namespace Pelote

/-- The global variables of the module (pelote/shim.py:3-10): whether `original_pandas` and `pd` are not `None`. -/
structure Shim where
  original : Bool
  pd : Bool

namespace Shim

/-- Importing the module, pandas being installed or not (pelote/shim.py:3-10). -/
def load (installed : Bool) : Shim := ⟨installed, installed⟩

/-- `obliterate_pandas()` (pelote/shim.py:16-23). -/
def obliterate (s : Shim) : Shim := { s with pd := false }

/-- `resurrect_pandas()` (pelote/shim.py:26-35). -/
def resurrect (s : Shim) : Shim := if s.original then { s with pd := s.original } else s

/-- `is_pandas_available()` (pelote/shim.py:48-52). -/
def isAvailable (s : Shim) : Bool := s.pd

/-- `check_pandas()` (pelote/shim.py:55-65). -/
def check (s : Shim) : Py Unit := if s.pd then .ok () else .error .missingPandas

/-- `is_dataframe(value)` (pelote/shim.py:68-74), the value being a DataFrame or not. -/
def isDataframe (s : Shim) (frame : Bool) : Bool := if s.pd then frame else false

end Shim

/-- Programs using the shim.  `call f` is any code whose outcome depends on whether pandas is available, such as a function
of the library; `attempt` is `try: … except Exception: pass`; `block` is `with missing_pandas(): …`. -/
inductive ShimProg
  | skip
  | raise (e : PyErr)
  | obliterate
  | resurrect
  | call (f : Bool → Py Unit)
  | check
  | seq (a b : ShimProg)
  | attempt (a : ShimProg)
  | block (a : ShimProg)

namespace ShimProg

/-- The state after the program, the availability seen by each `call` and `check`, and the outcome.  The `block` case is
`missing_pandas` (pelote/shim.py:38-45). -/
def run : ShimProg → Shim → Shim × List Bool × Py Unit
  | skip, s => (s, [], .ok ())
  | raise e, s => (s, [], .error e)
  | obliterate, s => (s.obliterate, [], .ok ())
  | resurrect, s => (s.resurrect, [], .ok ())
  | call f, s => (s, [s.isAvailable], f s.isAvailable)
  | check, s => (s, [s.isAvailable], s.check)
  | seq a b, s =>
    match a.run s with
    | (s, tr, .error e) => (s, tr, .error e)
    | (s, tr, .ok _) =>
      let r := b.run s
      (r.1, tr ++ r.2.1, r.2.2)
  | attempt a, s =>
    let r := a.run s
    (r.1, r.2.1, .ok ())
  | block a, s =>
    let r := a.run s.obliterate
    (r.1.resurrect, r.2.1, r.2.2)

end ShimProg
end Pelote
