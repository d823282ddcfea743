import Verif.Model.Shim

/-! Specification vocabulary for programs using the shim. -/
namespace Pelote

/-- The program does not bring pandas back itself: no nested `missing_pandas` nor `resurrect_pandas`. -/
def ShimProg.Flat : ShimProg → Prop
  | .resurrect | .block _ => False
  | .seq a b => a.Flat ∧ b.Flat
  | .attempt a => a.Flat
  | _ => True

/-- The program leaves availability alone, apart from blocks. -/
def ShimProg.Plain : ShimProg → Prop
  | .obliterate | .resurrect => False
  | .seq a b => a.Plain ∧ b.Plain
  | .attempt a => a.Plain
  | .block a => a.Plain
  | _ => True

/-- States reached from the import of the module. -/
inductive ShimReach (installed : Bool) : Shim → Prop
  | load : ShimReach installed (Shim.load installed)
  | step {s : Shim} (p : ShimProg) : ShimReach installed s → ShimReach installed (p.run s).1
  | inside {s : Shim} : ShimReach installed s → ShimReach installed s.obliterate

end Pelote
