import Verif.Spec.Shim

/-! Property C57: the pandas shim. -/
namespace Pelote

theorem ShimProg.run_original (p : ShimProg) (s : Shim) : (p.run s).1.original = s.original := by
  induction p generalizing s with
  | skip => rfl
  | raise e => rfl
  | obliterate => rfl
  | resurrect => simp only [ShimProg.run, Shim.resurrect]; split <;> rfl
  | call f => rfl
  | check => rfl
  | seq a b iha ihb =>
    rw [ShimProg.run]
    have := iha s
    generalize a.run s = r at this
    obtain ⟨s', tr, _ | _⟩ := r
    · exact this
    · exact (ihb s').trans this
  | attempt a ih => exact ih s
  | block a ih =>
    simp only [ShimProg.run, Shim.resurrect]
    split
    · exact ih _
    · exact ih _

theorem ShimProg.run_pd (p : ShimProg) (s : Shim) (h : s.pd = true → s.original = true) :
    (p.run s).1.pd = true → (p.run s).1.original = true := by
  induction p generalizing s with
  | skip => exact h
  | raise e => exact h
  | obliterate => intro hc; cases hc
  | resurrect =>
    simp only [ShimProg.run, Shim.resurrect]
    split
    · intro hc; exact hc
    · exact h
  | call f => exact h
  | check => exact h
  | seq a b iha ihb =>
    rw [ShimProg.run]
    have := iha s h
    generalize a.run s = r at this
    obtain ⟨s', tr, _ | _⟩ := r
    · exact this
    · exact ihb s' this
  | attempt a ih => exact ih s h
  | block a ih =>
    simp only [ShimProg.run, Shim.resurrect]
    split
    · intro hc; exact hc
    · exact ih _ (fun hc => by cases hc)

/-- In every state, `pandas` is available only if it was importable. -/
theorem shim_invariant {installed : Bool} {s : Shim} (h : ShimReach installed s) :
    s.original = installed ∧ (s.isAvailable = true → installed = true) := by
  have : s.original = installed ∧ (s.pd = true → s.original = true) := by
    induction h with
    | load => exact ⟨rfl, fun h => h⟩
    | step p _ ih => exact ⟨(p.run_original _).trans ih.1, p.run_pd _ ih.2⟩
    | inside _ ih => exact ⟨ih.1, fun h => by cases h⟩
  exact ⟨this.1, fun hc => by rw [← this.1]; exact this.2 hc⟩

/-- Whatever happens in a block, pandas is available after it exactly when it was importable, and an exception goes
through. -/
theorem shim_block_restores {installed : Bool} {s : Shim} (h : ShimReach installed s) (p : ShimProg) :
    ((ShimProg.block p).run s).1.isAvailable = installed ∧
      ((ShimProg.block p).run s).2.2 = (p.run s.obliterate).2.2 := by
  refine ⟨?_, rfl⟩
  have h1 := shim_invariant (ShimReach.step p (ShimReach.inside h))
  simp only [ShimProg.run, Shim.resurrect, Shim.isAvailable]
  split
  · rename_i ho
    simp only [ho]
    rw [← h1.1, ho]
  · rename_i ho
    have hi : installed = false := by
      rw [← h1.1]; simpa using ho
    cases hp : (p.run s.obliterate).1.pd with
    | false => exact hi.symm
    | true => exact (h1.2 hp).symm

/-- In a block which does not bring pandas back itself, everything sees pandas as missing. -/
theorem shim_block_hides (p : ShimProg) (hp : p.Flat) (s : Shim) :
    ∀ b ∈ ((ShimProg.block p).run s).2.1, b = false := by
  have key : ∀ (p : ShimProg), p.Flat → ∀ s : Shim, s.pd = false →
      (p.run s).1.pd = false ∧ ∀ b ∈ (p.run s).2.1, b = false := by
    intro p
    induction p with
    | skip => intro _ s hs; exact ⟨hs, fun b hb => by cases hb⟩
    | raise e => intro _ s hs; exact ⟨hs, fun b hb => by cases hb⟩
    | obliterate => intro _ s hs; exact ⟨rfl, fun b hb => by cases hb⟩
    | resurrect => intro hp; cases hp
    | call f => intro _ s hs; exact ⟨hs, fun b hb => by rw [List.mem_singleton.1 hb]; exact hs⟩
    | check => intro _ s hs; exact ⟨hs, fun b hb => by rw [List.mem_singleton.1 hb]; exact hs⟩
    | seq a b iha ihb =>
      intro hp s hs
      have ha := iha hp.1 s hs
      rw [ShimProg.run]
      generalize a.run s = r at ha
      obtain ⟨s', tr, _ | _⟩ := r
      · exact ha
      · have hb := ihb hp.2 s' ha.1
        refine ⟨hb.1, fun x hx => ?_⟩
        rcases List.mem_append.1 hx with hx | hx
        · exact ha.2 x hx
        · exact hb.2 x hx
    | attempt a ih => intro hp s hs; exact ih hp s hs
    | block a _ => intro hp; cases hp
  exact (key p hp s.obliterate rfl).2

/-- So `check_pandas`, and any code needing pandas, raises there; values are no longer seen as DataFrames. -/
theorem shim_missing (s : Shim) (frame : Bool) :
    s.obliterate.isAvailable = false ∧ s.obliterate.check = .error .missingPandas ∧
      s.obliterate.isDataframe frame = false := ⟨rfl, rfl, rfl⟩

/-- A program without explicit `obliterate_pandas` and `resurrect_pandas` calls leaves availability as found at first. -/
theorem shim_plain_restores (p : ShimProg) (hp : p.Plain) {installed : Bool} :
    (p.run (Shim.load installed)).1.isAvailable = installed := by
  have key : ∀ (p : ShimProg), p.Plain → ∀ s : Shim, ShimReach installed s → s.pd = installed →
      (p.run s).1.pd = installed := by
    intro p
    induction p with
    | skip => intro _ s _ hs; exact hs
    | raise e => intro _ s _ hs; exact hs
    | obliterate => intro hp; cases hp
    | resurrect => intro hp; cases hp
    | call f => intro _ s _ hs; exact hs
    | check => intro _ s _ hs; exact hs
    | seq a b iha ihb =>
      intro hp s hr hs
      have ha := iha hp.1 s hr hs
      have hra := ShimReach.step a hr
      rw [ShimProg.run]
      generalize a.run s = r at ha hra
      obtain ⟨s', tr, _ | _⟩ := r
      · exact ha
      · exact ihb hp.2 s' hra ha
    | attempt a ih => intro hp s hr hs; exact ih hp s hr hs
    | block a _ => intro _ s hr _; exact (shim_block_restores hr a).1
  exact key p hp _ .load rfl

/-- Blocks are not honoured when nested: after the inner one, pandas is back inside the outer one. -/
theorem shim_nested_not_hidden :
    ((ShimProg.block (.seq (.block .check) .skip)).run (Shim.load true)).2.2 = .error .missingPandas ∧
    ((ShimProg.block (.seq (.attempt (.block .check)) (.seq .check (.call (fun _ => .ok ()))))).run
      (Shim.load true)).2.1 = [false, true, true] := ⟨rfl, rfl⟩

/-- A block as in the hypotheses of `shim_block_hides`, raising. -/
theorem shim_sample : (ShimProg.seq (.call (fun _ => .ok ())) (.seq .check .skip)).Flat ∧
    (ShimProg.block (.seq (.call (fun _ => .ok ())) (.seq .check .skip))).run (Shim.load true) =
      (⟨true, true⟩, [false, false], .error .missingPandas) :=
  ⟨⟨trivial, trivial, trivial⟩, rfl⟩

end Pelote
