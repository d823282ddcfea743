import Verif.Lemmas.UnionFindCost

/-! C62: the cost of looking up an item of a union-find structure. -/
namespace Pelote
open UnionFind

/-- C62, what always holds: a lookup reads the array of parents at most twice per item. -/
theorem unionFind_reads_linear {ulongMax cap : Nat} (hu : 2^32 - 1 ≤ ulongMax) {s s' : UnionFind}
    (hinit : UnionFind.init ulongMax cap = .ok s) {ops : List (UFOp Nat)} {outs : List UFOut}
    (hrun : s.run ops = .ok (s', outs)) {x : Nat} (hx : x < cap) : s'.findReads x ≤ 2 * cap := by
  obtain ⟨h, hc, _⟩ := init_inv hu hinit
  obtain ⟨_, root, depth, h', hc', _⟩ := h.run_ok ops hrun
  have := h'.findReads_le_cap (x := x) (by omega)
  omega

/-- C62 is false: at every capacity from 2 on (those of C04 excepted), there is a history of `cap - 1` unions, which
does not raise, reads the array of parents `cap ^ 2` times, and leaves a structure in which looking up item 0 reads
it `2 * cap - 1` times. -/
theorem unionFind_reads_quadratic {ulongMax cap : Nat} (hu : 2^32 - 1 ≤ ulongMax) (h2 : 2 ≤ cap) (hcap : cap ≤ 2^64)
    (h8 : cap ≠ 2^8) (h16 : cap ≠ 2^16) (h32 : cap = 2^32 → ulongMax ≠ 2^32 - 1) (h64 : cap ≠ 2^64) :
    ∃ s s' ops outs, UnionFind.init ulongMax cap = .ok s ∧ s.run ops = .ok (s', outs) ∧ ops.length = cap - 1 ∧
      (∀ op ∈ ops, ∃ x y, op = .union x y) ∧ s.runReads ops = cap ^ 2 ∧ s'.findReads 0 = 2 * cap - 1 := by
  have hs : ∃ s, UnionFind.init ulongMax cap = .ok s := by
    unfold UnionFind.init uintRepresentationForCapacity
    rcases uintRep_cases ((cap : Int) - 1) with ⟨_, h⟩ | ⟨_, _, h⟩ | ⟨_, _, h⟩ | ⟨_, _, h⟩ | ⟨h1, _⟩
    · exact ⟨_, by rw [h]⟩
    · exact ⟨_, by rw [h]⟩
    · exact ⟨_, by rw [h]⟩
    · exact ⟨_, by rw [h]⟩
    · omega
  obtain ⟨s, hs⟩ := hs
  obtain ⟨h, hc, hov⟩ := init_inv hu hs
  have hfit : s.capacity ≤ s.cellMax := by
    by_contra hlt
    have hfits := h.fits
    rcases hov (by omega) with e | e | e | e
    · exact h8 e
    · exact h16 e
    · exact h32 e.1 e.2
    · exact h64 e
  have hchain : Chain s 0 := by
    unfold UnionFind.init at hs
    split at hs
    · simp at hs
    · simp only [Except.ok.injEq] at hs
      subst hs
      exact ⟨fun i hi => by simp [cell_range hi], cell_replicate (by omega), fun i hi _ => by simp [cell_replicate hi]⟩
  obtain ⟨s', outs, p, r, d, hrun, hinv, hch, hcap', hcost⟩ := hchain.grow (cap - 1) h (by omega) hfit
  refine ⟨s, s', _, outs, hs, hrun, by simp, ?_, ?_, ?_⟩
  · intro op hop
    obtain ⟨i, _, rfl⟩ := List.mem_map.1 hop
    exact ⟨_, _, rfl⟩
  · rw [hcost, sum_chain, if_neg (by omega)]
    congr 1; omega
  · have := hch.findReads hinv (by omega)
    rw [this, if_neg (by omega)]
    omega

/-- C62, the true part: when every union is made between representatives, a lookup reads the array of parents at
most `2 * (log2 (size of the class) + 1)` times. -/
theorem unionFind_reads_log_partial {ulongMax cap : Nat} (hu : 2^32 - 1 ≤ ulongMax) {s s' : UnionFind}
    (hinit : UnionFind.init ulongMax cap = .ok s) {ops : List (UFOp Nat)} {outs : List UFOut}
    (hrun : s.run ops = .ok (s', outs)) (hroots : UnitesRoots s ops) {x : Nat} (hx : x < cap) :
    s'.findReads x ≤ 2 * (Nat.log 2 (Set.ncard {y | y < cap ∧ Linked (ops.foldl UFOp.next []) x y}) + 1) := by
  obtain ⟨h, hc, _⟩ := init_inv hu hinit
  have hr : Ranked s := by
    unfold UnionFind.init at hinit
    split at hinit
    · simp at hinit
    · simp only [Except.ok.injEq] at hinit
      subst hinit
      exact ranked_fresh _ rfl rfl rfl
  have hr' := hr.run h ops hroots hrun
  obtain ⟨_, root, depth, h', hc', _⟩ := h.run_ok ops hrun
  have hx' : x < s'.capacity := by omega
  have := hr'.findReads_le h' hx'
  have hn := h'.ncard hx'
  rw [hc', hc] at hn
  rw [hn]
  exact this

example : ((UnionFind.init (2^64-1) 6).toOption.map fun s =>
    UnitesRoots s [.union 0 1, .union 2 3, .find 3, .union 0 2, .union 4 0, .clear, .union 3 2]) = some True := by
  refine congrArg some (eq_true ?_)
  exact ⟨⟨rfl, rfl⟩, ⟨rfl, rfl⟩, ⟨rfl, rfl⟩, ⟨rfl, rfl⟩, ⟨rfl, rfl⟩, trivial⟩

end Pelote
