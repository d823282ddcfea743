import Verif.Props.UnionFind
import Verif.Model.UnionFindIndex

/-! C101: union-find structures called with items out of range, negative items and too many items: what the calls that raise
leave behind. -/
set_option linter.unusedSectionVars false
namespace Pelote

/-! ### The specification: histories that go on after an exception -/

/-- The state and the outputs of a history whose exceptions are caught. -/
def UnionFind.runAll (s : UnionFind) : List (UFOp Nat) → UnionFind × List (Py UFOut)
  | [] => (s, [])
  | op :: ops =>
    let p := s.step op
    let q := UnionFind.runAll p.1 ops
    (q.1, p.2 :: q.2)

/-- The same on a `DisjointSet`. -/
def DisjointSet.runAll {α : Type} [DecidableEq α] (s : DisjointSet α) : List (UFOp α) → DisjointSet α × List (Py UFOut)
  | [] => (s, [])
  | op :: ops =>
    let p := s.step op
    let q := DisjointSet.runAll p.1 ops
    (q.1, p.2 :: q.2)

/-- The outputs expected of a `UnionFind`: calls with an item out of range raise `IndexError` and do not count. -/
def UFConformsAll (cap : Nat) : List (Nat × Nat) → List (UFOp Nat) → List (Py UFOut) → Prop
  | _, [], [] => True
  | pairs, op :: ops, out :: outs =>
    ((∀ x ∈ op.items, x < cap) ∧ (∃ o, out = .ok o ∧ UFExpected cap pairs op o) ∧ UFConformsAll cap (op.next pairs) ops outs) ∨
    ((¬ ∀ x ∈ op.items, x < cap) ∧ out = .error .indexError ∧ UFConformsAll cap pairs ops outs)
  | _, _, _ => False

/-- The items a `DisjointSet` knows after a call: the first distinct ones shown since the last `clear`, as many as fit. -/
def UFOp.knownNext {α : Type} [DecidableEq α] (cap : Nat) (known : List α) (op : UFOp α) : List α := (op.seenNext known).take cap

/-- The outputs expected of a `DisjointSet`: calls with an item that is not among those which fit raise `IndexError` and unite
nothing; the other ones are answered. -/
def DSConformsAll {α : Type} [DecidableEq α] (cap : Nat) : List α → List (α × α) → List (UFOp α) → List (Py UFOut) → Prop
  | _, _, [], [] => True
  | known, pairs, op :: ops, out :: outs =>
    ((∀ x ∈ op.items, x ∈ op.knownNext cap known) ∧ (∃ o, out = .ok o ∧ DSExpected cap known pairs op o) ∧
      DSConformsAll cap (op.knownNext cap known) (op.next pairs) ops outs) ∨
    ((¬ ∀ x ∈ op.items, x ∈ op.knownNext cap known) ∧ out = .error .indexError ∧
      DSConformsAll cap (op.knownNext cap known) pairs ops outs)
  | _, _, _, _ => False

namespace UnionFind
variable {s : UnionFind} {pairs : List (Nat × Nat)} {root depth : Nat → Nat}

/-- A call with an item out of range changes nothing. -/
theorem Inv.step_oob_state (h : Inv s pairs root depth) (op : UFOp Nat) (hop : ¬ ∀ x ∈ op.items, x < s.capacity) :
    s.step op = (s, .error .indexError) := by
  refine Prod.ext ?_ (h.step_oob op hop)
  cases op with
  | union x y =>
    simp only [UFOp.items, List.mem_cons, List.not_mem_nil, or_false, forall_eq_or_imp, forall_eq] at hop
    by_cases hx : x < s.capacity
    · have hy : s.capacity ≤ y := by omega
      simp [UnionFind.step, UnionFind.union, h.find hx, find_oob h.lenP hy]
    · simp [UnionFind.step, UnionFind.union, find_oob h.lenP (Nat.le_of_not_lt hx)]
  | clear => simp [UFOp.items] at hop
  | _ => rfl

theorem Inv.runAll (h : Inv s pairs root depth) (hc : s.capacity ≠ s.cellMax + 1) (ops : List (UFOp Nat)) :
    UFConformsAll s.capacity pairs ops (s.runAll ops).2 := by
  induction ops generalizing s pairs root depth with
  | nil => trivial
  | cons op ops ih =>
    by_cases hop : ∀ x ∈ op.items, x < s.capacity
    · rcases h.step op hop with ⟨s1, out, root1, depth1, h1, h2, h3, h4, h5⟩ | ⟨_, he, _⟩
      · left
        have := ih h3 (by rw [h4, h5]; exact hc)
        rw [h4] at this
        simp only [UnionFind.runAll, h1]
        exact ⟨hop, ⟨out, rfl, h2⟩, this⟩
      · exact absurd he hc
    · right
      simp only [UnionFind.runAll, h.step_oob_state op hop]
      exact ⟨hop, trivial, ih h hc⟩

end UnionFind

/-- C101.  Calls on a `UnionFind` with an item out of range raise `IndexError` and change nothing: the other calls of the history
are answered as if they had not been made (the capacities of C04 excepted). -/
theorem unionFind_failures {ulongMax cap : Nat} (hu : 2^32 - 1 ≤ ulongMax)
    (h8 : cap ≠ 2^8) (h16 : cap ≠ 2^16) (h32 : cap = 2^32 → ulongMax ≠ 2^32 - 1) (h64 : cap ≠ 2^64)
    {s : UnionFind} (hinit : UnionFind.init ulongMax cap = .ok s) (ops : List (UFOp Nat)) :
    UFConformsAll cap [] ops (s.runAll ops).2 := by
  obtain ⟨h, hc, hov⟩ := UnionFind.init_inv hu hinit
  have := h.runAll (by
    intro he
    rcases hov (hc ▸ he) with h | h | h | h
    · exact h8 h
    · exact h16 h
    · exact h32 h.1 h.2
    · exact h64 h) ops
  rwa [hc] at this

/-- C101.  At the capacities of C04, the union that raises `OverflowError` unites nothing, but `len` is then one less than the
number of classes; everything else is answered as before. -/
theorem unionFind_overflow_state {ulongMax cap : Nat} (hu : 2^32 - 1 ≤ ulongMax) {s s' : UnionFind}
    (hinit : UnionFind.init ulongMax cap = .ok s) {ops : List (UFOp Nat)} {outs : List UFOut}
    (hrun : s.run ops = .ok (s', outs)) {x y : Nat} (hx : x < cap) (hy : y < cap)
    (hov : (s'.step (.union x y)).2 = .error .overflowError) :
    ¬ Linked (ops.foldl UFOp.next []) x y ∧
    (s'.step (.union x y)).1.len = (Nat.card (Quotient (linkedSetoid cap (ops.foldl UFOp.next []))) : Int) - 1 ∧
    ∀ z t, ((s'.step (.union x y)).1.step (.find z)).2 = (s'.step (.find z)).2 ∧
      ((s'.step (.union x y)).1.step (.same z t)).2 = (s'.step (.same z t)).2 ∧
      ((s'.step (.union x y)).1.step (.card z)).2 = (s'.step (.card z)).2 := by
  obtain ⟨h, hc, -⟩ := UnionFind.init_inv hu hinit
  obtain ⟨-, root, depth, h', hc', -⟩ := h.run_ok ops hrun
  rw [← hc, ← hc'] at hx hy
  have hxy : root x ≠ root y := by
    intro he
    have := (h'.union_same hx hy he).1
    simp [UnionFind.step, this, Except.map] at hov
  have hfit : s'.cellMax < UnionFind.cell s'.cardinalities (root x) + UnionFind.cell s'.cardinalities (root y) := by
    by_contra hle
    obtain ⟨s2, _, _, h1, _⟩ := h'.union_diff hx hy hxy (Nat.le_of_not_lt hle)
    simp [UnionFind.step, h1, Except.map] at hov
  have hst : (s'.step (.union x y)).1 = { s' with count := s'.count - 1 } := by
    have hrx := h'.root_lt x hx
    have hry := h'.root_lt y hy
    have hgx := UnionFind.arrGet_eq (h'.lenR.symm ▸ hx : x < s'.ranks.length)
    have hgy := UnionFind.arrGet_eq (h'.lenR.symm ▸ hy : y < s'.ranks.length)
    have hat : ∀ a b, a < s'.capacity → b < s'.capacity →
        s'.cellMax < UnionFind.cell s'.cardinalities a + UnionFind.cell s'.cardinalities b →
        UnionFind.attach { s' with count := s'.count - 1 } a b = ({ s' with count := s'.count - 1 }, .error .overflowError) := by
      intro a b ha hb hlt
      unfold UnionFind.attach
      simp only [UnionFind.arrGet_eq (h'.lenC.symm ▸ ha : a < s'.cardinalities.length),
        UnionFind.arrGet_eq (h'.lenC.symm ▸ hb : b < s'.cardinalities.length),
        UnionFind.arrSet_overflow (h'.lenC.symm ▸ ha : a < s'.cardinalities.length) hlt]
    simp only [UnionFind.step, UnionFind.union, h'.find hx, h'.find hy, hxy, if_false, hgx, hgy]
    split
    · rw [hat _ _ hry hrx (by omega)]
    · split
      · rw [hat _ _ hrx hry hfit]
      · rw [hat _ _ hrx hry hfit]
  refine ⟨?_, ?_, ?_⟩
  · rw [← h'.conn x hx y hy]; exact hxy
  · rw [hst]
    have := h'.classes
    rw [hc', hc] at this
    simp only [UnionFind.len]
    rw [this]
  · intro z t
    rw [hst]
    exact ⟨rfl, rfl, rfl⟩

namespace DisjointSet
variable {α : Type} [DecidableEq α] {s : DisjointSet α} {known : List α} {pairs : List (α × α)}

theorem take_showKey (cap : Nat) (seen : List α) (k : α) : (showKey (seen.take cap) k).take cap = (showKey seen k).take cap := by
  by_cases hlt : seen.length < cap
  · rw [List.take_of_length_le hlt.le]
  · have h1 : (showKey seen k).take cap = seen.take cap := by
      unfold showKey
      split
      · rfl
      · rw [List.take_append_of_le_length (Nat.le_of_not_lt hlt)]
    rw [h1]
    unfold showKey
    split
    · simp
    · rw [List.take_append_of_le_length (by simp; omega)]
      simp

/-- A register of any list of distinct items. -/
theorem exists_register {seen : List α} (h : seen.Nodup) : ∃ r : IdRegister α, r.Inv seen := by
  have : ∀ seen : List α, seen.Nodup → ∃ r : IdRegister α, r.Inv seen := by
    intro seen
    induction seen using List.reverseRecOn with
    | nil => exact fun _ => ⟨_, IdRegister.Inv.init⟩
    | append_singleton seen k ih =>
      intro hn
      obtain ⟨hn1, -, hn2⟩ := List.nodup_append.1 hn
      obtain ⟨r, hr⟩ := ih hn1
      have hk : k ∉ seen := fun hk => hn2 k hk k (by simp) rfl
      refine ⟨(r.lookup k).2, ?_⟩
      have := (hr.lookup k).2
      rwa [showKey, if_neg hk] at this
  exact this seen h

/-- Items among those which fit have the same id whether or not more items were shown. -/
theorem idxOf_take {seen : List α} {cap : Nat} {x : α} (hx : x ∈ seen.take cap) : (seen.take cap).idxOf x = seen.idxOf x := by
  conv_rhs => rw [← List.take_append_drop cap seen]
  rw [List.idxOf_append_of_mem hx]

/-- Invariant of a disjoint set that may have been shown too many items. -/
structure InvAll (s : DisjointSet α) (known : List α) (pairs : List (α × α)) : Prop where
  reg : ∃ seen, s.register.Inv seen ∧ known = seen.take s.uf.capacity
  inv : ∀ r : IdRegister α, r.Inv known → Inv ⟨s.uf, r⟩ known pairs

/-- The register after a call, whether it raised or not. -/
theorem step_register {seen : List α} (h : s.register.Inv seen) (op : UFOp α) :
    (s.step op).1.register.Inv (op.seenNext seen) ∨
    ∃ x y, op = .same x y ∧ (s.step op).1.register.Inv (showKey seen x) ∧ ∀ a, s.uf.find ((showKey seen x).idxOf x) ≠ .ok a := by
  cases op with
  | union x y =>
    left
    obtain ⟨h1, h2⟩ := h.lookup x
    exact (h2.lookup y).2
  | find x => exact .inl (h.lookup x).2
  | card x => exact .inl (h.lookup x).2
  | same x y =>
    obtain ⟨h1, h2⟩ := h.lookup x
    obtain ⟨h3, h4⟩ := h2.lookup y
    simp only [step, areInSameSet, find, seenNext_same]
    rw [h1]
    rcases hf : s.uf.find ((showKey seen x).idxOf x) with e | a
    · right
      exact ⟨x, y, rfl, h2, by simp [hf]⟩
    · left
      simp only
      rcases s.uf.find _ with e | b
      · exact h4
      · exact h4
  | len => exact .inl h
  | clear => exact .inl (IdRegister.Inv.clear s.register)

/-- The underlying structure after a call, whether it raised or not. -/
theorem step_uf {seen : List α} (h : s.register.Inv seen) (op : UFOp α) :
    (s.step op).1.uf = (s.uf.step (op.map (op.seenNext seen).idxOf)).1 := by
  cases op with
  | union x y =>
    obtain ⟨h1, h2⟩ := h.lookup x
    obtain ⟨h3, h4⟩ := h2.lookup y
    simp only [step, union, UFOp.map, seenNext_union, UnionFind.step]
    rw [h1, h3, idxOf_showKey (mem_showKey_self)]
  | same x y =>
    simp only [step, areInSameSet, find, UFOp.map, UnionFind.step]
    rcases s.uf.find _ with e | a
    · rfl
    · simp only
      rcases s.uf.find _ with e | b <;> rfl
  | _ => rfl

theorem take_showKey_full {cap : Nat} {seen : List α} (h : cap ≤ seen.length) (k : α) :
    (showKey seen k).take cap = seen.take cap := by
  unfold showKey
  split
  · rfl
  · rw [List.take_append_of_le_length h]

theorem take_seenNext (cap : Nat) (seen : List α) (op : UFOp α) :
    (op.seenNext (seen.take cap)).take cap = (op.seenNext seen).take cap := by
  have two : ∀ x y, (showKey (showKey (seen.take cap) x) y).take cap = (showKey (showKey seen x) y).take cap := by
    intro x y
    rw [← take_showKey cap (showKey (seen.take cap) x) y, take_showKey cap seen x, take_showKey cap (showKey seen x) y]
  cases op with
  | union x y => exact two x y
  | same x y => exact two x y
  | find x => exact take_showKey _ _ _
  | card x => exact take_showKey _ _ _
  | len => simp [UFOp.seenNext, UFOp.items]
  | clear => rfl

theorem mem_take_of_idxOf {seen : List α} {cap : Nat} {x : α} (hx : x ∈ seen) (h : seen.idxOf x < cap) : x ∈ seen.take cap := by
  rw [List.mem_take_iff_getElem]
  have hl := List.idxOf_lt_length_iff.2 hx
  exact ⟨seen.idxOf x, by simp [h, hl], List.getElem_idxOf hl⟩

theorem idxOf_lt_of_mem_take {seen : List α} {cap : Nat} {x : α} (h : x ∈ seen.take cap) : seen.idxOf x < cap := by
  rw [← idxOf_take h]
  exact (List.idxOf_lt_length_iff.2 h).trans_le (List.length_take_le _ _)

theorem map_congr_items {f f' : α → Nat} (op : UFOp α) (h : ∀ x ∈ op.items, f x = f' x) : op.map f = op.map f' := by
  cases op <;> simp_all [UFOp.map, UFOp.items]

theorem items_map {f : α → Nat} (op : UFOp α) : (op.map f).items = op.items.map f := by cases op <;> rfl

/-- One call, whether it raises or not. -/
theorem InvAll.step (h : InvAll s known pairs) (hc : s.uf.capacity ≠ s.uf.cellMax + 1) (op : UFOp α) :
    (s.step op).1.uf.capacity = s.uf.capacity ∧ (s.step op).1.uf.cellMax = s.uf.cellMax ∧
    (((∀ x ∈ op.items, x ∈ op.knownNext s.uf.capacity known) ∧
      (∃ o, (s.step op).2 = .ok o ∧ DSExpected s.uf.capacity known pairs op o) ∧
      InvAll (s.step op).1 (op.knownNext s.uf.capacity known) (op.next pairs)) ∨
    ((¬ ∀ x ∈ op.items, x ∈ op.knownNext s.uf.capacity known) ∧ (s.step op).2 = .error .indexError ∧
      InvAll (s.step op).1 (op.knownNext s.uf.capacity known) pairs)) := by
  obtain ⟨seen, hreg, hkn⟩ := h.reg
  have hknd : known.Nodup := by rw [hkn]; exact hreg.nodup.sublist (List.take_sublist _ _)
  obtain ⟨r0, hr0⟩ := exists_register hknd
  have h0 := h.inv r0 hr0
  obtain ⟨root, depth, hu⟩ := h0.uf
  have htake : op.knownNext s.uf.capacity known = (op.seenNext seen).take s.uf.capacity := by
    unfold UFOp.knownNext
    rw [hkn, take_seenNext]
  have hmem := items_mem_seenNext seen op
  have e1 := (step_eq hreg op).1
  have e2 := step_uf hreg op
  -- the register afterwards
  have hnext : (s.step op).1.uf.capacity = s.uf.capacity →
      ∃ seen', (s.step op).1.register.Inv seen' ∧ op.knownNext s.uf.capacity known = seen'.take (s.step op).1.uf.capacity := by
    intro hcap
    rw [hcap, htake]
    rcases step_register hreg op with h1 | ⟨x, y, rfl, h1, h2⟩
    · exact ⟨_, h1, rfl⟩
    · refine ⟨_, h1, ?_⟩
      have hge : s.uf.capacity ≤ seen.length := by
        by_contra hlt
        have hi : (showKey seen x).idxOf x < s.uf.capacity := by
          have h3 : (showKey seen x).idxOf x < (showKey seen x).length := List.idxOf_lt_length_iff.2 mem_showKey_self
          have h4 : (showKey seen x).length ≤ seen.length + 1 := by
            unfold showKey; split <;> simp
          omega
        exact h2 _ (hu.find hi)
      rw [seenNext_same, take_showKey_full (hge.trans (length_showKey_le _ _))]
  by_cases hall : ∀ x ∈ op.items, x ∈ op.knownNext s.uf.capacity known
  · have hidx : op.map (op.seenNext seen).idxOf = op.map (op.seenNext known).idxOf := by
      refine map_congr_items op fun x hx => ?_
      have h1 := hall x hx
      have h2 := h1
      rw [htake] at h1
      rw [← idxOf_take h1, ← htake]
      exact idxOf_take h2
    have hlt : ∀ i ∈ (op.map (op.seenNext known).idxOf).items, i < s.uf.capacity := by
      intro i hi
      rw [items_map] at hi
      obtain ⟨x, hx, rfl⟩ := List.mem_map.1 hi
      exact idxOf_lt_of_mem_take (hall x hx)
    have e0 := (step_eq (s := ⟨s.uf, r0⟩) hr0 op).1
    have hfit : (op.seenNext known).length ≤ s.uf.capacity := by
      by_contra hover
      have h1 := h0.step_full op (Nat.lt_of_not_le hover)
      rw [e0] at h1
      rcases hu.step _ hlt with ⟨_, out, _, _, h2, _⟩ | ⟨h2, _⟩
      · rw [h2] at h1; cases h1
      · rw [h2] at h1; cases h1
    rcases h0.step op hfit with ⟨s1, out, h1, h2, h3, h4, h5⟩ | ⟨_, he, _⟩
    · have hs1 : s1.uf = (s.uf.step (op.map (op.seenNext known).idxOf)).1 := by
        have := step_uf (s := ⟨s.uf, r0⟩) hr0 op
        rw [h1] at this
        exact this
      have huf : (s.step op).1.uf = s1.uf := by rw [e2, hidx, hs1]
      have hk : op.knownNext s.uf.capacity known = op.seenNext known := List.take_of_length_le hfit
      have hcap : (s.step op).1.uf.capacity = s.uf.capacity := by rw [huf]; exact h4
      refine ⟨hcap, by rw [huf]; exact h5, .inl ⟨hall, ⟨out, ?_, h2⟩, hnext hcap, fun r hr => ?_⟩⟩
      · rw [e1, hidx]
        rw [h1] at e0
        exact e0.symm
      · rw [hk] at hr ⊢
        refine ⟨hr, h3.mem, ?_, ?_⟩
        · rw [huf]; exact h3.le
        · rw [huf]; exact h3.uf
    · exact absurd he hc
  · have hoob : ¬ ∀ i ∈ (op.map (op.seenNext seen).idxOf).items, i < s.uf.capacity := by
      intro hlt
      refine hall fun x hx => ?_
      rw [htake]
      refine mem_take_of_idxOf (hmem x hx) (hlt _ ?_)
      rw [items_map]
      exact List.mem_map.2 ⟨x, hx, rfl⟩
    have hst := hu.step_oob_state _ hoob
    have huf : (s.step op).1.uf = s.uf := by rw [e2]; exact congrArg Prod.fst hst
    have hcl : op ≠ .clear := by
      rintro rfl
      exact hall (by simp [UFOp.items])
    have hsub : ∀ x ∈ known, x ∈ op.knownNext s.uf.capacity known ∧
        (op.knownNext s.uf.capacity known).idxOf x = known.idxOf x := by
      intro x hx
      obtain ⟨g1, g2⟩ := seenNext_extend known op hcl x hx
      have hlt : (op.seenNext known).idxOf x < s.uf.capacity := by
        rw [g1]
        exact (List.idxOf_lt_length_iff.2 hx).trans_le h0.le
      have hm := mem_take_of_idxOf g2 hlt
      exact ⟨hm, (idxOf_take hm).trans g1⟩
    refine ⟨by rw [huf], by rw [huf], .inr ⟨hall, ?_, hnext (by rw [huf]), fun r hr => ?_⟩⟩
    · rw [e1]; exact congrArg Prod.snd hst
    · refine ⟨hr, fun p hp => ⟨(hsub _ (h0.mem p hp).1).1, (hsub _ (h0.mem p hp).2).1⟩, ?_, ?_⟩
      · rw [huf]; exact List.length_take_le _ _
      · rw [huf]
        refine ⟨root, depth, ?_⟩
        rw [idPairs_extend h0.mem (fun x hx => (hsub x hx).2)]
        exact hu

theorem InvAll.runAll (h : InvAll s known pairs) (hc : s.uf.capacity ≠ s.uf.cellMax + 1) (ops : List (UFOp α)) :
    DSConformsAll s.uf.capacity known pairs ops (s.runAll ops).2 := by
  induction ops generalizing s known pairs with
  | nil => trivial
  | cons op ops ih =>
    obtain ⟨h1, h2, h3⟩ := h.step hc op
    have hc' : (s.step op).1.uf.capacity ≠ (s.step op).1.uf.cellMax + 1 := by rw [h1, h2]; exact hc
    simp only [DisjointSet.runAll]
    rcases h3 with ⟨a1, a2, a3⟩ | ⟨a1, a2, a3⟩
    · have := ih a3 hc'
      rw [h1] at this
      exact .inl ⟨a1, a2, this⟩
    · have := ih a3 hc'
      rw [h1] at this
      exact .inr ⟨a1, a2, this⟩

end DisjointSet

/-- C101.  A `DisjointSet` shown too many items raises `IndexError` on those that do not fit and goes on answering about the
others; a call that raises unites nothing, though it may take the last place for its first item. -/
theorem disjointSet_failures {α : Type} [DecidableEq α] {ulongMax cap : Nat} (hu : 2^32 - 1 ≤ ulongMax)
    (h8 : cap ≠ 2^8) (h16 : cap ≠ 2^16) (h32 : cap = 2^32 → ulongMax ≠ 2^32 - 1) (h64 : cap ≠ 2^64)
    {s : DisjointSet α} (hinit : DisjointSet.init ulongMax cap = .ok s) (ops : List (UFOp α)) :
    DSConformsAll cap [] [] ops (s.runAll ops).2 := by
  obtain ⟨h, hc, hov⟩ := DisjointSet.init_inv hu hinit
  have hall : DisjointSet.InvAll s [] [] := ⟨⟨[], h.reg, by simp⟩, fun r hr => ⟨hr, h.mem, h.le, h.uf⟩⟩
  have := hall.runAll (by
    intro he
    rcases hov (hc ▸ he) with h | h | h | h
    · exact h8 h
    · exact h16 h
    · exact h32 h.1 h.2
    · exact h64 h) ops
  rwa [hc] at this

/-- C101.  `capacity` is the number given to the constructor, whatever the calls and the exceptions. -/
theorem disjointSet_capacity {α : Type} [DecidableEq α] {ulongMax cap : Nat} (hu : 2^32 - 1 ≤ ulongMax)
    (h8 : cap ≠ 2^8) (h16 : cap ≠ 2^16) (h32 : cap = 2^32 → ulongMax ≠ 2^32 - 1) (h64 : cap ≠ 2^64)
    {s : DisjointSet α} (hinit : DisjointSet.init ulongMax cap = .ok s) (ops : List (UFOp α)) :
    (s.runAll ops).1.capacity = cap := by
  obtain ⟨h, hc, hov⟩ := DisjointSet.init_inv hu hinit
  have hall : DisjointSet.InvAll s [] [] := ⟨⟨[], h.reg, by simp⟩, fun r hr => ⟨hr, h.mem, h.le, h.uf⟩⟩
  have hne : s.uf.capacity ≠ s.uf.cellMax + 1 := by
    intro he
    rcases hov (hc ▸ he) with h | h | h | h
    · exact h8 h
    · exact h16 h
    · exact h32 h.1 h.2
    · exact h64 h
  have key : ∀ (ops : List (UFOp α)) (s : DisjointSet α) known pairs, DisjointSet.InvAll s known pairs →
      s.uf.capacity ≠ s.uf.cellMax + 1 → (s.runAll ops).1.uf.capacity = s.uf.capacity := by
    intro ops
    induction ops with
    | nil => intros; rfl
    | cons op ops ih =>
      intro s known pairs h hc
      obtain ⟨h1, h2, h3⟩ := h.step hc op
      have hc' : (s.step op).1.uf.capacity ≠ (s.step op).1.uf.cellMax + 1 := by rw [h1, h2]; exact hc
      rw [DisjointSet.runAll]
      rcases h3 with ⟨-, -, a3⟩ | ⟨-, -, a3⟩
      · exact (ih _ _ _ a3 hc').trans h1
      · exact (ih _ _ _ a3 hc').trans h1
  exact (key ops s _ _ hall hne).trans hc

/-- Non-triviality: a structure of capacity 2 shown three items; the call that raises takes the last place for "b". -/
example : ((DisjointSet.init (α := String) (2^64-1) 2).toOption.map fun s =>
    (s.runAll [.find "a", .union "b" "c", .same "a" "b", .union "c" "a", .union "a" "b", .len, .card "a", .find "c", .clear, .find "c"]).2) =
    some [.ok (.nat 0), .error .indexError, .ok (.bool false), .error .indexError, .ok (.bool true), .ok (.int 1), .ok (.nat 2),
      .error .indexError, .ok .unit, .ok (.nat 0)] := by decide +kernel

/-! ### Negative items -/

/-- The item meant by an integer: a negative one counts from the end, and what is below is as much out of range as the capacity. -/
def wrapItem (cap : Nat) (x : Int) : Nat := if 0 ≤ x then x.toNat else if 0 ≤ x + cap then (x + cap).toNat else cap

theorem arrGetI_eq {a : List Nat} {cap : Nat} (h : a.length = cap) (x : Int) : arrGetI a x = arrGet a (wrapItem cap x) := by
  subst h
  unfold arrGetI pyIndex wrapItem
  have hoob : ∀ i, a.length ≤ i → arrGet a i = .error .indexError := fun i hi => UnionFind.arrGet_oob hi
  split_ifs with h1 h2 h3
  · rfl
  · rw [hoob _ (by omega)]
  · rfl
  · rw [hoob _ (Nat.le_refl _)]

theorem arrGetI_nat {a : List Nat} {cap : Nat} (h : a.length = cap) (n : Nat) : arrGetI a (n : Int) = arrGet a n := by
  rw [arrGetI_eq h]
  unfold wrapItem
  simp

theorem arrSetI_nat {m : Nat} {a : List Nat} (i v : Nat) : arrSetI m a (i : Int) (v : Int) = arrSet m a i v := by
  unfold arrSetI pyIndex arrSet
  have h0 : ¬ ((v : Int) < 0) := by omega
  simp only [Int.natCast_nonneg, if_true, h0, if_false, Int.toNat_natCast]
  by_cases h : i < a.length
  · simp [h]
  · simp [h, Nat.le_of_not_lt h]

namespace UnionFind
variable {s : UnionFind} {pairs : List (Nat × Nat)} {root depth : Nat → Nat}

theorem climbI_nat {parents : List Nat} (fuel n : Nat) : climbI parents fuel (n : Int) = (climb parents fuel n).map (fun r : Nat => (r : Int)) := by
  induction fuel generalizing n with
  | zero => rfl
  | succ fuel ih =>
    rw [climbI, climb, arrGetI_nat rfl]
    cases arrGet parents n with
    | error e => rfl
    | ok c =>
      simp only [Int.natCast_inj]
      split
      · rfl
      · exact ih c

theorem rewalkI_nat {parents : List Nat} (r fuel n : Nat) : rewalkI parents (r : Int) fuel (n : Int) = rewalk parents r fuel n := by
  induction fuel generalizing n with
  | zero => rfl
  | succ fuel ih =>
    rw [rewalkI, rewalk, arrGetI_nat rfl]
    cases arrGet parents n with
    | error e => rfl
    | ok c =>
      simp only [Int.natCast_inj]
      split
      · rfl
      · exact ih c

theorem wrapItem_cases (cap : Nat) (x : Int) :
    (0 ≤ x ∧ x = (wrapItem cap x : Int)) ∨ (x < 0 ∧ wrapItem cap x < cap) ∨ (x < 0 ∧ wrapItem cap x = cap) := by
  unfold wrapItem
  split_ifs with h1 h2
  · left; omega
  · right; left; omega
  · right; right; exact ⟨by omega, rfl⟩

/-- `find` with any integer. -/
theorem Inv.findI (h : Inv s pairs root depth) (x : Int) :
    s.findI x = (s.find (wrapItem s.capacity x)).map (fun r : Nat => (r : Int)) := by
  set n := wrapItem s.capacity x with hn
  by_cases hlt : n < s.capacity
  · have hd := h.depth_lt_cap hlt
    rw [h.find hlt]
    have hd2 : depth (cell s.parents n) < s.capacity + 1 := (h.depth_lt_cap (h.par_lt n hlt)).trans (Nat.lt_succ_self _)
    rcases wrapItem_cases s.capacity x with ⟨h0, hx⟩ | ⟨h0, -⟩ | ⟨h0, he⟩
    · rw [← hn] at hx
      rw [hx, UnionFind.findI, climbI_nat, h.climb _ _ hlt (by omega)]
      simp only [Except.map]
      rw [rewalkI_nat, h.rewalk _ _ hlt (by omega)]
    · have hg : arrGetI s.parents x = .ok (cell s.parents n) := by
        rw [arrGetI_eq h.lenP, ← hn]
        exact arrGet_eq (h.lenP.symm ▸ hlt)
      have hne : ∀ k : Nat, x ≠ (k : Int) := fun k hk => by omega
      have h1 : climbI s.parents (s.capacity + 2) x = .ok (root n : Int) := by
        rw [climbI, hg]
        simp only [hne, if_false]
        rw [climbI_nat, h.climb _ _ (h.par_lt n hlt) hd2, h.root_par n hlt]
        rfl
      have h2 : rewalkI s.parents (root n : Int) (s.capacity + 2) x = .ok () := by
        rw [rewalkI, hg]
        simp only [Int.natCast_inj]
        split
        · rfl
        · rw [rewalkI_nat, ← h.root_par n hlt]
          exact h.rewalk _ _ (h.par_lt n hlt) hd2
      rw [UnionFind.findI, h1]
      simp only [h2]
      rfl
    · omega
  · rw [find_oob h.lenP (Nat.le_of_not_lt hlt)]
    have hg : arrGetI s.parents x = .error .indexError := by
      rw [arrGetI_eq h.lenP, ← hn]
      exact arrGet_oob (h.lenP.symm ▸ Nat.le_of_not_lt hlt)
    rw [UnionFind.findI, climbI, hg]
    rfl

theorem attachI_nat (s : UnionFind) (a b : Nat) : s.attachI a b = s.attach a b := by
  unfold attachI attach
  rw [arrGetI_nat rfl, arrGetI_nat rfl]
  cases arrGet s.cardinalities a with
  | error e => cases arrGet s.cardinalities b <;> rfl
  | ok ca =>
    cases arrGet s.cardinalities b with
    | error e => rfl
    | ok cb =>
      simp only
      rw [← Nat.cast_add, arrSetI_nat]
      cases arrSet s.cellMax s.cardinalities a (ca + cb) with
      | error e => rfl
      | ok cards =>
        simp only
        rw [arrSetI_nat]
        rfl

/-- Every call with any integers is the call with the items they mean. -/
theorem Inv.calls (h : Inv s pairs root depth) (x y : Int) :
    s.unionI x y = s.union (wrapItem s.capacity x) (wrapItem s.capacity y) ∧
    s.cardinalityI x = s.cardinality (wrapItem s.capacity x) ∧
    s.areInSameSetI x y = s.areInSameSet (wrapItem s.capacity x) (wrapItem s.capacity y) := by
  refine ⟨?_, ?_, ?_⟩
  · unfold unionI union
    rw [h.findI, h.findI]
    cases s.find (wrapItem s.capacity x) with
    | error e => rfl
    | ok xr =>
      cases s.find (wrapItem s.capacity y) with
      | error e => rfl
      | ok yr =>
        simp only [Except.map, Int.natCast_inj]
        rw [arrGetI_eq h.lenR, arrGetI_eq h.lenR, attachI_nat, attachI_nat]
        split
        · rfl
        · cases arrGet s.ranks (wrapItem s.capacity x) with
          | error e => cases arrGet s.ranks (wrapItem s.capacity y) <;> rfl
          | ok rx =>
            cases arrGet s.ranks (wrapItem s.capacity y) with
            | error e => rfl
            | ok ry =>
              simp only
              split
              · rfl
              · split
                · rfl
                · rcases UnionFind.attach { s with count := s.count - 1 } xr yr with ⟨s1, e | ⟨⟩⟩
                  · rfl
                  · simp only
                    rw [arrGetI_nat rfl]
                    cases arrGet s1.ranks xr with
                    | error e => rfl
                    | ok r =>
                      simp only
                      rw [show ((r : Int) + 1) = ((r + 1 : Nat) : Int) by push_cast; rfl, arrSetI_nat]
                      rfl
  · unfold cardinalityI cardinality
    rw [h.findI]
    cases s.find (wrapItem s.capacity x) with
    | error e => rfl
    | ok r => exact arrGetI_nat rfl r
  · unfold areInSameSetI areInSameSet
    rw [h.findI, h.findI]
    cases s.find (wrapItem s.capacity x) with
    | error e => rfl
    | ok xr =>
      cases s.find (wrapItem s.capacity y) with
      | error e => rfl
      | ok yr => simp [Except.map]

theorem Inv.runAll_state (h : Inv s pairs root depth) (hc : s.capacity ≠ s.cellMax + 1) (ops : List (UFOp Nat)) :
    ∃ pairs' root' depth', Inv (s.runAll ops).1 pairs' root' depth' ∧ (s.runAll ops).1.capacity = s.capacity := by
  induction ops generalizing s pairs root depth with
  | nil => exact ⟨_, _, _, h, rfl⟩
  | cons op ops ih =>
    by_cases hop : ∀ x ∈ op.items, x < s.capacity
    · rcases h.step op hop with ⟨s1, out, root1, depth1, h1, h2, h3, h4, h5⟩ | ⟨_, he, _⟩
      · simp only [UnionFind.runAll, h1]
        obtain ⟨a, b, c, d, e⟩ := ih h3 (by rw [h4, h5]; exact hc)
        exact ⟨a, b, c, d, e.trans h4⟩
      · exact absurd he hc
    · simp only [UnionFind.runAll, h.step_oob_state op hop]
      exact ih h hc

end UnionFind

/-- C101.  A negative item counts from the end, as Python indices do: after any history (exceptions caught, the capacities of C04
excepted) every call with integers is the call with the items they mean, and integers below minus the capacity are out of
range. -/
theorem unionFind_negative {ulongMax cap : Nat} (hu : 2^32 - 1 ≤ ulongMax)
    (h8 : cap ≠ 2^8) (h16 : cap ≠ 2^16) (h32 : cap = 2^32 → ulongMax ≠ 2^32 - 1) (h64 : cap ≠ 2^64)
    {s s' : UnionFind} (hinit : UnionFind.init ulongMax cap = .ok s) (ops : List (UFOp Nat)) (hs : (s.runAll ops).1 = s')
    (x y : Int) :
    s'.findI x = (s'.find (wrapItem cap x)).map (fun r : Nat => (r : Int)) ∧
    s'.unionI x y = s'.union (wrapItem cap x) (wrapItem cap y) ∧
    s'.cardinalityI x = s'.cardinality (wrapItem cap x) ∧
    s'.areInSameSetI x y = s'.areInSameSet (wrapItem cap x) (wrapItem cap y) := by
  obtain ⟨h, hc, hov⟩ := UnionFind.init_inv hu hinit
  obtain ⟨_, _, _, h', hc'⟩ := h.runAll_state (by
    intro he
    rcases hov (hc ▸ he) with h | h | h | h
    · exact h8 h
    · exact h16 h
    · exact h32 h.1 h.2
    · exact h64 h) ops
  rw [hs] at h' hc'
  rw [← hc, ← hc']
  exact ⟨h'.findI x, h'.calls x y⟩

/-- Non-triviality: with a capacity of 3, -1 is item 2, and -4 is out of range. -/
example : ((UnionFind.init (2^64-1) 3).toOption.map fun s =>
    ((s.unionI (-1) 0).2, (s.unionI (-1) 0).1.findI 2, (s.unionI (-1) 0).1.cardinalityI (-3), (s.findI (-4)))) =
    some (.ok true, .ok 2, .ok 2, .error .indexError) := by decide +kernel

end Pelote
