import Verif.Lemmas.DisjointSet

/-! C01–C07: union-find, disjoint set, id register, unsigned representations. -/
namespace Pelote
open UnionFind

/-! ### C01, C02, C03: a history of calls returns what the partition says -/

/-- C01/C02/C03.  Every history of `union`/`find`/`are_in_same_set`/`cardinality`/`len`/`clear` calls
that does not raise returns, at each call, what the partition generated by the unions since the last
`clear` says. -/
theorem unionFind_history {ulongMax cap : Nat} (hu : 2^32 - 1 ≤ ulongMax) {s s' : UnionFind}
    (hinit : UnionFind.init ulongMax cap = .ok s) {ops : List (UFOp Nat)} {outs : List UFOut}
    (hrun : s.run ops = .ok (s', outs)) : UFConforms cap [] ops outs := by
  obtain ⟨h, hc, _⟩ := init_inv hu hinit
  have := (h.run_ok ops hrun).1
  rwa [hc] at this

/-- C01.  After any history, two items have the same representative exactly when they are linked. -/
theorem unionFind_find_canonical {ulongMax cap : Nat} (hu : 2^32 - 1 ≤ ulongMax) {s s' : UnionFind}
    (hinit : UnionFind.init ulongMax cap = .ok s) {ops : List (UFOp Nat)} {outs : List UFOut}
    (hrun : s.run ops = .ok (s', outs)) {x y : Nat} (hx : x < cap) (hy : y < cap) :
    (∃ r, s'.find x = .ok r) ∧
      (s'.find x = s'.find y ↔ Linked (ops.foldl UFOp.next []) x y) := by
  obtain ⟨h, hc, _⟩ := init_inv hu hinit
  obtain ⟨_, root, depth, h', hc', _⟩ := h.run_ok ops hrun
  rw [← hc, ← hc'] at hx hy
  rw [h'.find hx, h'.find hy, ← h'.conn x hx y hy]
  exact ⟨⟨_, rfl⟩, by simp⟩

/-- Non-triviality for the two theorems above: a history that runs to completion. -/
example : ((UnionFind.init (2^64-1) 5).toOption.map fun s =>
    ((s.run [.union 0 1, .union 2 1, .union 2 0, .same 0 2, .same 0 3, .card 1, .find 2, .len, .clear, .len]).map
      Prod.snd).toOption) =
    some (some [.bool true, .bool true, .bool false, .bool true, .bool false, .nat 3, .nat 2, .int 3, .unit, .int 5]) := by
  decide +kernel

/-! ### C04: typed array overflow -/

/-- C04, the true part: every capacity up to `2^64` except exactly `2^8`, `2^16`, `2^32` (on platforms
whose `unsigned long` is 32 bits wide) and `2^64` can be allocated, and no history of in-range calls
raises (or loops forever). -/
theorem unionFind_never_raises_partial {ulongMax cap : Nat} (hu : 2^32 - 1 ≤ ulongMax) (hcap : cap ≤ 2^64)
    (h8 : cap ≠ 2^8) (h16 : cap ≠ 2^16) (h32 : cap = 2^32 → ulongMax ≠ 2^32 - 1) (h64 : cap ≠ 2^64) :
    ∃ s, UnionFind.init ulongMax cap = .ok s ∧
      ∀ ops : List (UFOp Nat), (∀ op ∈ ops, ∀ x ∈ op.items, x < cap) →
        ∃ s' outs, s.run ops = .ok (s', outs) := by
  have hs : ∃ s, UnionFind.init ulongMax cap = .ok s := by
    unfold init uintRepresentationForCapacity
    rcases uintRep_cases ((cap : Int) - 1) with ⟨_, h⟩ | ⟨_, _, h⟩ | ⟨_, _, h⟩ | ⟨_, _, h⟩ | ⟨h1, _⟩
    · exact ⟨_, by rw [h]⟩
    · exact ⟨_, by rw [h]⟩
    · exact ⟨_, by rw [h]⟩
    · exact ⟨_, by rw [h]⟩
    · omega
  obtain ⟨s, hs⟩ := hs
  refine ⟨s, hs, fun ops hops => ?_⟩
  obtain ⟨h, hc, hov⟩ := init_inv hu hs
  rcases h.run_range ops (by rw [hc]; exact hops) with ⟨h1, _⟩ | ⟨_, h2, _⟩
  · exact h1
  · rw [hc] at h2
    rcases hov h2 with h | h | h | h
    · exact absurd h h8
    · exact absurd h h16
    · exact absurd h.2 (h32 h.1)
    · exact absurd h h64

example : (1000 : Nat) ≤ 2^64 ∧ 1000 ≠ 2^8 ∧ 1000 ≠ 2^16 ∧ (1000 = 2^32 → 2^64 - 1 ≠ 2^32 - 1) ∧ 1000 ≠ 2^64 := by
  decide

/-- C04, exactly when it fails: at the capacities whose class sizes do not fit the cells, an in-range
history raises `OverflowError` exactly when at some point all the items are linked. -/
theorem unionFind_overflow_iff {ulongMax cap : Nat} (hu : 2^32 - 1 ≤ ulongMax)
    (hcap : cap = 2^8 ∨ cap = 2^16 ∨ (cap = 2^32 ∧ ulongMax = 2^32 - 1) ∨ cap = 2^64) {s : UnionFind}
    (hinit : UnionFind.init ulongMax cap = .ok s) (ops : List (UFOp Nat))
    (hops : ∀ op ∈ ops, ∀ x ∈ op.items, x < cap) :
    s.run ops = .error .overflowError ↔
      ∃ pre suf, ops = pre ++ suf ∧ ∀ x < cap, ∀ y < cap, Linked (pre.foldl UFOp.next []) x y := by
  obtain ⟨h, hc, _⟩ := init_inv hu hinit
  have hcell : cap = s.cellMax + 1 := by
    unfold init uintRepresentationForCapacity at hinit
    rcases uintRep_cases ((cap : Int) - 1) with ⟨h1, h2⟩ | ⟨h0, h1, h2⟩ | ⟨h0, h1, h2⟩ | ⟨h0, h1, h2⟩ | ⟨h1, h2⟩ <;>
      rw [h2] at hinit <;> simp only [Except.ok.injEq, reduceCtorEq] at hinit <;> subst hinit <;>
      simp [TypeCode.cellMax] <;> omega
  have hnil : ¬ ∀ x < cap, ∀ y < cap, Linked ([] : List (Nat × Nat)) x y := by
    intro hall
    have := linked_nil.1 (hall 0 (by omega) 1 (by omega))
    omega
  rcases h.run_range ops (by rw [hc]; exact hops) with ⟨⟨s', outs, h1⟩, h2⟩ | ⟨h1, _, pre, op, suf, he, hl⟩
  · rw [h1]
    simp only [reduceCtorEq, false_iff, not_exists, not_and]
    intro pre suf he hl
    rcases List.eq_nil_or_concat pre with rfl | ⟨pre', op, rfl⟩
    · exact hnil hl
    · exact h2 (by omega) pre' op suf (by simp [he]) (by rw [hc, ← List.concat_eq_append]; exact hl)
  · rw [h1]
    refine iff_of_true rfl ⟨pre ++ [op], suf, by simp [he], ?_⟩
    rw [hc] at hl
    exact hl

/-- C04 is false: with a capacity of 256, uniting item 0 with each other item raises. -/
theorem unionFind_overflow_at_256 {ulongMax : Nat} (hu : 2^32 - 1 ≤ ulongMax) :
    ∃ s, UnionFind.init ulongMax 256 = .ok s ∧
      s.run ((List.range 256).map fun i => .union 0 i) = .error .overflowError := by
  have hs : ∃ s, UnionFind.init ulongMax 256 = .ok s := ⟨_, rfl⟩
  obtain ⟨s, hs⟩ := hs
  refine ⟨s, hs, ?_⟩
  rw [unionFind_overflow_iff hu (.inl rfl) hs]
  · refine ⟨_, [], (List.append_nil _).symm, ?_⟩
    have key : ∀ (l : List Nat) (ps : List (Nat × Nat)) (x : Nat), (x ∈ l ∨ (0, x) ∈ ps) →
        (0, x) ∈ (l.map fun i => UFOp.union 0 i).foldl UFOp.next ps := by
      intro l
      induction l with
      | nil => intro ps x h; simpa using h
      | cons a l ih =>
        intro ps x h
        simp only [List.map_cons, List.foldl_cons]
        refine ih _ x ?_
        rcases h with h | h
        · rcases List.mem_cons.1 h with rfl | h
          · exact .inr (by simp [UFOp.next])
          · exact .inl h
        · exact .inr (by simp [UFOp.next, h])
    intro x hx y hy
    exact (Linked.of_mem (key _ _ x (.inl (List.mem_range.2 hx)))).symm.trans
      (Linked.of_mem (key _ _ y (.inl (List.mem_range.2 hy))))
  · intro op hop x hx
    obtain ⟨i, hi, rfl⟩ := List.mem_map.1 hop
    simp [UFOp.items] at hx hi
    omega

/-- An out-of-range item raises `IndexError` at any point of any history. -/
theorem unionFind_out_of_range {ulongMax cap : Nat} (hu : 2^32 - 1 ≤ ulongMax) {s s' : UnionFind}
    (hinit : UnionFind.init ulongMax cap = .ok s) {ops : List (UFOp Nat)} {outs : List UFOut}
    (hrun : s.run ops = .ok (s', outs)) {op : UFOp Nat} (hop : ∃ x ∈ op.items, cap ≤ x) :
    (s'.step op).2 = .error .indexError := by
  obtain ⟨h, hc, _⟩ := init_inv hu hinit
  obtain ⟨_, root, depth, h', hc', _⟩ := h.run_ok ops hrun
  refine h'.step_oob op ?_
  obtain ⟨x, hx, hle⟩ := hop
  intro hall
  have := hall x hx
  omega

/-! ### C01–C05 for `DisjointSet` -/

/-- C01/C02/C03 for arbitrary items. -/
theorem disjointSet_history {α : Type} [DecidableEq α] {ulongMax cap : Nat} (hu : 2^32 - 1 ≤ ulongMax)
    {s s' : DisjointSet α} (hinit : DisjointSet.init ulongMax cap = .ok s) {ops : List (UFOp α)}
    {outs : List UFOut} (hrun : s.run ops = .ok (s', outs)) : DSConforms cap [] [] ops outs := by
  obtain ⟨h, hc, _⟩ := DisjointSet.init_inv hu hinit
  have := (h.run_ok ops hrun).1
  rwa [hc] at this

example : ((DisjointSet.init (α := String) (2^64-1) 4).toOption.map fun s =>
    ((s.run [.union "a" "b", .same "b" "a", .card "c", .union "c" "b", .card "a", .len, .clear, .same "a" "b"]).map
      Prod.snd).toOption) =
    some (some [.bool true, .bool true, .nat 1, .bool true, .nat 3, .int 2, .unit, .bool false]) := by
  decide +kernel

/-- C05, first half (the capacities of C04 excepted): as long as the distinct items shown since the
last `clear` do not exceed the capacity, nothing raises. -/
theorem disjointSet_never_raises {α : Type} [DecidableEq α] {ulongMax cap : Nat}
    (hu : 2^32 - 1 ≤ ulongMax)
    (h8 : cap ≠ 2^8) (h16 : cap ≠ 2^16) (h32 : cap = 2^32 → ulongMax ≠ 2^32 - 1) (h64 : cap ≠ 2^64)
    {s : DisjointSet α} (hinit : DisjointSet.init ulongMax cap = .ok s) (ops : List (UFOp α))
    (hfit : ∀ pre suf, ops = pre ++ suf → (pre.foldl UFOp.seenNext []).length ≤ cap) :
    ∃ s' outs, s.run ops = .ok (s', outs) := by
  obtain ⟨h, hc, hov⟩ := DisjointSet.init_inv hu hinit
  refine h.run_fits ops (by rw [hc]; exact hfit) ?_
  rw [hc]
  intro he
  rcases hov he with h | h | h | h
  · exact h8 h
  · exact h16 h
  · exact h32 h.1 h.2
  · exact h64 h

/-- C05, second half: after any history that did not raise, the first call showing one item too many
raises `IndexError`. -/
theorem disjointSet_full {α : Type} [DecidableEq α] {ulongMax cap : Nat} (hu : 2^32 - 1 ≤ ulongMax)
    {s s' : DisjointSet α} (hinit : DisjointSet.init ulongMax cap = .ok s) {ops : List (UFOp α)}
    {outs : List UFOut} (hrun : s.run ops = .ok (s', outs)) (op : UFOp α)
    (hover : cap < (op.seenNext (ops.foldl UFOp.seenNext [])).length) :
    (s'.step op).2 = .error .indexError := by
  obtain ⟨h, hc, _⟩ := DisjointSet.init_inv hu hinit
  obtain ⟨_, h', hc', _⟩ := h.run_ok ops hrun
  exact h'.step_full op (by rw [hc', hc]; exact hover)

example : (2 : Nat) < (UFOp.seenNext ([.union "a" "b"].foldl UFOp.seenNext []) (.find "c")).length := by
  decide

/-! ### C06: incremental ids -/

/-- C06.  Any history of lookups and clears returns, at each lookup, the rank of first appearance of the
key among the distinct keys looked up since the last `clear`. -/
theorem idRegister_history {α : Type} [DecidableEq α] (ops : List (IdOp α)) :
    ((IdRegister.init : IdRegister α).run ops).2 = idExpected [] ops :=
  (IdRegister.Inv.init.run ops).1

/-- C06.  Without `clear`, two lookups of a history get the same id exactly when their keys are equal;
the ids handed out are exactly `0, …, d-1` for `d` distinct keys. -/
theorem idRegister_injective {α : Type} [DecidableEq α] (keys : List α) :
    ∃ ids : List Nat, ((IdRegister.init : IdRegister α).run (keys.map .lookup)).2 = ids.map some ∧
      ids.length = keys.length ∧
      (∀ i j : Nat, i < keys.length → j < keys.length → (ids[i]? = ids[j]? ↔ keys[i]? = keys[j]?)) ∧
      (∀ n, n ∈ ids ↔ n < keys.toFinset.card) := by
  refine ⟨keys.map (keys.foldl showKey []).idxOf, ?_, by simp, ?_, ?_⟩
  · rw [idRegister_history, idExpected_lookups, List.map_map]; rfl
  · intro i j hi hj
    simp only [List.getElem?_map, List.getElem?_eq_getElem hi, List.getElem?_eq_getElem hj,
      Option.map_some, Option.some.injEq]
    constructor
    · exact DisjointSet.linked_idPairs.List.idxOf_inj_left (mem_foldl_showKey.2 (.inr (List.getElem_mem _)))
    · intro h; rw [h]
  · intro n
    rw [← length_foldl_showKey]
    have hn := nodup_foldl_showKey (List.nodup_nil (α := α)) keys
    constructor
    · intro h
      obtain ⟨k, hk, rfl⟩ := List.mem_map.1 h
      exact List.idxOf_lt_length_iff.2 (mem_foldl_showKey.2 (.inr hk))
    · intro h
      refine List.mem_map.2 ⟨(keys.foldl showKey [])[n], ?_, hn.idxOf_getElem n h⟩
      rcases mem_foldl_showKey.1 (List.getElem_mem h) with h | h
      · simp at h
      · exact h

example : ((IdRegister.init : IdRegister String).run
    [.lookup "b", .lookup "a", .lookup "b", .clear, .lookup "a", .lookup "b"]).2 =
    [some 0, some 1, some 0, none, some 0, some 1] := by decide +kernel

/-! ### C07: unsigned representations -/

/-- C07.  The representation chosen for `m` is the first of the four whose maximum is at least `m`, and
`TypeError` is raised exactly when there is none. -/
theorem uintRepresentation_smallest (m : Int) :
    (∀ r, uintRepresentationForMax m = .ok r ↔
      ((r.max, r.code) ∈ [(2^8 - 1, TypeCode.B), (2^16 - 1, TypeCode.H), (2^32 - 1, TypeCode.L), (2^64 - 1, TypeCode.Q)] ∧
        m ≤ r.max ∧ ∀ k ∈ [8, 16, 32, 64], m ≤ 2^k - 1 → r.max ≤ 2^k - 1)) ∧
    ((∃ tag, uintRepresentationForMax m = .error (.typeError tag)) ↔ 2^64 ≤ m) := by
  constructor
  · rintro ⟨mx, c⟩
    rcases uintRep_cases m with ⟨h1, h2⟩ | ⟨h0, h1, h2⟩ | ⟨h0, h1, h2⟩ | ⟨h0, h1, h2⟩ | ⟨h1, h2⟩ <;> rw [h2] <;>
      simp only [Except.ok.injEq, Representation.mk.injEq, List.mem_cons, Prod.mk.injEq, List.not_mem_nil, or_false,
        forall_eq_or_imp, forall_eq, reduceCtorEq, false_iff] <;> (try constructor)
    all_goals first | (rintro ⟨rfl, rfl⟩; simp; omega) | (rintro ⟨⟨rfl, rfl⟩ | ⟨rfl, rfl⟩ | ⟨rfl, rfl⟩ | ⟨rfl, rfl⟩, ha, hb, hc, hd, he⟩ <;> simp at * <;> omega)
  · rcases uintRep_cases m with ⟨h1, h2⟩ | ⟨h0, h1, h2⟩ | ⟨h0, h1, h2⟩ | ⟨h0, h1, h2⟩ | ⟨h1, h2⟩ <;> rw [h2] <;> simp <;> omega

/-- C07.  For a capacity, every index below it fits (this is what the parent arrays need). -/
theorem uintRepresentation_capacity {ulongMax : Nat} (hu : 2^32 - 1 ≤ ulongMax) (cap : Nat) {r : Representation}
    (h : uintRepresentationForCapacity cap = .ok r) : ∀ i < cap, i ≤ r.code.cellMax ulongMax := by
  intro i hi
  unfold uintRepresentationForCapacity at h
  rcases uintRep_cases ((cap : Int) - 1) with ⟨h1, h2⟩ | ⟨h0, h1, h2⟩ | ⟨h0, h1, h2⟩ | ⟨h0, h1, h2⟩ | ⟨h1, h2⟩ <;>
    rw [h2] at h <;> simp only [Except.ok.injEq, reduceCtorEq] at h <;> subst h <;>
    simp [TypeCode.cellMax] <;> omega

example : uintRepresentationForMax 255 = .ok ⟨255, .B⟩ ∧ uintRepresentationForMax 256 = .ok ⟨65535, .H⟩ := by
  decide

end Pelote
