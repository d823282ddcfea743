import Verif.Spec.DisjointSet
import Verif.Lemmas.UnionFind
import Verif.Lemmas.Register
import Mathlib.Data.Setoid.Basic

/-! `DisjointSet` simulates `UnionFind` through the register. -/
namespace Pelote
variable {α : Type} [DecidableEq α]

/-- The call on the underlying structure. -/
def UFOp.map {β : Type} (f : α → β) : UFOp α → UFOp β
  | .union x y => .union (f x) (f y)
  | .find x => .find (f x)
  | .same x y => .same (f x) (f y)
  | .card x => .card (f x)
  | .len => .len
  | .clear => .clear

/-- Pairs of items as pairs of ids. -/
def idPairs (seen : List α) (pairs : List (α × α)) : List (Nat × Nat) :=
  pairs.map (fun p => (seen.idxOf p.1, seen.idxOf p.2))

theorem seenNext_union (seen : List α) (x y : α) :
    UFOp.seenNext seen (.union x y) = showKey (showKey seen x) y := rfl
theorem seenNext_same (seen : List α) (x y : α) :
    UFOp.seenNext seen (.same x y) = showKey (showKey seen x) y := rfl
theorem seenNext_find (seen : List α) (x : α) :
    UFOp.seenNext seen (.find x) = showKey seen x := rfl
theorem seenNext_card (seen : List α) (x : α) :
    UFOp.seenNext seen (.card x) = showKey seen x := rfl
theorem seenNext_len (seen : List α) : UFOp.seenNext seen .len = seen := rfl
theorem seenNext_clear (seen : List α) : UFOp.seenNext seen .clear = [] := rfl

theorem mem_showKey_self {seen : List α} {k : α} : k ∈ showKey seen k := mem_showKey.2 (.inr rfl)
theorem mem_showKey_of_mem {seen : List α} {k x : α} (h : x ∈ seen) : x ∈ showKey seen k :=
  mem_showKey.2 (.inl h)

theorem length_showKey_le (seen : List α) (k : α) : seen.length ≤ (showKey seen k).length := by
  unfold showKey; split <;> simp

/-- If showing a key makes the list longer than `cap`, the key's rank is out of range. -/
theorem idxOf_showKey_ge {seen : List α} {k : α} {cap : Nat} (h : seen.length ≤ cap)
    (h' : cap < (showKey seen k).length) : (showKey seen k).idxOf k = cap := by
  by_cases hk : k ∈ seen
  · rw [showKey, if_pos hk] at h'; omega
  · rw [showKey, if_neg hk] at h' ⊢
    rw [List.idxOf_append_of_notMem hk]; simp at h' ⊢; omega

namespace DisjointSet

/-- One call is the corresponding call on ids. -/
theorem step_eq {s : DisjointSet α} {seen : List α} (h : s.register.Inv seen) (op : UFOp α) :
    (s.step op).2 = (s.uf.step (op.map (op.seenNext seen).idxOf)).2 ∧
    (∀ out, (s.step op).2 = .ok out →
      (s.step op).1.uf = (s.uf.step (op.map (op.seenNext seen).idxOf)).1 ∧
      (s.step op).1.register.Inv (op.seenNext seen)) := by
  cases op with
  | union x y =>
    obtain ⟨h1, h2⟩ := h.lookup x
    obtain ⟨h3, h4⟩ := h2.lookup y
    simp only [step, union, UFOp.map, seenNext_union, UnionFind.step]
    rw [h1, h3, idxOf_showKey (mem_showKey_self)]
    exact ⟨rfl, fun _ _ => ⟨rfl, h4⟩⟩
  | find x =>
    obtain ⟨h1, h2⟩ := h.lookup x
    simp only [step, find, UFOp.map, seenNext_find, UnionFind.step]
    rw [h1]
    exact ⟨rfl, fun _ _ => ⟨trivial, h2⟩⟩
  | same x y =>
    obtain ⟨h1, h2⟩ := h.lookup x
    obtain ⟨h3, h4⟩ := h2.lookup y
    simp only [step, areInSameSet, find, UFOp.map, seenNext_same, UnionFind.step, UnionFind.areInSameSet]
    rw [h1, idxOf_showKey (mem_showKey_self)]
    rcases s.uf.find ((showKey seen x).idxOf x) with e | a
    · exact ⟨rfl, fun out ho => by simp [Except.map] at ho⟩
    · simp only
      rw [h3]
      rcases s.uf.find ((showKey (showKey seen x) y).idxOf y) with e | b
      · exact ⟨rfl, fun out ho => by simp [Except.map] at ho⟩
      · exact ⟨rfl, fun _ _ => ⟨rfl, h4⟩⟩
  | card x =>
    obtain ⟨h1, h2⟩ := h.lookup x
    simp only [step, cardinality, UFOp.map, seenNext_card, UnionFind.step]
    rw [h1]
    exact ⟨rfl, fun _ _ => ⟨trivial, h2⟩⟩
  | len => exact ⟨rfl, fun _ _ => ⟨rfl, h⟩⟩
  | clear => exact ⟨rfl, fun _ _ => ⟨rfl, IdRegister.Inv.clear s.register⟩⟩

/-- Invariant of the disjoint set. -/
structure Inv (s : DisjointSet α) (seen : List α) (pairs : List (α × α)) : Prop where
  reg : s.register.Inv seen
  mem : ∀ p ∈ pairs, p.1 ∈ seen ∧ p.2 ∈ seen
  le : seen.length ≤ s.uf.capacity
  uf : ∃ root depth, UnionFind.Inv s.uf (idPairs seen pairs) root depth

theorem idPairs_extend {seen seen' : List α} {pairs : List (α × α)}
    (hm : ∀ p ∈ pairs, p.1 ∈ seen ∧ p.2 ∈ seen)
    (he : ∀ x ∈ seen, seen'.idxOf x = seen.idxOf x) : idPairs seen' pairs = idPairs seen pairs := by
  unfold idPairs
  apply List.map_congr_left
  intro p hp
  rw [he _ (hm p hp).1, he _ (hm p hp).2]

theorem linked_idPairs {seen : List α} {pairs : List (α × α)}
    (hm : ∀ p ∈ pairs, p.1 ∈ seen ∧ p.2 ∈ seen) {x y : α} (hx : x ∈ seen) (hy : y ∈ seen) :
    Linked (idPairs seen pairs) (seen.idxOf x) (seen.idxOf y) ↔ Linked pairs x y :=
  linked_map_iff (S := fun a => a ∈ seen) hm
    (fun _ _ ha _ e => List.idxOf_inj_left ha e) hx hy
where
  List.idxOf_inj_left {a b : α} {l : List α} (ha : a ∈ l) (e : l.idxOf a = l.idxOf b) : a = b := by
    have h1 : l[l.idxOf a]? = some a := by simp [ha]
    have hb : b ∈ l := by
      rw [← List.idxOf_lt_length_iff, ← e, List.idxOf_lt_length_iff]; exact ha
    have h2 : l[l.idxOf b]? = some b := by simp [hb]
    rw [e, h2] at h1
    exact (Option.some.inj h1).symm

/-- An id linked to the id of a seen item is the id of a seen item. -/
theorem linked_idPairs_lt {seen : List α} {pairs : List (α × α)}
    (hm : ∀ p ∈ pairs, p.1 ∈ seen ∧ p.2 ∈ seen) {i j : Nat} (hi : i < seen.length)
    (h : Linked (idPairs seen pairs) i j) : j < seen.length := by
  rcases h.eq_or_mem with rfl | ⟨_, ⟨p, hp, hj⟩⟩
  · exact hi
  · obtain ⟨q, hq, rfl⟩ := List.mem_map.1 hp
    rcases hj with rfl | rfl
    · exact List.idxOf_lt_length_iff.2 (hm q hq).1
    · exact List.idxOf_lt_length_iff.2 (hm q hq).2

/-- Sizes of classes. -/
theorem ncard_idPairs {seen : List α} {pairs : List (α × α)} {cap : Nat} (hn : seen.Nodup)
    (hm : ∀ p ∈ pairs, p.1 ∈ seen ∧ p.2 ∈ seen) (hc : seen.length ≤ cap) {x : α} (hx : x ∈ seen) :
    Set.ncard {j | j < cap ∧ Linked (idPairs seen pairs) (seen.idxOf x) j} =
      Set.ncard {y | Linked pairs x y} := by
  symm
  have hsub : ∀ y, Linked pairs x y → y ∈ seen := by
    intro y h
    rcases h.eq_or_mem with rfl | ⟨_, ⟨p, hp, rfl | rfl⟩⟩
    · exact hx
    · exact (hm p hp).1
    · exact (hm p hp).2
  refine Set.ncard_congr (fun y _ => seen.idxOf y) ?_ ?_ ?_
  · intro y hy
    have hys := hsub y hy
    exact ⟨(List.idxOf_lt_length_iff.2 hys).trans_le hc, (linked_idPairs hm hx hys).2 hy⟩
  · intro a b ha hb e
    exact linked_idPairs.List.idxOf_inj_left (hsub a ha) e
  · rintro j ⟨hj, hl⟩
    have hlt := linked_idPairs_lt hm (List.idxOf_lt_length_iff.2 hx) hl
    refine ⟨seen[j], ?_, hn.idxOf_getElem _ hlt⟩
    rw [← hn.idxOf_getElem j hlt] at hl
    exact (linked_idPairs hm hx (List.getElem_mem _)).1 hl

/-- Number of classes. -/
theorem classes_idPairs {seen : List α} {pairs : List (α × α)} {cap : Nat} (hn : seen.Nodup)
    (hm : ∀ p ∈ pairs, p.1 ∈ seen ∧ p.2 ∈ seen) (hc : seen.length ≤ cap) :
    (Nat.card (Quotient (linkedSetoid cap (idPairs seen pairs))) : Int) =
      (cap - seen.length : Int) + Nat.card (Quotient (linkedSetoidOn seen pairs)) := by
  let F : Fin cap → Quotient (linkedSetoidOn seen pairs) ⊕ Fin (cap - seen.length) := fun i =>
    if h : i.1 < seen.length then .inl (Quotient.mk _ ⟨seen[i.1], List.getElem_mem _⟩)
    else .inr ⟨i.1 - seen.length, by omega⟩
  have hsurj : Function.Surjective F := by
    rintro (q | j)
    · induction q using Quotient.inductionOn with | _ x => ?_
      have hlt := List.idxOf_lt_length_iff.2 x.2
      refine ⟨⟨seen.idxOf x.1, hlt.trans_le hc⟩, ?_⟩
      simp only [F, hlt, dif_pos, List.getElem_idxOf]
    · refine ⟨⟨seen.length + j.1, by omega⟩, ?_⟩
      simp [F]
  have hker : linkedSetoid cap (idPairs seen pairs) = Setoid.ker F := by
    ext i j
    show Linked (idPairs seen pairs) i.1 j.1 ↔ F i = F j
    by_cases hi : i.1 < seen.length
    · by_cases hj : j.1 < seen.length
      · simp only [F, hi, hj, dif_pos, Sum.inl.injEq]
        rw [Quotient.eq]
        show _ ↔ Linked pairs seen[i.1] seen[j.1]
        rw [← linked_idPairs hm (List.getElem_mem hi) (List.getElem_mem hj),
          hn.idxOf_getElem _ hi, hn.idxOf_getElem _ hj]
      · simp only [F, hi, hj, dif_pos, dif_neg, not_false_iff, reduceCtorEq, iff_false]
        intro h
        exact hj (linked_idPairs_lt hm hi h)
    · by_cases hj : j.1 < seen.length
      · simp only [F, hi, hj, dif_pos, dif_neg, not_false_iff, reduceCtorEq, iff_false]
        intro h
        exact hi (linked_idPairs_lt hm hj h.symm)
      · simp only [F, hi, hj, dif_neg, not_false_iff, Sum.inr.injEq, Fin.mk.injEq]
        constructor
        · intro h
          rcases h.eq_or_mem with h | ⟨⟨p, hp, hpi⟩, _⟩
          · rw [h]
          · obtain ⟨q, hq, rfl⟩ := List.mem_map.1 hp
            rcases hpi with e | e
            · exact absurd (e ▸ List.idxOf_lt_length_iff.2 (hm q hq).1) hi
            · exact absurd (e ▸ List.idxOf_lt_length_iff.2 (hm q hq).2) hi
        · intro h
          have : i.1 = j.1 := by omega
          rw [this]; exact .refl _ _
  have e : Quotient (linkedSetoid cap (idPairs seen pairs)) ≃
      (Quotient (linkedSetoidOn seen pairs) ⊕ Fin (cap - seen.length)) := by
    rw [hker]
    exact Setoid.quotientKerEquivOfSurjective F hsurj
  rw [Nat.card_congr e]
  have : Finite {x // x ∈ seen} := List.finite_toSet seen
  rw [Nat.card_sum, Nat.card_eq_fintype_card (α := Fin _), Fintype.card_fin]
  omega

/-- The items of a call are seen after it. -/
theorem items_mem_seenNext (seen : List α) (op : UFOp α) : ∀ x ∈ op.items, x ∈ op.seenNext seen := by
  cases op <;> simp [UFOp.items, UFOp.seenNext, mem_showKey]

theorem seenNext_extend (seen : List α) (op : UFOp α) (h : op ≠ .clear) :
    (∀ x ∈ seen, (op.seenNext seen).idxOf x = seen.idxOf x ∧ x ∈ op.seenNext seen) := by
  intro x hx
  cases op with
  | clear => exact absurd rfl h
  | len => exact ⟨rfl, hx⟩
  | find y => exact ⟨idxOf_showKey hx, mem_showKey_of_mem hx⟩
  | card y => exact ⟨idxOf_showKey hx, mem_showKey_of_mem hx⟩
  | union y z =>
    exact ⟨(idxOf_showKey (mem_showKey_of_mem hx)).trans (idxOf_showKey hx), mem_showKey_of_mem (mem_showKey_of_mem hx)⟩
  | same y z =>
    exact ⟨(idxOf_showKey (mem_showKey_of_mem hx)).trans (idxOf_showKey hx), mem_showKey_of_mem (mem_showKey_of_mem hx)⟩

theorem idPairs_next {seen : List α} {pairs : List (α × α)} (hm : ∀ p ∈ pairs, p.1 ∈ seen ∧ p.2 ∈ seen)
    (op : UFOp α) :
    (op.map (op.seenNext seen).idxOf).next (idPairs seen pairs) =
      idPairs (op.seenNext seen) (op.next pairs) := by
  cases op with
  | clear => rfl
  | len => rfl
  | find y => exact (idPairs_extend hm (fun x hx => (seenNext_extend seen (.find y) (by simp) x hx).1)).symm
  | card y => exact (idPairs_extend hm (fun x hx => (seenNext_extend seen (.card y) (by simp) x hx).1)).symm
  | same y z => exact (idPairs_extend hm (fun x hx => (seenNext_extend seen (.same y z) (by simp) x hx).1)).symm
  | union y z =>
    have := idPairs_extend hm (fun x hx => (seenNext_extend seen (.union y z) (by simp) x hx).1)
    simp only [UFOp.map, UFOp.next]
    rw [← this]; rfl

theorem mem_next {seen : List α} {pairs : List (α × α)} (hm : ∀ p ∈ pairs, p.1 ∈ seen ∧ p.2 ∈ seen)
    (op : UFOp α) : ∀ p ∈ op.next pairs, p.1 ∈ op.seenNext seen ∧ p.2 ∈ op.seenNext seen := by
  by_cases hc : op = .clear
  · subst hc; simp [UFOp.next]
  · have he := seenNext_extend seen op hc
    intro p hp
    have old : p ∈ pairs → p.1 ∈ op.seenNext seen ∧ p.2 ∈ op.seenNext seen :=
      fun h => ⟨(he _ (hm p h).1).2, (he _ (hm p h).2).2⟩
    cases op with
    | union y z =>
      rcases List.mem_cons.1 hp with rfl | hp
      · exact ⟨mem_showKey_of_mem mem_showKey_self, mem_showKey_self⟩
      · exact old hp
    | clear => exact absurd rfl hc
    | _ => exact old hp

variable {s : DisjointSet α} {seen : List α} {pairs : List (α × α)}

theorem length_seenNext_le (seen : List α) (op : UFOp α) (h : op ≠ .clear) :
    seen.length ≤ (op.seenNext seen).length := by
  cases op with
  | clear => exact absurd rfl h
  | len => exact Nat.le_refl _
  | find y => exact length_showKey_le _ _
  | card y => exact length_showKey_le _ _
  | union y z => exact (length_showKey_le _ _).trans (length_showKey_le _ _)
  | same y z => exact (length_showKey_le _ _).trans (length_showKey_le _ _)

/-- One call while the items fit. -/
theorem Inv.step (h : Inv s seen pairs) (op : UFOp α)
    (hfit : (op.seenNext seen).length ≤ s.uf.capacity) :
    (∃ s' out, s.step op = (s', .ok out) ∧ DSExpected s.uf.capacity seen pairs op out ∧
      Inv s' (op.seenNext seen) (op.next pairs) ∧ s'.uf.capacity = s.uf.capacity ∧
      s'.uf.cellMax = s.uf.cellMax) ∨
    ((s.step op).2 = .error .overflowError ∧ s.uf.capacity = s.uf.cellMax + 1 ∧
      (op.seenNext seen).length = s.uf.capacity ∧
      ∀ x ∈ op.seenNext seen, ∀ y ∈ op.seenNext seen, Linked (op.next pairs) x y) := by
  obtain ⟨root, depth, hu⟩ := h.uf
  obtain ⟨e1, e2⟩ := step_eq h.reg op
  have hmem := items_mem_seenNext seen op
  have hitems : ∀ i ∈ (op.map (op.seenNext seen).idxOf).items, i < s.uf.capacity := by
    intro i hi
    have : ∃ x ∈ op.items, (op.seenNext seen).idxOf x = i := by
      cases op <;> simp_all [UFOp.items, UFOp.map] <;> grind
    obtain ⟨x, hx, rfl⟩ := this
    exact (List.idxOf_lt_length_iff.2 (hmem x hx)).trans_le hfit
  have hm' := mem_next h.mem op
  rcases hu.step _ hitems with ⟨u', out, root', depth', h1, h2, h3, h4, h5⟩ | ⟨he, hc, hl⟩
  · left
    rw [h1] at e1
    obtain ⟨e3, e4⟩ := e2 out e1
    refine ⟨(s.step op).1, out, Prod.ext rfl e1, ?_, ⟨e4, hm', ?_, root', depth', ?_⟩, ?_, ?_⟩
    · -- the output
      have hold : op ≠ .clear → ∀ x ∈ op.seenNext seen, ∀ y ∈ op.seenNext seen,
          (Linked (idPairs seen pairs) ((op.seenNext seen).idxOf x) ((op.seenNext seen).idxOf y) ↔
            Linked pairs x y) := by
        intro hcl x hx y hy
        have he := seenNext_extend seen op hcl
        rw [← idPairs_extend h.mem (fun x hx => (he x hx).1)]
        exact linked_idPairs (fun p hp => ⟨(he _ (h.mem p hp).1).2, (he _ (h.mem p hp).2).2⟩) hx hy
      have hnd : (op.seenNext seen).Nodup := e4.nodup
      cases op with
      | union x y =>
        cases out with
        | bool b =>
          simp only [DSExpected, UFOp.map, UFExpected] at h2 ⊢
          rw [h2, hold (by simp) x (hmem x (by simp [UFOp.items])) y (hmem y (by simp [UFOp.items]))]
        | _ => exact h2
      | same x y =>
        cases out with
        | bool b =>
          simp only [DSExpected, UFOp.map, UFExpected] at h2 ⊢
          rw [h2, hold (by simp) x (hmem x (by simp [UFOp.items])) y (hmem y (by simp [UFOp.items]))]
        | _ => exact h2
      | find x =>
        cases out with
        | nat r =>
          simp only [DSExpected, UFOp.map, UFExpected] at h2 ⊢
          have hx := hmem x (by simp [UFOp.items])
          have he := seenNext_extend seen (.find x) (by simp)
          have hm2 : ∀ p ∈ pairs, p.1 ∈ UFOp.seenNext seen (.find x) ∧ p.2 ∈ UFOp.seenNext seen (.find x) :=
            fun p hp => ⟨(he _ (h.mem p hp).1).2, (he _ (h.mem p hp).2).2⟩
          have hlt : r < (UFOp.seenNext seen (.find x)).length := by
            have := h2.2
            rw [← idPairs_extend h.mem (fun x hx => (he x hx).1)] at this
            exact linked_idPairs_lt hm2 (List.idxOf_lt_length_iff.2 hx) this
          refine ⟨(UFOp.seenNext seen (.find x))[r], List.getElem?_eq_getElem hlt, ?_⟩
          rw [← hold (by simp) x hx _ (List.getElem_mem _), hnd.idxOf_getElem _ hlt]
          exact h2.2
        | _ => exact h2
      | card x =>
        cases out with
        | nat n =>
          simp only [DSExpected, UFOp.map, UFExpected] at h2 ⊢
          have hx := hmem x (by simp [UFOp.items])
          have he := seenNext_extend seen (.card x) (by simp)
          have hm2 : ∀ p ∈ pairs, p.1 ∈ UFOp.seenNext seen (.card x) ∧ p.2 ∈ UFOp.seenNext seen (.card x) :=
            fun p hp => ⟨(he _ (h.mem p hp).1).2, (he _ (h.mem p hp).2).2⟩
          rw [h2, ← idPairs_extend h.mem (fun x hx => (he x hx).1)]
          exact ncard_idPairs hnd hm2 hfit hx
        | _ => exact h2
      | len =>
        cases out with
        | int n =>
          simp only [DSExpected, UFOp.map, UFExpected] at h2 ⊢
          rw [h2]
          exact classes_idPairs hnd h.mem hfit
        | _ => exact h2
      | clear => cases out <;> exact h2
    · rw [e3, h1]; exact h4 ▸ hfit
    · rw [e3, h1]
      rw [← idPairs_next h.mem]; exact h3
    · rw [e3, h1]; exact h4
    · rw [e3, h1]; exact h5
  · right
    have hlen : (op.seenNext seen).length = s.uf.capacity := by
      by_contra hne
      have hlt : (op.seenNext seen).length < s.uf.capacity := by omega
      have hpos := hu.cellMax_pos
      -- everything is linked, but the last id is linked to nothing
      rw [idPairs_next h.mem] at hl
      by_cases h0 : (op.seenNext seen).length = 0
      · have hp : op.next pairs = [] := by
          rw [List.eq_nil_iff_forall_not_mem]
          intro p hp
          have := (hm' p hp).1
          rw [List.length_eq_zero_iff.1 h0] at this
          simp at this
        rw [hp] at hl
        have := linked_nil.1 (hl 0 (by omega) 1 (by omega))
        omega
      · have := linked_idPairs_lt hm' (by omega) (hl 0 (by omega) _ hlt)
        omega
    refine ⟨e1.trans he, hc, hlen, ?_⟩
    intro x hx y hy
    rw [← linked_idPairs hm' hx hy, ← idPairs_next h.mem]
    exact hl _ ((List.idxOf_lt_length_iff.2 hx).trans_le hfit) _ ((List.idxOf_lt_length_iff.2 hy).trans_le hfit)

/-- One call showing one item too many. -/
theorem Inv.step_full (h : Inv s seen pairs) (op : UFOp α)
    (hover : s.uf.capacity < (op.seenNext seen).length) :
    (s.step op).2 = .error .indexError := by
  obtain ⟨root, depth, hu⟩ := h.uf
  obtain ⟨e1, -⟩ := step_eq h.reg op
  rw [e1]
  have hle := h.le
  have two : ∀ x y, s.uf.capacity < (showKey (showKey seen x) y).length →
      ∃ i ∈ [(showKey (showKey seen x) y).idxOf x, (showKey (showKey seen x) y).idxOf y],
        ¬ i < s.uf.capacity := by
    intro x y ho
    by_cases h1 : (showKey seen x).length ≤ s.uf.capacity
    · exact ⟨_, by simp, (idxOf_showKey_ge h1 ho).not_lt⟩
    · refine ⟨(showKey (showKey seen x) y).idxOf x, by simp, ?_⟩
      rw [idxOf_showKey mem_showKey_self, idxOf_showKey_ge hle (by omega)]
      omega
  refine hu.step_oob _ ?_
  cases op with
  | union x y =>
    obtain ⟨i, hi, hn⟩ := two x y hover
    exact fun hall => hn (hall i hi)
  | same x y =>
    obtain ⟨i, hi, hn⟩ := two x y hover
    exact fun hall => hn (hall i hi)
  | find x =>
    exact fun hall => absurd (hall ((showKey seen x).idxOf x) (by simp [UFOp.items, UFOp.map, UFOp.seenNext]))
      (idxOf_showKey_ge hle hover).not_lt
  | card x =>
    exact fun hall => absurd (hall ((showKey seen x).idxOf x) (by simp [UFOp.items, UFOp.map, UFOp.seenNext]))
      (idxOf_showKey_ge hle hover).not_lt
  | len => exact absurd hover (by simp only [seenNext_len]; omega)
  | clear => exact absurd hover (by simp [UFOp.seenNext])

/-- Histories that run to completion. -/
theorem Inv.run_ok (h : Inv s seen pairs) (ops : List (UFOp α)) {s' : DisjointSet α} {outs : List UFOut}
    (hrun : s.run ops = .ok (s', outs)) :
    DSConforms s.uf.capacity seen pairs ops outs ∧
      Inv s' (ops.foldl UFOp.seenNext seen) (ops.foldl UFOp.next pairs) ∧
      s'.uf.capacity = s.uf.capacity ∧ s'.uf.cellMax = s.uf.cellMax := by
  induction ops generalizing s seen pairs outs with
  | nil =>
    simp only [DisjointSet.run, Except.ok.injEq, Prod.mk.injEq] at hrun
    obtain ⟨rfl, rfl⟩ := hrun
    exact ⟨trivial, h, rfl, rfl⟩
  | cons op ops ih =>
    have bad : ∀ e, (s.step op).2 = .error e → False := by
      intro e he
      rw [DisjointSet.run] at hrun
      rcases hst : s.step op with ⟨s1, r⟩
      rw [hst] at he hrun
      simp only at he
      subst he
      simp at hrun
    by_cases hfit : (op.seenNext seen).length ≤ s.uf.capacity
    · rcases h.step op hfit with ⟨s1, out, h1, h2, h3, h4, h5⟩ | ⟨he, _⟩
      · rw [DisjointSet.run, h1] at hrun
        simp only at hrun
        rcases hr : s1.run ops with e | ⟨s2, outs2⟩
        · rw [hr] at hrun; simp at hrun
        · rw [hr] at hrun
          simp only [Except.ok.injEq, Prod.mk.injEq] at hrun
          obtain ⟨rfl, rfl⟩ := hrun
          obtain ⟨i1, i2, i3, i4⟩ := ih h3 hr
          rw [h4] at i1
          exact ⟨⟨h2, i1⟩, i2, i3.trans h4, i4.trans h5⟩
      · exact (bad _ he).elim
    · exact (bad _ (h.step_full op (by omega))).elim

/-- Histories whose items fit run to completion, unless the cells are one short. -/
theorem Inv.run_fits (h : Inv s seen pairs) (ops : List (UFOp α))
    (hfit : ∀ pre suf, ops = pre ++ suf → (pre.foldl UFOp.seenNext seen).length ≤ s.uf.capacity)
    (hc : s.uf.capacity ≠ s.uf.cellMax + 1) : ∃ s' outs, s.run ops = .ok (s', outs) := by
  induction ops generalizing s seen pairs with
  | nil => exact ⟨s, [], rfl⟩
  | cons op ops ih =>
    rcases h.step op (hfit [op] ops rfl) with ⟨s1, out, h1, h2, h3, h4, h5⟩ | ⟨_, he, _⟩
    · obtain ⟨s2, outs, hr⟩ := ih h3 (fun pre suf e => by
        rw [h4]; exact hfit (op :: pre) suf (by simp [e])) (by rw [h4, h5]; exact hc)
      exact ⟨s2, out :: outs, by rw [DisjointSet.run, h1]; simp only; rw [hr]⟩
    · exact absurd he hc

theorem init_inv {ulongMax cap : Nat} (hu : 2^32 - 1 ≤ ulongMax) {s : DisjointSet α}
    (h : DisjointSet.init ulongMax cap = .ok s) :
    Inv s [] [] ∧ s.uf.capacity = cap ∧
      (cap = s.uf.cellMax + 1 →
        cap = 2^8 ∨ cap = 2^16 ∨ (cap = 2^32 ∧ ulongMax = 2^32 - 1) ∨ cap = 2^64) := by
  unfold DisjointSet.init at h
  rcases hi : UnionFind.init ulongMax cap with e | u
  · rw [hi] at h; simp at h
  · rw [hi] at h
    simp only [Except.ok.injEq] at h
    subst h
    obtain ⟨h1, h2, h3⟩ := UnionFind.init_inv hu hi
    exact ⟨⟨IdRegister.Inv.init, by simp, by simp, _, _, h1⟩, h2, h3⟩

end DisjointSet
end Pelote
