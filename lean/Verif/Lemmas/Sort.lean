import Verif.Model.Sort
import Verif.Spec.Sort
import Verif.Lemmas.Bucket
import Verif.Lemmas.UnionFind
import Mathlib.Data.List.Perm.Basic
import Mathlib.Tactic.Linarith

set_option linter.unusedSectionVars false
namespace Pelote
variable {α : Type}

/-! ### Sequences -/

theorem seqGet_nat (a : List α) (i : Nat) (h : i < a.length) : seqGet a (i : Int) = .ok a[i] := by
  have h1 : pyIndex a.length (i : Int) = .ok i := by
    unfold pyIndex
    rw [if_pos (by omega), if_pos (by omega)]
    simp
  simp [seqGet, h1, h]

theorem seqSet_nat (a : List α) (i : Nat) (v : α) (h : i < a.length) :
    seqSet a (i : Int) v = .ok (a.set i v) := by
  have h1 : pyIndex a.length (i : Int) = .ok i := by
    unfold pyIndex
    rw [if_pos (by omega), if_pos (by omega)]
    simp
  simp [seqSet, h1]

theorem uarrSet_nat (m : Nat) (a : List Int) (i v : Nat) (h : i < a.length) (hv : v ≤ m) :
    uarrSet m a (i : Int) (v : Int) = .ok (a.set i v) := by
  have h1 : pyIndex a.length (i : Int) = .ok i := by
    unfold pyIndex
    rw [if_pos (by omega), if_pos (by omega)]
    simp
  simp only [uarrSet, h1]
  rw [if_neg (by omega)]

/-- The array of the values of a function. -/
def tab (S : Nat) (f : Nat → Nat) : List Int := (List.range S).map (fun j => (f j : Int))

theorem tab_length (S : Nat) (f : Nat → Nat) : (tab S f).length = S := by simp [tab]

theorem tab_get (S : Nat) (f : Nat → Nat) (i : Nat) (h : i < S) :
    seqGet (tab S f) (i : Int) = .ok (f i : Int) := by
  rw [seqGet_nat _ _ (by rw [tab_length]; exact h)]
  simp [tab]

theorem tab_set (S : Nat) (f : Nat → Nat) (i v : Nat) :
    (tab S f).set i (v : Int) = tab S (fun j => if j = i then v else f j) := by
  apply List.ext_getElem
  · simp [tab]
  · intro j h1 h2
    simp only [tab, List.getElem_set, List.getElem_map, List.getElem_range]
    by_cases h : i = j
    · subst h; simp
    · simp [h, Ne.symm h]

theorem tab_congr {S : Nat} {f g : Nat → Nat} (h : ∀ j < S, f j = g j) : tab S f = tab S g := by
  apply List.map_congr_left
  intro j hj
  rw [h j (List.mem_range.1 hj)]

/-! ### Bounds -/

theorem keyBounds_append (keys : List Int) (k : Int) :
    keyBounds (keys ++ [k]) =
      (match (keyBounds keys).1 with
        | none => some k
        | some lo => if k < lo then some k else some lo,
       match (keyBounds keys).2 with
        | none => some k
        | some hi => if k > hi then some k else some hi) := by
  unfold keyBounds
  rw [List.foldl_append]
  rfl

theorem keyBounds_spec (keys : List Int) (h : keys ≠ []) :
    ∃ lo hi, keyBounds keys = (some lo, some hi) ∧ lo ≤ hi ∧ ∀ k ∈ keys, lo ≤ k ∧ k ≤ hi := by
  induction keys using List.reverseRecOn with
  | nil => exact absurd rfl h
  | append_singleton keys k ih =>
    by_cases hk : keys = []
    · subst hk
      exact ⟨k, k, rfl, le_refl _, by simp⟩
    · obtain ⟨lo, hi, he, hle, hb⟩ := ih hk
      rw [keyBounds_append, he]
      simp only
      refine ⟨if k < lo then k else lo, if k > hi then k else hi, ?_, ?_, ?_⟩
      · split <;> split <;> rfl
      · split <;> split <;> omega
      · intro k' hk'
        rcases List.mem_append.1 hk' with h' | h'
        · have := hb k' h'
          constructor <;> split <;> omega
        · simp only [List.mem_singleton] at h'
          subst h'
          constructor <;> split <;> omega

/-! ### Counting -/

section
variable (key : α → Nat)

/-- Number of items of a key. -/
def cnt (xs : List α) (j : Nat) : Nat := (xs.filter (fun x => decide (key x = j))).length

/-- Number of items with a smaller key. -/
def off (xs : List α) (j : Nat) : Nat := ((List.range j).map (cnt key xs)).sum

theorem cnt_cons (x : α) (xs : List α) (j : Nat) :
    cnt key (x :: xs) j = (if key x = j then 1 else 0) + cnt key xs j := by
  unfold cnt
  rw [List.filter_cons]
  by_cases h : key x = j <;> simp [h, Nat.add_comm]

theorem off_succ (xs : List α) (j : Nat) : off key xs (j + 1) = off key xs j + cnt key xs j := by
  simp [off, List.range_succ]

theorem off_le (xs : List α) (j : Nat) : off key xs j ≤ xs.length := by
  have : off key xs j = (xs.filter (fun x => decide (key x < j))).length := by
    induction j with
    | zero => simp [off]
    | succ j ih =>
      rw [off_succ, ih]
      clear ih
      induction xs with
      | nil => rfl
      | cons x xs ih =>
        rw [cnt_cons]
        simp only [List.filter_cons]
        by_cases h1 : key x < j
        · have h2 : key x < j + 1 := by omega
          have h3 : ¬ key x = j := by omega
          simp only [h1, h2, h3, decide_true, if_true, if_false, List.length_cons] at ih ⊢
          omega
        · by_cases h3 : key x = j
          · have h2 : key x < j + 1 := by omega
            have h4 : ¬ (decide (key x < j) = true) := by simp [h1]
            have h5 : decide (key x < j + 1) = true := by simp [h2]
            rw [if_pos h3, if_neg h4, if_pos h5, List.length_cons]
            omega
          · have h2 : ¬ key x < j + 1 := by omega
            have h4 : ¬ (decide (key x < j) = true) := by simp [h1]
            have h5 : ¬ decide (key x < j + 1) = true := by simp [h2]
            rw [if_neg h3, if_neg h4, if_neg h5]
            omega
  rw [this]
  exact List.length_filter_le _ _

end

theorem countKeys_tab {m S : Nat} {lo : Int} (key : α → Nat) (kz : α → Int) (hk : ∀ x, lo ≤ kz x → ((key x : Nat) : Int) = kz x - lo)
    (pre xs : List α) (hlo : ∀ x ∈ xs, lo ≤ kz x) (hS : ∀ x ∈ xs, key x < S)
    (hm : pre.length + xs.length ≤ m) :
    countKeys m lo (tab S (cnt key pre)) (xs.map kz) = .ok (tab S (cnt key (xs.reverse ++ pre))) := by
  induction xs generalizing pre with
  | nil => simp [countKeys]
  | cons x xs ih =>
    simp only [List.map_cons, countKeys]
    have e := hk x (hlo x (by simp))
    have hx := hS x (by simp)
    rw [← e, tab_get _ _ _ hx]
    simp only
    have hc : cnt key pre (key x) ≤ pre.length := List.length_filter_le _ _
    have : ((cnt key pre (key x) : Nat) : Int) + 1 = ((cnt key pre (key x) + 1 : Nat) : Int) := by simp
    rw [this, uarrSet_nat _ _ _ _ (by rw [tab_length]; exact hx) (by simp at hm; omega), tab_set]
    simp only
    have h2 : tab S (fun j => if j = key x then cnt key pre (key x) + 1 else cnt key pre j) =
        tab S (cnt key (x :: pre)) := by
      apply tab_congr
      intro j _
      rw [cnt_cons]
      by_cases hj : j = key x
      · subst hj; simp [Nat.add_comm]
      · simp [hj, Ne.symm hj]
    rw [h2, ih (x :: pre) (fun y hy => hlo y (by simp [hy])) (fun y hy => hS y (by simp [hy]))
      (by simp at hm ⊢; omega)]
    simp

theorem cnt_perm (key : α → Nat) {xs ys : List α} (h : xs.Perm ys) (j : Nat) : cnt key xs j = cnt key ys j :=
  (h.filter _).length_eq

theorem cumulate_tab {m S : Nat} (key : α → Nat) (xs : List α) (hm : xs.length ≤ m) (n i : Nat)
    (hi : i + n = S) (h1 : 1 ≤ i) :
    cumulate m n i (tab S (fun j => if j < i then off key xs (j + 1) else cnt key xs j)) =
      .ok (tab S (fun j => off key xs (j + 1))) := by
  induction n generalizing i with
  | zero =>
    simp only [cumulate]
    congr 1
    apply tab_congr
    intro j hj
    rw [if_pos (by omega)]
  | succ n ih =>
    simp only [cumulate]
    have e : ((i : Nat) : Int) - 1 = ((i - 1 : Nat) : Int) := by omega
    rw [e, tab_get _ _ _ (by omega), tab_get _ _ _ (by omega)]
    simp only
    rw [if_neg (by omega), if_pos (by omega)]
    have e2 : i - 1 + 1 = i := by omega
    rw [e2]
    have e3 : ((cnt key xs i : Nat) : Int) + ((off key xs i : Nat) : Int) = ((off key xs (i + 1) : Nat) : Int) := by
      rw [off_succ]; push_cast; omega
    rw [e3, uarrSet_nat _ _ _ _ (by rw [tab_length]; omega) (le_trans (off_le key xs _) hm), tab_set]
    simp only
    have h2 : tab S (fun j => if j = i then off key xs (i + 1) else if j < i then off key xs (j + 1) else cnt key xs j) =
        tab S (fun j => if j < i + 1 then off key xs (j + 1) else cnt key xs j) := by
      apply tab_congr
      intro j _
      by_cases hj : j = i
      · subst hj; simp
      · by_cases hj2 : j < i
        · simp [hj, hj2, show j < i + 1 by omega]
        · simp [hj, hj2, show ¬ j < i + 1 by omega]
    rw [h2, ih (i + 1) (by omega) (by omega)]

/-! ### Placement -/

/-- The output during the placement. -/
def partialOut (key : α → Nat) (S : Nat) (pre rest : List α) : List (Option α) :=
  (List.range S).flatMap (fun j => List.replicate (cnt key rest j) none ++
    (pre.reverse.filter (fun x => decide (key x = j))).map some)

theorem length_segments (key : α → Nat) (n : Nat) (pre rest items : List α) (h : items = pre ++ rest) :
    ((List.range n).flatMap (fun j => List.replicate (cnt key rest j) (none : Option α) ++
      (pre.reverse.filter (fun x => decide (key x = j))).map some)).length = off key items n := by
  unfold off
  rw [List.length_flatMap]
  congr 1
  apply List.map_congr_left
  intro j _
  subst h
  rw [← cnt_perm key (List.reverse_perm (pre ++ rest)) j]
  simp [cnt, Nat.add_comm]

theorem partialOut_step (key : α → Nat) (S : Nat) (pre rest : List α) (x : α) (hx : key x < S) :
    (partialOut key S pre (x :: rest)).set (off key (pre ++ x :: rest) (key x) + cnt key rest (key x)) (some x) =
      partialOut key S (pre ++ [x]) rest := by
  unfold partialOut
  have hsplit : List.range S = List.range (key x) ++ key x :: (List.range (S - key x - 1)).map (key x + 1 + ·) := by
    have : S = key x + (1 + (S - key x - 1)) := by omega
    conv_lhs => rw [this, List.range_add, List.range_add]
    simp [List.range_one, Nat.add_assoc, Function.comp_def]
  rw [hsplit]
  simp only [List.flatMap_append, List.flatMap_cons]
  have hlen := length_segments key (key x) pre (x :: rest) _ rfl
  have hother : ∀ j, j ≠ key x →
      (List.replicate (cnt key (x :: rest) j) (none : Option α) ++
        (pre.reverse.filter (fun y => decide (key y = j))).map some) =
      (List.replicate (cnt key rest j) (none : Option α) ++
        ((pre ++ [x]).reverse.filter (fun y => decide (key y = j))).map some) := by
    intro j hj
    rw [cnt_cons, if_neg (Ne.symm hj), Nat.zero_add]
    simp [Ne.symm hj]
  have hA : (List.range (key x)).flatMap (fun j => List.replicate (cnt key (x :: rest) j) (none : Option α) ++
        (pre.reverse.filter (fun y => decide (key y = j))).map some) =
      (List.range (key x)).flatMap (fun j => List.replicate (cnt key rest j) (none : Option α) ++
        ((pre ++ [x]).reverse.filter (fun y => decide (key y = j))).map some) := by
    apply List.flatMap_congr
    intro j hj
    exact hother j (by have := List.mem_range.1 hj; omega)
  have hC : ((List.range (S - key x - 1)).map (key x + 1 + ·)).flatMap (fun j => List.replicate (cnt key (x :: rest) j) (none : Option α) ++
        (pre.reverse.filter (fun y => decide (key y = j))).map some) =
      ((List.range (S - key x - 1)).map (key x + 1 + ·)).flatMap (fun j => List.replicate (cnt key rest j) (none : Option α) ++
        ((pre ++ [x]).reverse.filter (fun y => decide (key y = j))).map some) := by
    apply List.flatMap_congr
    intro j hj
    obtain ⟨i, _, rfl⟩ := List.mem_map.1 hj
    exact hother _ (by omega)
  rw [← hlen, List.set_append_right _ _ (by omega), Nat.add_sub_cancel_left, hA, hC]
  congr 1
  rw [cnt_cons, if_pos rfl, Nat.add_comm 1, List.replicate_succ']
  simp only [List.append_assoc, List.reverse_append, List.reverse_cons, List.reverse_nil, List.nil_append,
    List.singleton_append, List.filter_cons, decide_true, if_true, List.map_cons]
  rw [List.set_append_right _ _ (by simp)]
  simp

theorem set_reverse (l : List α) (i : Nat) (v : α) (h : i < l.length) :
    l.reverse.set (l.length - i - 1) v = (l.set i v).reverse := by
  apply List.ext_getElem
  · simp
  · intro j h1 h2
    simp only [List.length_set, List.length_reverse] at h1
    simp only [List.getElem_set, List.getElem_reverse, List.length_set]
    by_cases hj : l.length - i - 1 = j
    · rw [if_pos hj, if_pos (by omega)]
    · rw [if_neg hj, if_neg (by omega)]

theorem placeItems_spec {m S : Nat} {lo : Int} (reverse : Bool) (key : α → Nat) (kz : α → Int)
    (hk : ∀ x, lo ≤ kz x → ((key x : Nat) : Int) = kz x - lo)
    (items pre rest : List α) (hitems : items = pre ++ rest) (hlo : ∀ x ∈ items, lo ≤ kz x)
    (hS : ∀ x ∈ items, key x < S) (hm : items.length ≤ m) :
    placeItems m items.length reverse lo (rest.map (fun x => (kz x, x)))
      (tab S (fun j => off key items j + cnt key rest j))
      (if reverse then (partialOut key S pre rest).reverse else partialOut key S pre rest) =
    .ok (if reverse then (partialOut key S items []).reverse else partialOut key S items []) := by
  induction rest generalizing pre with
  | nil =>
    simp only [List.map_nil, placeItems]
    simp only [List.append_nil] at hitems
    rw [hitems]
  | cons x rest ih =>
    have hmem : x ∈ items := by rw [hitems]; simp
    have hx := hS x hmem
    have e := hk x (hlo x hmem)
    simp only [List.map_cons, placeItems]
    rw [← e, tab_get _ _ _ hx]
    simp only
    have e2 : ((off key items (key x) + cnt key (x :: rest) (key x) : Nat) : Int) - 1 =
        ((off key items (key x) + cnt key rest (key x) : Nat) : Int) := by
      rw [cnt_cons, if_pos rfl]; push_cast; omega
    rw [e2]
    have hc1 : off key items (key x) + cnt key (x :: rest) (key x) ≤ items.length := by
      have h1 := off_le key items (key x + 1)
      rw [off_succ] at h1
      have h2 : cnt key (x :: rest) (key x) ≤ cnt key items (key x) := by
        subst hitems
        simp only [cnt, List.filter_append, List.length_append]
        omega
      omega
    have hc2 : off key items (key x) + cnt key rest (key x) < items.length := by
      rw [cnt_cons, if_pos rfl] at hc1; omega
    rw [uarrSet_nat _ _ _ _ (by rw [tab_length]; exact hx) (by omega), tab_set]
    simp only
    have hlen : (partialOut key S pre (x :: rest)).length = items.length := by
      unfold partialOut
      rw [length_segments key S pre (x :: rest) items hitems]
      have h1 := off_le key items S
      have h2 : items.length ≤ off key items S := by
        have hb : (bucketSort (List.range S) key items).length = off key items S := by
          unfold bucketSort off
          rw [List.length_flatMap]
          rfl
        rw [← hb, (bucketSort_perm List.nodup_range (fun a ha => List.mem_range.2 (hS a ha))).length_eq]
      omega
    have hset : seqSet (if reverse then (partialOut key S pre (x :: rest)).reverse else partialOut key S pre (x :: rest))
        (if reverse then (items.length : Int) - ((off key items (key x) + cnt key rest (key x) : Nat) : Int) - 1
          else ((off key items (key x) + cnt key rest (key x) : Nat) : Int)) (some x) =
        .ok (if reverse then (partialOut key S (pre ++ [x]) rest).reverse else partialOut key S (pre ++ [x]) rest) := by
      have hstep := partialOut_step key S pre rest x hx
      rw [← hitems] at hstep
      cases reverse with
      | false =>
        simp only [Bool.false_eq_true, if_false]
        rw [seqSet_nat _ _ _ (by rw [hlen]; exact hc2), hstep]
      | true =>
        simp only [if_true]
        have e3 : (items.length : Int) - ((off key items (key x) + cnt key rest (key x) : Nat) : Int) - 1 =
            ((items.length - (off key items (key x) + cnt key rest (key x)) - 1 : Nat) : Int) := by omega
        rw [e3, seqSet_nat _ _ _ (by rw [List.length_reverse, hlen]; omega), ← hlen,
          set_reverse _ _ _ (by rw [hlen]; exact hc2), hstep]
    rw [hset]
    simp only
    have h2 : tab S (fun j => if j = key x then off key items (key x) + cnt key rest (key x) else
          off key items j + cnt key (x :: rest) j) =
        tab S (fun j => off key items j + cnt key rest j) := by
      apply tab_congr
      intro j _
      by_cases hj : j = key x
      · subst hj; simp
      · rw [if_neg hj, cnt_cons, if_neg (Ne.symm hj), Nat.zero_add]
    rw [h2]
    exact ih (pre ++ [x]) (by simp [hitems])

/-- The result of `counting_sort`. -/
theorem countingSort_eq {ulongMax : Nat} (hu : 2^32 - 1 ≤ ulongMax) (kz : α → Int) (reverse : Bool)
    (items : List α) (hne : items ≠ []) (hlen : items.length < 2^64) :
    ∃ (S : Nat) (key : α → Nat), (∀ x ∈ items, key x < S) ∧
      (∀ x ∈ items, ∀ y ∈ items, key x ≤ key y ↔ kz x ≤ kz y) ∧
      countingSort ulongMax kz reverse items =
        .ok ((if reverse then (bucketSort (List.range S) key items.reverse).reverse
          else bucketSort (List.range S) key items.reverse).map some) := by
  obtain ⟨lo, hi, hb, hle, hkeys⟩ := keyBounds_spec (items.map kz) (by simpa using hne)
  have hlo : ∀ x ∈ items, lo ≤ kz x := fun x hx => (hkeys _ (List.mem_map_of_mem hx)).1
  have hhi : ∀ x ∈ items, kz x ≤ hi := fun x hx => (hkeys _ (List.mem_map_of_mem hx)).2
  refine ⟨(hi - lo + 1).toNat, fun x => (kz x - lo).toNat, ?_, ?_, ?_⟩
  · intro x hx
    have := hlo x hx; have := hhi x hx
    show (kz x - lo).toNat < _
    omega
  · intro x hx y hy
    have := hlo x hx; have := hlo y hy
    show (kz x - lo).toNat ≤ (kz y - lo).toNat ↔ _
    omega
  · unfold countingSort
    simp only [hb]
    set S := (hi - lo + 1).toNat with hSdef
    set key : α → Nat := fun x => (kz x - lo).toNat with hkey
    have hk : ∀ x, lo ≤ kz x → ((key x : Nat) : Int) = kz x - lo := by
      intro x hx; simp only [hkey]; omega
    have hS : ∀ x ∈ items, key x < S := by
      intro x hx
      have := hlo x hx; have := hhi x hx
      simp only [hkey]; omega
    obtain ⟨r, hr, hm⟩ : ∃ r, uintRepresentationForMax items.length = .ok r ∧
        items.length ≤ r.code.cellMax ulongMax := by
      rcases UnionFind.uintRep_cases (items.length : Int) with ⟨h1, h⟩ | ⟨_, h1, h⟩ | ⟨_, h1, h⟩ | ⟨_, h1, h⟩ | ⟨h1, _⟩
      · exact ⟨_, h, by simp only [TypeCode.cellMax]; omega⟩
      · exact ⟨_, h, by simp only [TypeCode.cellMax]; omega⟩
      · exact ⟨_, h, by simp only [TypeCode.cellMax]; omega⟩
      · exact ⟨_, h, by simp only [TypeCode.cellMax]; omega⟩
      · omega
    rw [hr]
    simp only
    have h0 : List.replicate S (0 : Int) = tab S (cnt key ([] : List α)) := by
      apply List.ext_getElem
      · simp [tab]
      · intro i h1 h2; simp [tab, cnt]
    rw [h0, countKeys_tab key kz hk [] items hlo hS (by simpa using hm)]
    simp only [List.append_nil]
    have h1 : tab S (cnt key items.reverse) =
        tab S (fun j => if j < 1 then off key items (j + 1) else cnt key items j) := by
      apply tab_congr
      intro j _
      rw [cnt_perm key (List.reverse_perm items)]
      split
      · have : j = 0 := by omega
        subst this
        simp [off, List.range_one]
      · rfl
    rw [h1, cumulate_tab key items hm (hi - lo).toNat 1 (by omega) (le_refl _)]
    simp only
    have h2 : tab S (fun j => off key items (j + 1)) = tab S (fun j => off key items j + cnt key items j) := by
      apply tab_congr; intro j _; rw [off_succ]
    have h3 : List.replicate items.length (none : Option α) =
        (if reverse then (partialOut key S [] items).reverse else partialOut key S [] items) := by
      have h4 : partialOut key S [] items = List.replicate items.length none := by
        have hl : (partialOut key S [] items).length = items.length := by
          unfold partialOut
          have hb : (bucketSort (List.range S) key items).length = items.length :=
            (bucketSort_perm List.nodup_range (fun a ha => List.mem_range.2 (hS a ha))).length_eq
          rw [length_segments key S [] items items rfl, ← hb]
          unfold bucketSort off
          rw [List.length_flatMap]
          rfl
        rw [List.eq_replicate_iff]
        refine ⟨hl, ?_⟩
        intro o ho
        simp only [partialOut, List.mem_flatMap, List.reverse_nil, List.filter_nil, List.map_nil,
          List.append_nil] at ho
        obtain ⟨j, _, h⟩ := ho
        exact List.eq_of_mem_replicate h
      rw [h4]
      split <;> simp
    rw [h2, h3]
    have h5 : (items.map kz).zip items = items.map (fun x => (kz x, x)) := by
      clear * -
      induction items with
      | nil => rfl
      | cons x xs ih => simp [ih]
    rw [h5, placeItems_spec reverse key kz hk items [] items rfl hlo hS hm]
    have h6 : partialOut key S items [] = (bucketSort (List.range S) key items.reverse).map some := by
      unfold partialOut bucketSort
      rw [List.map_flatMap]
      apply List.flatMap_congr
      intro j _
      simp [cnt]
    rw [h6]
    split <;> simp

theorem bucketSort_stable {V : Type} [DecidableEq V] {ns : List V} (hn : ns.Nodup) (key : α → V) (l : List α)
    (k : V) (hk : k ∈ ns) :
    (bucketSort ns key l).filter (fun a => decide (key a = k)) = l.filter (fun a => decide (key a = k)) := by
  rw [← bucketSort_filter]
  refine bucketSort_eq_self hn ?_ ?_
  · intro a ha
    have := (List.mem_filter.1 ha).2
    simp only [decide_eq_true_eq] at this
    rw [this]; exact hk
  · rw [List.pairwise_iff_getElem]
    intro i j hi hj _
    have h1 := (List.mem_filter.1 (List.getElem_mem hi)).2
    have h2 := (List.mem_filter.1 (List.getElem_mem hj)).2
    simp only [decide_eq_true_eq] at h1 h2
    rw [h1, h2]

theorem idxOf_range {i n : Nat} (h : i < n) : (List.range n).idxOf i = i := by
  have h1 : (List.range n)[i]'(by simpa using h) = i := by simp
  conv_lhs => rw [← h1]
  exact List.nodup_range.idxOf_getElem i _

/-- A stable sort is determined by its specification. -/
theorem isSorted_unique {κ : Type} [LinearOrder κ] {key : α → κ} {xs a b : List α}
    (ha : IsSorted key xs a) (hb : IsSorted key xs b) : a = b := by
  have hp : a.Perm b := ha.perm.trans hb.perm.symm
  have hs : ∀ k, a.filter (fun x => decide (key x = k)) = b.filter (fun x => decide (key x = k)) := fun k => by
    rw [ha.stable, hb.stable]
  have h1 := ha.sorted
  have h2 := hb.sorted
  clear ha hb
  induction a generalizing b with
  | nil => exact (List.nil_perm.1 hp).symm
  | cons x a ih =>
    cases b with
    | nil => simp at hp
    | cons y b =>
      rw [List.pairwise_cons] at h1 h2
      have hxy : key x = key y := by
        apply le_antisymm
        · have : y ∈ x :: a := hp.mem_iff.2 (by simp)
          rcases List.mem_cons.1 this with rfl | h
          · exact le_refl _
          · exact h1.1 y h
        · have : x ∈ y :: b := hp.mem_iff.1 (by simp)
          rcases List.mem_cons.1 this with rfl | h
          · exact le_refl _
          · exact h2.1 x h
      have hk := hs (key x)
      rw [List.filter_cons, List.filter_cons] at hk
      simp only [decide_true, if_true, hxy] at hk
      have hk1 := (List.cons.inj hk).1
      subst hk1
      congr 1
      refine ih (List.perm_cons x |>.1 hp) ?_ h1.2 h2.2
      intro k
      have := hs k
      rw [List.filter_cons, List.filter_cons] at this
      split at this
      · exact (List.cons.inj this).2
      · exact this

end Pelote
