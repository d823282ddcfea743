import Verif.Spec.UnionFindCost
import Verif.Lemmas.UnionFind
import Mathlib.Data.Nat.Log

/-! The cost of `find`. -/
namespace Pelote

theorem iterations_le {α : Type} {loop : Nat → Py α} {n : Nat} (h : loop n ≠ .error .diverges) :
    iterations loop ≤ n := Nat.sInf_le h

theorem iterations_eq {α : Type} {loop : Nat → Py α} {n : Nat} (h : loop n ≠ .error .diverges)
    (h' : ∀ m < n, loop m = .error .diverges) : iterations loop = n := by
  refine le_antisymm (iterations_le h) ?_
  by_contra hlt
  exact Nat.sInf_mem (s := {n | loop n ≠ .error .diverges}) ⟨n, h⟩ (h' _ (not_le.1 hlt))

namespace UnionFind
variable {s : UnionFind} {pairs : List (Nat × Nat)} {root depth : Nat → Nat}

/-! ### The effect of a union -/

/-- What a union of two different classes does. -/
theorem Inv.union_effect (h : Inv s pairs root depth) {x y : Nat} (hx : x < s.capacity)
    (hy : y < s.capacity) (hxy : root x ≠ root y) {s' : UnionFind} {b : Bool} (hs : s.union x y = (s', .ok b)) :
    b = true ∧ s'.capacity = s.capacity ∧
    ((cell s.ranks x < cell s.ranks y ∧ s'.parents = s.parents.set (root x) (root y) ∧ s'.ranks = s.ranks ∧
        s'.cardinalities = s.cardinalities.set (root y)
          (cell s.cardinalities (root y) + cell s.cardinalities (root x))) ∨
     (cell s.ranks y < cell s.ranks x ∧ s'.parents = s.parents.set (root y) (root x) ∧ s'.ranks = s.ranks ∧
        s'.cardinalities = s.cardinalities.set (root x)
          (cell s.cardinalities (root x) + cell s.cardinalities (root y))) ∨
     (cell s.ranks x = cell s.ranks y ∧ s'.parents = s.parents.set (root y) (root x) ∧
        s'.ranks = s.ranks.set (root x) (cell s.ranks (root x) + 1) ∧
        s'.cardinalities = s.cardinalities.set (root x)
          (cell s.cardinalities (root x) + cell s.cardinalities (root y)))) := by
  have hfit : cell s.cardinalities (root x) + cell s.cardinalities (root y) ≤ s.cellMax := by
    by_contra hfit
    have := h.union_overflow hx hy hxy (not_le.1 hfit)
    rw [hs] at this
    simp at this
  have hrx := h.root_lt x hx
  have hry := h.root_lt y hy
  have hgx := arrGet_eq (h.lenR.symm ▸ hx : x < s.ranks.length)
  have hgy := arrGet_eq (h.lenR.symm ▸ hy : y < s.ranks.length)
  unfold UnionFind.union at hs
  rw [h.find hx, h.find hy] at hs
  simp only [hxy, if_false, hgx, hgy] at hs
  split at hs
  · rename_i hlt
    rw [h.attach_ok hry hrx (by omega)] at hs
    simp only [Prod.mk.injEq, Except.ok.injEq] at hs
    obtain ⟨rfl, rfl⟩ := hs
    exact ⟨rfl, rfl, .inl ⟨hlt, rfl, rfl, rfl⟩⟩
  · split at hs
    · rename_i hlt
      rw [h.attach_ok hrx hry hfit] at hs
      simp only [Prod.mk.injEq, Except.ok.injEq] at hs
      obtain ⟨rfl, rfl⟩ := hs
      exact ⟨rfl, rfl, .inr (.inl ⟨hlt, rfl, rfl, rfl⟩)⟩
    · rename_i h1 h2
      rw [h.attach_ok hrx hry hfit] at hs
      have hlr : root x < s.ranks.length := h.lenR.symm ▸ hrx
      simp only [arrGet_eq hlr] at hs
      split at hs
      · simp at hs
      · rename_i ranks hr
        simp only [Prod.mk.injEq, Except.ok.injEq] at hs
        obtain ⟨rfl, rfl⟩ := hs
        have : ranks = s.ranks.set (root x) (cell s.ranks (root x) + 1) := by
          unfold arrSet at hr
          split at hr
          · simp at hr
          · split at hr
            · simp at hr
            · simpa using hr.symm
        exact ⟨rfl, rfl, .inr (.inr ⟨by omega, rfl, this, rfl⟩)⟩

/-! ### The worst case -/

/-- The climb never needs more fuel than there are items. -/
theorem Inv.findReads_le_cap (h : Inv s pairs root depth) {x : Nat} (hx : x < s.capacity) :
    s.findReads x ≤ 2 * s.capacity := by
  have hd := h.depth_lt_cap hx
  unfold findReads
  rw [h.find hx]
  have h1 : iterations (fun n => UnionFind.climb s.parents n x) ≤ s.capacity :=
    iterations_le (by rw [h.climb _ _ hx hd]; simp)
  have h2 : iterations (fun n => UnionFind.rewalk s.parents (root x) n x) ≤ s.capacity :=
    iterations_le (by rw [h.rewalk _ _ hx hd]; simp)
  simp only
  omega

/-! ### Chains -/

/-- The first `k` items are below one another: `0 → 1 → … → k`. -/
structure Chain (s : UnionFind) (k : Nat) : Prop where
  parents : ∀ i < s.capacity, cell s.parents i = if i < k then i + 1 else i
  zero : cell s.ranks 0 = 0
  ranks : ∀ i < s.capacity, k < i → cell s.ranks i = 0

theorem Chain.root_eq {k : Nat} (c : Chain s k) (h : Inv s pairs root depth) (hk : k < s.capacity) {i : Nat}
    (hi : i ≤ k) : root i = k := by
  induction hj : k - i generalizing i with
  | zero =>
    have : i = k := by omega
    subst this
    exact h.root_self _ hk (by rw [c.parents _ hk]; simp)
  | succ n ih =>
    have hi' : i < s.capacity := by omega
    rw [← h.root_par i hi', c.parents i hi', if_pos (by omega)]
    exact ih (by omega) (by omega)

theorem Chain.climb {k : Nat} (c : Chain s k) (h : Inv s pairs root depth) (hk : k < s.capacity) (n : Nat) {i : Nat}
    (hi : i ≤ k) :
    UnionFind.climb s.parents n i = if k - i < n then .ok k else .error .diverges := by
  induction n generalizing i with
  | zero => rfl
  | succ n ih =>
    have hi' : i < s.capacity := by omega
    rw [UnionFind.climb, arrGet_eq (h.lenP ▸ hi'), c.parents i hi']
    by_cases hik : i < k
    · rw [if_pos hik]
      simp only [show ¬ i = i + 1 by omega, if_false]
      rw [ih (by omega)]
      split <;> split <;> first | rfl | omega
    · rw [if_neg hik, if_pos (by omega : k - i < n + 1), show i = k by omega]
      simp

theorem Chain.rewalk {k : Nat} (c : Chain s k) (h : Inv s pairs root depth) (hk : k < s.capacity) (n : Nat) {i : Nat}
    (hi : i < k) :
    UnionFind.rewalk s.parents k n i = if k - i ≤ n then .ok () else .error .diverges := by
  induction n generalizing i with
  | zero => rw [if_neg (by omega)]; rfl
  | succ n ih =>
    have hi' : i < s.capacity := by omega
    rw [UnionFind.rewalk, arrGet_eq (h.lenP ▸ hi'), c.parents i hi', if_pos hi]
    simp only
    by_cases hik : i + 1 = k
    · rw [if_pos hik, if_pos (by omega)]
    · rw [if_neg hik, ih (by omega)]
      split <;> split <;> first | rfl | omega

theorem Chain.findReads {k : Nat} (c : Chain s k) (h : Inv s pairs root depth) (hk : k < s.capacity) :
    s.findReads 0 = if k = 0 then 2 else 2 * k + 1 := by
  unfold UnionFind.findReads
  rw [h.find (by omega), c.root_eq h hk (by omega)]
  have h1 : iterations (fun n => UnionFind.climb s.parents n 0) = k + 1 := by
    refine iterations_eq ?_ fun m hm => ?_
    · rw [c.climb h hk _ (by omega), if_pos (by omega)]; simp
    · rw [c.climb h hk _ (by omega), if_neg (by omega)]
  simp only [h1]
  by_cases hk0 : k = 0
  · subst hk0
    have h2 : iterations (fun n => UnionFind.rewalk s.parents 0 n 0) = 1 := by
      refine iterations_eq ?_ fun m hm => ?_
      · rw [UnionFind.rewalk, arrGet_eq (h.lenP ▸ hk), c.parents 0 hk]; simp
      · rw [Nat.lt_one_iff.1 hm]; rfl
    simp [h2]
  · have h2 : iterations (fun n => UnionFind.rewalk s.parents k n 0) = k := by
      refine iterations_eq ?_ fun m hm => ?_
      · rw [c.rewalk h hk _ (by omega), if_pos (by omega)]; simp
      · rw [c.rewalk h hk _ (by omega), if_neg (by omega)]
    rw [h2, if_neg hk0]; omega

/-- A fresh item costs two reads. -/
theorem Chain.findReads_fresh {k i : Nat} (c : Chain s k) (h : Inv s pairs root depth) (hi : i < s.capacity)
    (hki : k < i) : s.findReads i = 2 := by
  have hp : cell s.parents i = i := by rw [c.parents i hi, if_neg (by omega)]
  unfold UnionFind.findReads
  rw [h.find hi, h.root_self i hi hp]
  have h1 : iterations (fun n => UnionFind.climb s.parents n i) = 1 := by
    refine iterations_eq ?_ fun m hm => ?_
    · rw [UnionFind.climb, arrGet_eq (h.lenP ▸ hi), hp]; simp
    · rw [Nat.lt_one_iff.1 hm]; rfl
  have h2 : iterations (fun n => UnionFind.rewalk s.parents i n i) = 1 := by
    refine iterations_eq ?_ fun m hm => ?_
    · rw [UnionFind.rewalk, arrGet_eq (h.lenP ▸ hi), hp]; simp
    · rw [Nat.lt_one_iff.1 hm]; rfl
  simp [h1, h2]

/-- Uniting the next item with item 0 makes the chain longer. -/
theorem Chain.next {k : Nat} (c : Chain s k) (h : Inv s pairs root depth) (hk : k + 1 < s.capacity)
    (hfit : s.capacity ≤ s.cellMax) :
    ∃ s' pairs' root' depth', s.step (.union (k + 1) 0) = (s', .ok (.bool true)) ∧ Inv s' pairs' root' depth' ∧
      Chain s' (k + 1) ∧ s'.capacity = s.capacity ∧ s'.cellMax = s.cellMax := by
  have hr0 := c.root_eq h (i := 0) (by omega) (by omega)
  have hp : cell s.parents (k + 1) = k + 1 := by rw [c.parents _ hk, if_neg (by omega)]
  have hr1 := h.root_self _ hk hp
  have hne : root (k + 1) ≠ root 0 := by omega
  have h0 : 0 < s.capacity := by omega
  obtain ⟨s', root', depth', hu, hinv, hcap, hcell⟩ := h.union_diff hk h0 hne
    (le_trans (h.sum_le hk h0 hne).1 hfit)
  refine ⟨s', _, root', depth', by simp [UnionFind.step, hu, Except.map], hinv, ?_, hcap, hcell⟩
  obtain ⟨_, _, he⟩ := h.union_effect hk h0 hne hu
  have hrk := c.ranks _ hk (by omega)
  rcases he with ⟨hlt, _⟩ | ⟨hlt, _⟩ | ⟨_, hpar, hrank, _⟩
  · rw [c.zero] at hlt; omega
  · rw [hrk] at hlt; omega
  · rw [hr0, hr1] at hpar
    rw [hr1] at hrank
    have hlp : k < s.parents.length := by rw [h.lenP]; omega
    have hlr : k + 1 < s.ranks.length := by rw [h.lenR]; omega
    refine ⟨fun i hi => ?_, ?_, fun i hi hki => ?_⟩
    · rw [hpar, cell_set hlp]
      rw [hcap] at hi
      by_cases hki : k = i
      · subst hki; simp
      · rw [if_neg hki, c.parents i hi]
        split <;> split <;> omega
    · rw [hrank, cell_set hlr, if_neg (by omega), c.zero]
    · rw [hrank, cell_set hlr, if_neg (by omega)]
      exact c.ranks i (by omega) (by omega)

/-- The history growing a chain from `k` to `k + n`. -/
theorem Chain.grow (n : Nat) {k : Nat} (c : Chain s k) (h : Inv s pairs root depth) (hk : k + n < s.capacity)
    (hfit : s.capacity ≤ s.cellMax) :
    ∃ s' outs pairs' root' depth', s.run ((List.range' k n).map fun i => .union (i + 1) 0) = .ok (s', outs) ∧
      Inv s' pairs' root' depth' ∧ Chain s' (k + n) ∧ s'.capacity = s.capacity ∧
      s.runReads ((List.range' k n).map fun i => .union (i + 1) 0) =
        ((List.range' k n).map fun i => if i = 0 then 4 else 2 * i + 3).sum := by
  induction n generalizing s pairs root depth k with
  | zero => exact ⟨s, [], pairs, root, depth, rfl, h, c, rfl, rfl⟩
  | succ n ih =>
    obtain ⟨s1, p1, r1, d1, hst, hinv, hch, hcap, hcell⟩ := c.next h (by omega) hfit
    obtain ⟨s2, outs, p2, r2, d2, hrun, hinv2, hch2, hcap2, hcost⟩ := ih hch hinv (by omega) (by omega)
    refine ⟨s2, .bool true :: outs, p2, r2, d2, ?_, hinv2, ?_, by omega, ?_⟩
    · simp only [List.range'_succ, List.map_cons, UnionFind.run, hst, hrun]
    · rwa [show k + (n + 1) = k + 1 + n by omega]
    · simp only [List.range'_succ, List.map_cons, UnionFind.runReads, UnionFind.opReads, hst, hcost, List.sum_cons]
      rw [c.findReads_fresh h (by omega) (by omega), c.findReads h (by omega)]
      split <;> omega

theorem sum_chain (n : Nat) :
    ((List.range' 0 n).map fun i => if i = 0 then 4 else 2 * i + 3).sum = if n = 0 then 0 else (n + 1) ^ 2 := by
  induction n with
  | zero => rfl
  | succ n ih =>
    rw [List.range'_concat, List.map_append, List.sum_append, ih]
    by_cases hn : n = 0
    · subst hn; rfl
    · simp only [hn, if_false, Nat.succ_ne_zero, List.map_cons, List.map_nil, List.sum_cons, List.sum_nil]
      simp only [Nat.zero_add, Nat.one_mul, hn, if_false]
      ring

/-! ### Union of representatives -/

/-- Ranks increase towards the root, and bound the size of the class from below. -/
structure Ranked (s : UnionFind) : Prop where
  up : ∀ i < s.capacity, cell s.parents i ≠ i → cell s.ranks i < cell s.ranks (cell s.parents i)
  size : ∀ i < s.capacity, cell s.parents i = i → 2 ^ cell s.ranks i ≤ cell s.cardinalities i

theorem Ranked.climb (r : Ranked s) (h : Inv s pairs root depth) (n : Nat) {i : Nat} (hi : i < s.capacity)
    (hn : cell s.ranks (root i) < cell s.ranks i + n) : UnionFind.climb s.parents n i = .ok (root i) := by
  induction n generalizing i with
  | zero =>
    by_cases hp : cell s.parents i = i
    · rw [h.root_self i hi hp] at hn; omega
    · exfalso
      have key : ∀ d i, depth i ≤ d → i < s.capacity → cell s.ranks i ≤ cell s.ranks (root i) := by
        intro d
        induction d with
        | zero =>
          intro i hd hi
          by_cases hp : cell s.parents i = i
          · rw [h.root_self i hi hp]
          · have := h.depth_dec i hi hp; omega
        | succ d ih =>
          intro i hd hi
          by_cases hp : cell s.parents i = i
          · rw [h.root_self i hi hp]
          · have h1 := h.depth_dec i hi hp
            have h2 := ih _ (by omega) (h.par_lt i hi)
            rw [h.root_par i hi] at h2
            exact le_trans (le_of_lt (r.up i hi hp)) h2
      have := key _ i le_rfl hi
      omega
  | succ n ih =>
    rw [UnionFind.climb, arrGet_eq (h.lenP ▸ hi)]
    by_cases hc : i = cell s.parents i
    · simp only [← hc, if_true]; rw [h.root_self i hi hc.symm]
    · simp only [hc, if_false]
      have := r.up i hi (Ne.symm hc)
      rw [ih (h.par_lt i hi) (by rw [h.root_par i hi]; omega), h.root_par i hi]

/-- The second loop stops at latest when the first one did. -/
theorem Inv.rewalk_of_climb (h : Inv s pairs root depth) (n : Nat) {i : Nat} (hi : i < s.capacity)
    (hn : UnionFind.climb s.parents n i = .ok (root i)) : UnionFind.rewalk s.parents (root i) n i = .ok () := by
  induction n generalizing i with
  | zero => simp [UnionFind.climb] at hn
  | succ n ih =>
    rw [UnionFind.climb, arrGet_eq (h.lenP ▸ hi)] at hn
    rw [UnionFind.rewalk, arrGet_eq (h.lenP ▸ hi)]
    by_cases hc : i = cell s.parents i
    · simp only
      rw [if_pos (by rw [h.root_self i hi hc.symm]; exact hc.symm)]
    · simp only [hc, if_false] at hn
      simp only
      split
      · rfl
      · rw [← h.root_par i hi] at hn ⊢
        exact ih (h.par_lt i hi) hn

theorem Ranked.findReads_le (r : Ranked s) (h : Inv s pairs root depth) {x : Nat} (hx : x < s.capacity) :
    s.findReads x ≤ 2 * (Nat.log 2 (cell s.cardinalities (root x)) + 1) := by
  have hsize := r.size _ (h.root_lt x hx) (h.root_fix x hx)
  have hlog : cell s.ranks (root x) ≤ Nat.log 2 (cell s.cardinalities (root x)) :=
    Nat.le_log_of_pow_le (by omega) hsize
  have hc := r.climb h (Nat.log 2 (cell s.cardinalities (root x)) + 1) hx (by omega)
  have hw := h.rewalk_of_climb _ hx hc
  unfold UnionFind.findReads
  rw [h.find hx]
  have h1 := iterations_le (loop := fun n => UnionFind.climb s.parents n x) (by rw [hc]; simp)
  have h2 := iterations_le (loop := fun n => UnionFind.rewalk s.parents (root x) n x) (by rw [hw]; simp)
  simp only
  omega

theorem Ranked.union (r : Ranked s) (h : Inv s pairs root depth) {x y : Nat} (hx : x < s.capacity)
    (hy : y < s.capacity) (hrx : root x = x) (hry : root y = y) {s' : UnionFind} {b : Bool}
    (hs : s.union x y = (s', .ok b)) : Ranked s' := by
  by_cases hxy : root x = root y
  · rw [(h.union_same hx hy hxy).1] at hs
    simp only [Prod.mk.injEq, Except.ok.injEq] at hs
    rwa [← hs.1]
  have hne : x ≠ y := by rwa [hrx, hry] at hxy
  have hpx : cell s.parents x = x := by have := h.root_fix x hx; rwa [hrx] at this
  have hpy : cell s.parents y = y := by have := h.root_fix y hy; rwa [hry] at this
  have hsx := r.size x hx hpx
  have hsy := r.size y hy hpy
  have hlpx : x < s.parents.length := h.lenP.symm ▸ hx
  have hlpy : y < s.parents.length := h.lenP.symm ▸ hy
  have hlrx : x < s.ranks.length := h.lenR.symm ▸ hx
  have hlcx : x < s.cardinalities.length := h.lenC.symm ▸ hx
  have hlcy : y < s.cardinalities.length := h.lenC.symm ▸ hy
  obtain ⟨_, hcap, he⟩ := h.union_effect hx hy hxy hs
  rw [hrx, hry] at he
  rcases he with ⟨hlt, hp, hr, hc⟩ | ⟨hlt, hp, hr, hc⟩ | ⟨heq, hp, hr, hc⟩
  · refine ⟨fun i hi hpi => ?_, fun i hi hpi => ?_⟩ <;> rw [hcap] at hi
    · rw [hp, cell_set hlpx] at hpi ⊢
      rw [hr]
      split
      · rename_i e; subst e; exact hlt
      · rename_i e; rw [if_neg e] at hpi; exact r.up i hi hpi
    · rw [hp, cell_set hlpx] at hpi
      rw [hr, hc, cell_set hlcy]
      split
      · rename_i e; subst e; omega
      · split at hpi
        · rename_i e e'; omega
        · exact r.size i hi hpi
  · refine ⟨fun i hi hpi => ?_, fun i hi hpi => ?_⟩ <;> rw [hcap] at hi
    · rw [hp, cell_set hlpy] at hpi ⊢
      rw [hr]
      split
      · rename_i e; subst e; exact hlt
      · rename_i e; rw [if_neg e] at hpi; exact r.up i hi hpi
    · rw [hp, cell_set hlpy] at hpi
      rw [hr, hc, cell_set hlcx]
      split
      · rename_i e; subst e; omega
      · split at hpi
        · rename_i e e'; omega
        · exact r.size i hi hpi
  · refine ⟨fun i hi hpi => ?_, fun i hi hpi => ?_⟩ <;> rw [hcap] at hi
    · rw [hp, cell_set hlpy] at hpi ⊢
      rw [hr, cell_set hlrx, cell_set hlrx]
      by_cases e : y = i
      · subst e
        rw [if_neg hne, if_pos rfl, if_pos rfl]
        omega
      · rw [if_neg e] at hpi ⊢
        have hup := r.up i hi hpi
        have hxi : x ≠ i := by rintro rfl; exact hpi hpx
        rw [if_neg hxi]
        split
        · rename_i e'; rw [e']; omega
        · exact hup
    · rw [hp, cell_set hlpy] at hpi
      rw [hr, hc, cell_set hlrx, cell_set hlcx]
      by_cases e : x = i
      · subst e
        rw [if_pos rfl, if_pos rfl, pow_succ]
        rw [← heq] at hsy
        omega
      · rw [if_neg e, if_neg e]
        split at hpi
        · omega
        · exact r.size i hi hpi

theorem ranked_fresh (s : UnionFind) (hp : s.parents = List.range s.capacity)
    (hr : s.ranks = List.replicate s.capacity 0) (hc : s.cardinalities = List.replicate s.capacity 1) :
    Ranked s where
  up := fun i hi h => by rw [hp, cell_range hi] at h; exact absurd rfl h
  size := fun i hi _ => by rw [hr, hc, cell_replicate hi, cell_replicate hi]; simp

theorem Ranked.run (r : Ranked s) (h : Inv s pairs root depth) (ops : List (UFOp Nat)) {s' : UnionFind}
    {outs : List UFOut} (hroots : UnitesRoots s ops) (hrun : s.run ops = .ok (s', outs)) : Ranked s' := by
  induction ops generalizing s pairs root depth outs with
  | nil =>
    simp only [UnionFind.run, Except.ok.injEq, Prod.mk.injEq] at hrun
    rw [← hrun.1]; exact r
  | cons op ops ih =>
    by_cases hop : ∀ x ∈ op.items, x < s.capacity
    · rcases h.step op hop with ⟨s1, out, root1, depth1, h1, h2, h3, h4, h5⟩ | ⟨he, _, _⟩
      · have hrun' := hrun
        rw [UnionFind.run, h1] at hrun
        simp only at hrun
        rcases hr : s1.run ops with e | ⟨s2, outs2⟩
        · rw [hr] at hrun; simp at hrun
        · rw [hr] at hrun
          simp only [Except.ok.injEq, Prod.mk.injEq] at hrun
          obtain ⟨rfl, rfl⟩ := hrun
          refine ih ?_ h3 ?_ hr
          · cases op with
            | union x y =>
              have hx : x < s.capacity := hop x (by simp [UFOp.items])
              have hy : y < s.capacity := hop y (by simp [UFOp.items])
              obtain ⟨hfx, hfy⟩ := hroots.1
              rw [h.find hx, Except.ok.injEq] at hfx
              rw [h.find hy, Except.ok.injEq] at hfy
              rcases hu : s.union x y with ⟨sx, e | b⟩
              · simp [UnionFind.step, hu, Except.map] at h1
              · simp only [UnionFind.step, hu, Except.map, Prod.mk.injEq] at h1
                rw [← h1.1]
                exact r.union h hx hy hfx hfy hu
            | find x => simp only [UnionFind.step, Prod.mk.injEq] at h1; rw [← h1.1]; exact r
            | same x y => simp only [UnionFind.step, Prod.mk.injEq] at h1; rw [← h1.1]; exact r
            | card x => simp only [UnionFind.step, Prod.mk.injEq] at h1; rw [← h1.1]; exact r
            | len => simp only [UnionFind.step, Prod.mk.injEq] at h1; rw [← h1.1]; exact r
            | clear =>
              simp only [UnionFind.step, Prod.mk.injEq] at h1
              rw [← h1.1]
              exact ranked_fresh _ rfl rfl rfl
          · have : UnitesRoots (s.step op).1 ops := by
              cases op with
              | union x y => exact hroots.2
              | find x => exact hroots
              | same x y => exact hroots
              | card x => exact hroots
              | len => exact hroots
              | clear => exact hroots
            rwa [h1] at this
      · rw [UnionFind.run] at hrun
        rcases hst : s.step op with ⟨s1, rr⟩
        rw [hst] at he hrun
        simp only at he
        subst he
        simp at hrun
    · have he := h.step_oob op hop
      rw [UnionFind.run] at hrun
      rcases hst : s.step op with ⟨s1, rr⟩
      rw [hst] at he hrun
      simp only at he
      subst he
      simp at hrun

end UnionFind
end Pelote
