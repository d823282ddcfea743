import Verif.Spec.UnionFind
import Verif.Lemmas.Linked
import Mathlib.Data.Finset.Card
import Mathlib.Order.Interval.Finset.Nat
import Mathlib.Tactic.Ring
import Mathlib.Data.Fintype.Card
import Mathlib.Data.Fintype.EquivFin

/-! Invariant of `UnionFind` and its preservation. -/
namespace Pelote
namespace UnionFind

/-- Cell read, defaulting to 0 out of range (proof device only). -/
def cell (a : List Nat) (i : Nat) : Nat := a.getD i 0

theorem arrGet_eq {a : List Nat} {i : Nat} (h : i < a.length) : arrGet a i = .ok (cell a i) := by
  simp [arrGet, cell, h]

theorem arrGet_oob {a : List Nat} {i : Nat} (h : a.length ≤ i) : arrGet a i = .error .indexError := by
  simp [arrGet, h]

theorem arrSet_eq {m : Nat} {a : List Nat} {i v : Nat} (h : i < a.length) (hv : v ≤ m) :
    arrSet m a i v = .ok (a.set i v) := by
  simp [arrSet, Nat.not_le.2 h, Nat.not_lt.2 hv]

theorem arrSet_overflow {m : Nat} {a : List Nat} {i v : Nat} (h : i < a.length) (hv : m < v) :
    arrSet m a i v = .error .overflowError := by
  simp [arrSet, Nat.not_le.2 h, hv]

theorem cell_set {a : List Nat} {i v j : Nat} (h : i < a.length) :
    cell (a.set i v) j = if i = j then v else cell a j := by
  simp only [cell, List.getD_eq_getElem?_getD, List.getElem?_set]
  split
  · simp_all
  · rfl

/-- The invariant: `root` and `depth` are ghost functions. -/
structure Inv (s : UnionFind) (pairs : List (Nat × Nat)) (root depth : Nat → Nat) : Prop where
  lenP : s.parents.length = s.capacity
  lenR : s.ranks.length = s.capacity
  lenC : s.cardinalities.length = s.capacity
  fits : s.capacity ≤ s.cellMax + 1
  par_lt : ∀ i < s.capacity, cell s.parents i < s.capacity
  root_lt : ∀ i < s.capacity, root i < s.capacity
  root_par : ∀ i < s.capacity, root (cell s.parents i) = root i
  root_fix : ∀ i < s.capacity, cell s.parents (root i) = root i
  root_self : ∀ i < s.capacity, cell s.parents i = i → root i = i
  depth_dec : ∀ i < s.capacity, cell s.parents i ≠ i → depth (cell s.parents i) < depth i
  depth_root : ∀ i < s.capacity, cell s.parents i = i → depth i = 0
  depth_lt : ∀ i < s.capacity, depth i < cell s.cardinalities (root i)
  pairs_lt : ∀ p ∈ pairs, p.1 < s.capacity ∧ p.2 < s.capacity
  conn : ∀ i < s.capacity, ∀ j < s.capacity, root i = root j ↔ Linked pairs i j
  count_eq : s.count = ((Finset.range s.capacity).filter (fun i => cell s.parents i = i)).card
  card_eq : ∀ r < s.capacity, cell s.parents r = r →
    cell s.cardinalities r = ((Finset.range s.capacity).filter (fun i => root i = r)).card
  rank_le : ∀ i < s.capacity, (cell s.ranks i : Int) + s.count ≤ s.capacity
  cards_le : ∀ i < s.capacity, cell s.cardinalities i ≤ s.cellMax
  cellMax_pos : 1 ≤ s.cellMax

theorem cell_range {n i : Nat} (h : i < n) : cell (List.range n) i = i := by
  simp [cell, h]

theorem cell_replicate {n i v : Nat} (h : i < n) : cell (List.replicate n v) i = v := by
  simp [cell, h]

/-- The invariant of a freshly cleared structure. -/
theorem inv_fresh (s : UnionFind) (hp : s.parents = List.range s.capacity)
    (hr : s.ranks = List.replicate s.capacity 0) (hc : s.cardinalities = List.replicate s.capacity 1)
    (hcount : s.count = s.capacity) (hfits : s.capacity ≤ s.cellMax + 1) (hpos : 1 ≤ s.cellMax) :
    Inv s [] id (fun _ => 0) where
  lenP := by simp [hp]
  lenR := by simp [hr]
  lenC := by simp [hc]
  fits := hfits
  par_lt := fun i hi => by rw [hp, cell_range hi]; exact hi
  root_lt := fun i hi => hi
  root_par := fun i hi => by rw [hp, cell_range hi]
  root_fix := fun i hi => by rw [hp]; exact cell_range hi
  root_self := fun i hi _ => rfl
  depth_dec := fun i hi h => by rw [hp, cell_range hi] at h; exact absurd rfl h
  depth_root := fun i hi _ => rfl
  depth_lt := fun i hi => by rw [hc]; simp [cell_replicate hi]
  pairs_lt := by simp
  conn := fun i hi j hj => by simp
  count_eq := by
    rw [hcount, hp, Finset.filter_true_of_mem]
    · simp
    · intro i hi; exact cell_range (Finset.mem_range.1 hi)
  card_eq := fun r hr' _ => by
    rw [hc, cell_replicate hr']
    symm
    rw [Finset.card_eq_one]
    refine ⟨r, ?_⟩
    ext i
    simp only [id, Finset.mem_filter, Finset.mem_range, Finset.mem_singleton]
    constructor
    · exact fun h => h.2
    · rintro rfl; exact ⟨hr', rfl⟩
  rank_le := fun i hi => by rw [hr, cell_replicate hi, hcount]; simp
  cards_le := fun i hi => by rw [hc, cell_replicate hi]; exact hpos
  cellMax_pos := hpos

variable {s : UnionFind} {pairs : List (Nat × Nat)} {root depth : Nat → Nat}

theorem Inv.depth_lt_cap (h : Inv s pairs root depth) {i : Nat} (hi : i < s.capacity) :
    depth i < s.capacity := by
  have h1 := h.depth_lt i hi
  rw [h.card_eq _ (h.root_lt i hi) (h.root_fix i hi)] at h1
  have := Finset.card_filter_le (Finset.range s.capacity) (fun j => root j = root i)
  simp only [Finset.card_range] at this
  omega

theorem Inv.climb (h : Inv s pairs root depth) (fuel i : Nat) (hi : i < s.capacity)
    (hf : depth i < fuel) : climb s.parents fuel i = .ok (root i) := by
  induction fuel generalizing i with
  | zero => omega
  | succ n ih =>
    rw [UnionFind.climb, arrGet_eq (h.lenP ▸ hi)]
    by_cases hc : i = cell s.parents i
    · simp only [← hc, if_true]; rw [h.root_self i hi hc.symm]
    · simp only [hc, if_false]
      rw [ih _ (h.par_lt i hi) (by have := h.depth_dec i hi (Ne.symm hc); omega), h.root_par i hi]

theorem Inv.rewalk (h : Inv s pairs root depth) (fuel i : Nat) (hi : i < s.capacity)
    (hf : depth i < fuel) : rewalk s.parents (root i) fuel i = .ok () := by
  induction fuel generalizing i with
  | zero => omega
  | succ n ih =>
    rw [UnionFind.rewalk, arrGet_eq (h.lenP ▸ hi)]
    by_cases hc : cell s.parents i = root i
    · simp [hc]
    · simp only [hc, if_false]
      have hne : cell s.parents i ≠ i := fun e => hc (e.trans (h.root_self i hi e).symm)
      rw [← h.root_par i hi]
      exact ih _ (h.par_lt i hi) (by have := h.depth_dec i hi hne; omega)

theorem Inv.find (h : Inv s pairs root depth) {i : Nat} (hi : i < s.capacity) :
    s.find i = .ok (root i) := by
  have := h.depth_lt_cap hi
  rw [UnionFind.find, h.climb _ _ hi (by omega)]
  simp only
  rw [h.rewalk _ _ hi (by omega)]

theorem find_oob (hlen : s.parents.length = s.capacity) {i : Nat} (hi : s.capacity ≤ i) :
    s.find i = .error .indexError := by
  rw [UnionFind.find, UnionFind.climb, arrGet_oob (hlen ▸ hi)]

theorem Inv.root_idem (h : Inv s pairs root depth) {i : Nat} (hi : i < s.capacity) :
    root (root i) = root i := h.root_self _ (h.root_lt i hi) (h.root_fix i hi)

theorem Inv.card_pos (h : Inv s pairs root depth) {r : Nat} (hr : r < s.capacity)
    (hp : cell s.parents r = r) : 0 < cell s.cardinalities r := by
  have := h.depth_lt r hr
  rw [h.root_self r hr hp] at this
  omega

/-- Merging the class of root `b` into that of root `a`. -/
theorem Inv.attach (h : Inv s pairs root depth) {a b x y : Nat} (ha : a < s.capacity)
    (hb : b < s.capacity) (hra : cell s.parents a = a) (hrb : cell s.parents b = b) (hab : a ≠ b)
    (hx : x < s.capacity) (hy : y < s.capacity)
    (hxy : (root x = a ∧ root y = b) ∨ (root x = b ∧ root y = a))
    {s' : UnionFind} (hs1 : s'.capacity = s.capacity) (hs2 : s'.cellMax = s.cellMax)
    (hs3 : s'.count = s.count - 1) (hs4 : s'.parents = s.parents.set b a)
    (hs5 : s'.cardinalities =
      s.cardinalities.set a (cell s.cardinalities a + cell s.cardinalities b))
    (hfit : cell s.cardinalities a + cell s.cardinalities b ≤ s.cellMax)
    (hs6 : s'.ranks.length = s.capacity)
    (hs7 : ∀ i < s.capacity, cell s'.ranks i ≤ cell s.ranks i + 1) :
    Inv s' ((x, y) :: pairs) (fun i => if root i = b then a else root i)
      (fun i => if root i = b then depth i + 1 else depth i) := by
  have hlb : b < s.parents.length := h.lenP ▸ hb
  have hla : a < s.cardinalities.length := h.lenC ▸ ha
  have hroota : root a = a := h.root_self a ha hra
  have hrootb : root b = b := h.root_self b hb hrb
  have hp : ∀ i, cell s'.parents i = if b = i then a else cell s.parents i := fun i => by
    rw [hs4, cell_set hlb]
  have hcd : ∀ i, cell s'.cardinalities i =
      if a = i then cell s.cardinalities a + cell s.cardinalities b else cell s.cardinalities i :=
    fun i => by rw [hs5, cell_set hla]
  have hca := h.card_pos ha hra
  have hcb := h.card_pos hb hrb
  have hlinks : ∀ i < s.capacity, ∀ j < s.capacity,
      (if root i = b then a else root i) = (if root j = b then a else root j) ↔
        Linked ((x, y) :: pairs) i j := by
    intro i hi j hj
    rw [linked_cons, ← h.conn i hi j hj, ← h.conn i hi x hx, ← h.conn y hy j hj, ← h.conn i hi y hy,
      ← h.conn x hx j hj]
    rcases hxy with ⟨e1, e2⟩ | ⟨e1, e2⟩ <;> rw [e1, e2] <;> split <;> split <;> omega
  refine ⟨?_, ?_, ?_, ?_, ?_, ?_, ?_, ?_, ?_, ?_, ?_, ?_, ?_, ?_, ?_, ?_, ?_, ?_, ?_⟩
  · rw [hs1, hs4]; simp [h.lenP]
  · rw [hs1, hs6]
  · rw [hs1, hs5]; simp [h.lenC]
  · rw [hs1, hs2]; exact h.fits
  · intro i hi
    rw [hs1] at hi ⊢
    rw [hp]; split
    · exact ha
    · exact h.par_lt i hi
  · intro i hi
    rw [hs1] at hi ⊢
    split
    · exact ha
    · exact h.root_lt i hi
  · intro i hi
    rw [hs1] at hi
    simp only [hp]
    by_cases e : b = i
    · subst e; simp [hroota, hrootb]
    · simp only [e, if_false, h.root_par i hi]
  · intro i hi
    rw [hs1] at hi
    simp only [hp]
    by_cases e : root i = b
    · simp [e, hra, Ne.symm hab]
    · simp only [e, if_false, Ne.symm e, h.root_fix i hi]
  · intro i hi
    rw [hs1] at hi
    simp only [hp]
    by_cases e : b = i
    · subst e; simp [hab]
    · simp only [e, if_false]
      intro hi'
      have := h.root_self i hi hi'
      rw [this]; simp [Ne.symm e]
  · intro i hi
    rw [hs1] at hi
    simp only [hp]
    by_cases e : b = i
    · subst e
      intro _
      simp [hroota, hab, hrootb, h.depth_root a ha hra]
    · simp only [e, if_false]
      intro hne
      rw [h.root_par i hi]
      have := h.depth_dec i hi hne
      split <;> omega
  · intro i hi
    rw [hs1] at hi
    simp only [hp]
    by_cases e : b = i
    · subst e; simp [hab]
    · simp only [e, if_false]
      intro hi'
      rw [h.root_self i hi hi', h.depth_root i hi hi']
      simp [Ne.symm e]
  · intro i hi
    rw [hs1] at hi
    have hd := h.depth_lt i hi
    simp only [hcd]
    by_cases e : root i = b
    · simp only [e, if_true]; rw [e] at hd; omega
    · simp only [e, if_false]
      split
      · rename_i e'; rw [← e'] at hd; omega
      · exact hd
  · intro p hp'
    rw [hs1]
    rcases List.mem_cons.1 hp' with rfl | hm
    · exact ⟨hx, hy⟩
    · exact h.pairs_lt p hm
  · rw [hs1]; exact hlinks
  · rw [hs3, h.count_eq, hs1]
    have hmem : b ∈ (Finset.range s.capacity).filter (fun i => cell s.parents i = i) := by
      simp [hb, hrb]
    have : (Finset.range s.capacity).filter (fun i => cell s'.parents i = i) =
        ((Finset.range s.capacity).filter (fun i => cell s.parents i = i)).erase b := by
      ext i
      simp only [Finset.mem_filter, Finset.mem_erase, hp, Finset.mem_range]
      by_cases e : b = i
      · subst e; simp [hab]
      · simp [e, Ne.symm e]
    rw [this, Finset.card_erase_of_mem hmem]
    have := Finset.card_pos.2 ⟨b, hmem⟩
    omega
  · intro r hr hrr
    rw [hs1] at hr ⊢
    rw [hp] at hrr
    have hrb' : b ≠ r := by
      rintro rfl; simp at hrr; exact hab hrr
    simp only [hrb', if_false] at hrr
    rw [hcd]
    by_cases e : a = r
    · subst e
      simp only [if_true]
      rw [h.card_eq a ha hra, h.card_eq b hb hrb, ← Finset.card_union_of_disjoint]
      · congr 1
        ext i
        simp only [Finset.mem_union, Finset.mem_filter, Finset.mem_range]
        constructor
        · rintro (⟨h1, h2⟩ | ⟨h1, h2⟩)
          · refine ⟨h1, ?_⟩; simp [h2]
          · refine ⟨h1, ?_⟩; simp [h2]
        · rintro ⟨h1, h2⟩
          by_cases e' : root i = b
          · exact .inr ⟨h1, e'⟩
          · simp only [e', if_false] at h2; exact .inl ⟨h1, h2⟩
      · rw [Finset.disjoint_left]
        intro i hi hi'
        simp only [Finset.mem_filter] at hi hi'
        exact hab (hi.2.symm.trans hi'.2)
    · simp only [e, if_false]
      rw [h.card_eq r hr hrr]
      congr 1
      ext i
      simp only [Finset.mem_filter, Finset.mem_range]
      refine and_congr_right fun _ => ?_
      split
      · rename_i e'; rw [e']; simp [hrb', e]
      · rfl
  · intro i hi
    rw [hs1] at hi ⊢
    have h1 := h.rank_le i hi
    have h2 := hs7 i hi
    rw [hs3]
    omega
  · intro i hi
    rw [hs1] at hi
    rw [hcd, hs2]
    split
    · exact hfit
    · exact h.cards_le i hi
  · rw [hs2]; exact h.cellMax_pos

/-- Uniting two items already linked changes nothing. -/
theorem Inv.union_same (h : Inv s pairs root depth) {x y : Nat} (hx : x < s.capacity)
    (hy : y < s.capacity) (hxy : root x = root y) :
    s.union x y = (s, .ok false) ∧ Inv s ((x, y) :: pairs) root depth := by
  refine ⟨?_, ?_⟩
  · rw [UnionFind.union, h.find hx, h.find hy]; simp [hxy]
  · have hl := (h.conn x hx y hy).1 hxy
    exact { h with
      pairs_lt := fun p hp => by
        rcases List.mem_cons.1 hp with rfl | hm
        · exact ⟨hx, hy⟩
        · exact h.pairs_lt p hm
      conn := fun i hi j hj => by rw [linked_cons_of_linked hl]; exact h.conn i hi j hj }

theorem Inv.attach_ok (h : Inv s pairs root depth) {a b : Nat} (ha : a < s.capacity)
    (hb : b < s.capacity) {n : Int}
    (hfit : cell s.cardinalities a + cell s.cardinalities b ≤ s.cellMax) :
    UnionFind.attach { s with count := n } a b =
      ({ s with
          count := n
          cardinalities :=
            s.cardinalities.set a (cell s.cardinalities a + cell s.cardinalities b)
          parents := s.parents.set b a }, .ok ()) := by
  have hfits := h.fits
  unfold UnionFind.attach
  simp only [arrGet_eq (h.lenC.symm ▸ ha : a < s.cardinalities.length),
    arrGet_eq (h.lenC.symm ▸ hb : b < s.cardinalities.length),
    arrSet_eq (h.lenC.symm ▸ ha : a < s.cardinalities.length) hfit,
    arrSet_eq (h.lenP.symm ▸ hb : b < s.parents.length) (by omega : a ≤ s.cellMax)]

theorem Inv.attach_overflow (h : Inv s pairs root depth) {a b : Nat} (ha : a < s.capacity)
    (hb : b < s.capacity) {n : Int}
    (hfit : s.cellMax < cell s.cardinalities a + cell s.cardinalities b) :
    UnionFind.attach { s with count := n } a b = ({ s with count := n }, .error .overflowError) := by
  unfold UnionFind.attach
  simp only [arrGet_eq (h.lenC.symm ▸ ha : a < s.cardinalities.length),
    arrGet_eq (h.lenC.symm ▸ hb : b < s.cardinalities.length),
    arrSet_overflow (h.lenC.symm ▸ ha : a < s.cardinalities.length) hfit]

/-- Uniting two classes that fit. -/
theorem Inv.union_diff (h : Inv s pairs root depth) {x y : Nat} (hx : x < s.capacity)
    (hy : y < s.capacity) (hxy : root x ≠ root y)
    (hfit : cell s.cardinalities (root x) + cell s.cardinalities (root y) ≤ s.cellMax) :
    ∃ s' root' depth', s.union x y = (s', .ok true) ∧ Inv s' ((x, y) :: pairs) root' depth' ∧
      s'.capacity = s.capacity ∧ s'.cellMax = s.cellMax := by
  have hrx := h.root_lt x hx
  have hry := h.root_lt y hy
  have hfx := h.root_fix x hx
  have hfy := h.root_fix y hy
  have hgx := arrGet_eq (h.lenR.symm ▸ hx : x < s.ranks.length)
  have hgy := arrGet_eq (h.lenR.symm ▸ hy : y < s.ranks.length)
  unfold UnionFind.union
  rw [h.find hx, h.find hy]
  simp only [hxy, if_false, hgx, hgy]
  split
  · rw [h.attach_ok hry hrx (by omega)]
    refine ⟨_, _, _, rfl, h.attach hry hrx hfy hfx (Ne.symm hxy) hx hy (.inr ⟨rfl, rfl⟩) ?_ ?_ ?_ ?_
      ?_ (by omega) ?_ ?_, rfl, rfl⟩ <;> first | rfl | skip
    · exact h.lenR
    · intro i _; simp
  · split
    · rw [h.attach_ok hrx hry hfit]
      refine ⟨_, _, _, rfl, h.attach hrx hry hfx hfy hxy hx hy (.inl ⟨rfl, rfl⟩) ?_ ?_ ?_ ?_
        ?_ (by omega) ?_ ?_, rfl, rfl⟩ <;> first | rfl | skip
      · exact h.lenR
      · intro i _; simp
    · rw [h.attach_ok hrx hry hfit]
      have hlr : root x < s.ranks.length := h.lenR.symm ▸ hrx
      have hrank := h.rank_le _ hrx
      have hcnt : 2 ≤ s.count := by
        rw [h.count_eq]
        have : ({root x, root y} : Finset Nat) ⊆
            (Finset.range s.capacity).filter (fun i => cell s.parents i = i) := by
          intro i hi
          simp only [Finset.mem_insert, Finset.mem_singleton] at hi
          rcases hi with rfl | rfl <;> simp [*]
        have h2 := Finset.card_le_card this
        rw [Finset.card_pair hxy] at h2
        exact_mod_cast h2
      have hfits := h.fits
      simp only [arrGet_eq hlr]
      rw [arrSet_eq hlr (by omega)]
      refine ⟨_, _, _, rfl, h.attach hrx hry hfx hfy hxy hx hy (.inl ⟨rfl, rfl⟩) ?_ ?_ ?_ ?_
        ?_ (by omega) ?_ ?_, rfl, rfl⟩ <;> first | rfl | skip
      · simp [h.lenR]
      · intro i _
        rw [cell_set hlr]
        split
        · rename_i e; rw [e]
        · omega

/-- Uniting two classes that do not fit raises `OverflowError`. -/
theorem Inv.union_overflow (h : Inv s pairs root depth) {x y : Nat} (hx : x < s.capacity)
    (hy : y < s.capacity) (hxy : root x ≠ root y)
    (hfit : s.cellMax < cell s.cardinalities (root x) + cell s.cardinalities (root y)) :
    (s.union x y).2 = .error .overflowError := by
  have hrx := h.root_lt x hx
  have hry := h.root_lt y hy
  have hgx := arrGet_eq (h.lenR.symm ▸ hx : x < s.ranks.length)
  have hgy := arrGet_eq (h.lenR.symm ▸ hy : y < s.ranks.length)
  unfold UnionFind.union
  rw [h.find hx, h.find hy]
  simp only [hxy, if_false, hgx, hgy]
  split
  · rw [h.attach_overflow hry hrx (by omega)]
  · split
    · rw [h.attach_overflow hrx hry hfit]
    · rw [h.attach_overflow hrx hry hfit]

/-- Two distinct classes together are at most the whole set; they overflow only when they make up
all of it and the capacity is exactly one more than what a cell can hold. -/
theorem Inv.sum_le (h : Inv s pairs root depth) {x y : Nat} (hx : x < s.capacity)
    (hy : y < s.capacity) (hxy : root x ≠ root y) :
    cell s.cardinalities (root x) + cell s.cardinalities (root y) ≤ s.capacity ∧
    (cell s.cardinalities (root x) + cell s.cardinalities (root y) = s.capacity →
      ∀ i < s.capacity, root i = root x ∨ root i = root y) := by
  rw [h.card_eq _ (h.root_lt x hx) (h.root_fix x hx), h.card_eq _ (h.root_lt y hy) (h.root_fix y hy),
    ← Finset.card_union_of_disjoint]
  · have hsub : (Finset.range s.capacity).filter (fun i => root i = root x) ∪
        (Finset.range s.capacity).filter (fun i => root i = root y) ⊆ Finset.range s.capacity := by
      intro i hi
      simp only [Finset.mem_union, Finset.mem_filter] at hi
      rcases hi with hi | hi <;> exact hi.1
    refine ⟨by simpa using Finset.card_le_card hsub, ?_⟩
    intro heq i hi
    have := Finset.eq_of_subset_of_card_le hsub (by simp [heq])
    have hi' : i ∈ Finset.range s.capacity := Finset.mem_range.2 hi
    rw [← this] at hi'
    simp only [Finset.mem_union, Finset.mem_filter] at hi'
    rcases hi' with hi' | hi'
    · exact .inl hi'.2
    · exact .inr hi'.2
  · rw [Finset.disjoint_left]
    intro i hi hi'
    simp only [Finset.mem_filter] at hi hi'
    exact hxy (hi.2.symm.trans hi'.2)

theorem Inv.clear (h : Inv s pairs root depth) : Inv s.clear [] id (fun _ => 0) :=
  inv_fresh _ rfl rfl rfl rfl h.fits h.cellMax_pos

theorem Inv.ncard (h : Inv s pairs root depth) {x : Nat} (hx : x < s.capacity) :
    Set.ncard {y | y < s.capacity ∧ Linked pairs x y} = cell s.cardinalities (root x) := by
  rw [h.card_eq _ (h.root_lt x hx) (h.root_fix x hx)]
  rw [← Set.ncard_coe_finset]
  congr 1
  ext y
  simp only [Set.mem_ofPred_eq, Finset.coe_filter, Finset.mem_range]
  refine and_congr_right fun hy => ?_
  rw [← h.conn x hx y hy]
  exact eq_comm

theorem Inv.classes (h : Inv s pairs root depth) :
    s.count = Nat.card (Quotient (linkedSetoid s.capacity pairs)) := by
  rw [h.count_eq]
  let F := (Finset.range s.capacity).filter (fun i => cell s.parents i = i)
  have e : Quotient (linkedSetoid s.capacity pairs) ≃ {i // i ∈ F} := by
    refine Equiv.ofBijective (Quotient.lift (fun i : Fin s.capacity => (⟨root i.1, ?_⟩ : {i // i ∈ F})) ?_) ⟨?_, ?_⟩
    · simp [F, h.root_lt i.1 i.2, h.root_fix i.1 i.2]
    · intro i j hij
      exact Subtype.ext ((h.conn i.1 i.2 j.1 j.2).2 hij)
    · intro q q'
      induction q using Quotient.inductionOn with | _ i => ?_
      induction q' using Quotient.inductionOn with | _ j => ?_
      intro he
      simp only [Quotient.lift_mk, Subtype.mk.injEq] at he
      exact Quotient.sound ((h.conn i.1 i.2 j.1 j.2).1 he)
    · rintro ⟨r, hr⟩
      simp only [F, Finset.mem_filter, Finset.mem_range] at hr
      exact ⟨Quotient.mk _ ⟨r, hr.1⟩, Subtype.ext (h.root_self r hr.1 hr.2)⟩
  rw [Nat.card_congr e, Nat.card_eq_fintype_card, Fintype.card_coe]

theorem areInSameSet_eq (h : Inv s pairs root depth) {x y : Nat} (hx : x < s.capacity)
    (hy : y < s.capacity) : s.areInSameSet x y = .ok (decide (root x = root y)) := by
  rw [areInSameSet, h.find hx, h.find hy]

theorem cardinality_eq (h : Inv s pairs root depth) {x : Nat} (hx : x < s.capacity) :
    s.cardinality x = .ok (cell s.cardinalities (root x)) := by
  rw [cardinality, h.find hx]
  exact arrGet_eq (h.lenC.symm ▸ h.root_lt x hx)

/-- One call on a state satisfying the invariant. -/
theorem Inv.step (h : Inv s pairs root depth) (op : UFOp Nat)
    (hop : ∀ x ∈ op.items, x < s.capacity) :
    (∃ s' out root' depth', s.step op = (s', .ok out) ∧ UFExpected s.capacity pairs op out ∧
      Inv s' (op.next pairs) root' depth' ∧ s'.capacity = s.capacity ∧ s'.cellMax = s.cellMax) ∨
    ((s.step op).2 = .error .overflowError ∧ s.capacity = s.cellMax + 1 ∧
      ∀ x < s.capacity, ∀ y < s.capacity, Linked (op.next pairs) x y) := by
  cases op with
  | union x y =>
    have hx : x < s.capacity := hop x (by simp [UFOp.items])
    have hy : y < s.capacity := hop y (by simp [UFOp.items])
    by_cases hxy : root x = root y
    · obtain ⟨h1, h2⟩ := h.union_same hx hy hxy
      refine .inl ⟨s, .bool false, root, depth, ?_, ?_, h2, rfl, rfl⟩
      · simp [UnionFind.step, h1, Except.map]
      · simp only [UFExpected]; rw [← h.conn x hx y hy]; simp [hxy]
    · by_cases hfit : cell s.cardinalities (root x) + cell s.cardinalities (root y) ≤ s.cellMax
      · obtain ⟨s', root', depth', h1, h2, h3, h4⟩ := h.union_diff hx hy hxy hfit
        refine .inl ⟨s', .bool true, root', depth', ?_, ?_, h2, h3, h4⟩
        · simp [UnionFind.step, h1, Except.map]
        · simp only [UFExpected]; rw [← h.conn x hx y hy]; simp [hxy]
      · have hov := h.union_overflow hx hy hxy (by omega)
        obtain ⟨hs1, hs2⟩ := h.sum_le hx hy hxy
        have hfits := h.fits
        refine .inr ⟨by simp [UnionFind.step, hov, Except.map], by omega, ?_⟩
        have hall := hs2 (by omega)
        intro i hi j hj
        show Linked ((x, y) :: pairs) i j
        rw [linked_cons, ← h.conn i hi j hj, ← h.conn i hi x hx, ← h.conn y hy j hj,
          ← h.conn i hi y hy, ← h.conn x hx j hj]
        rcases hall i hi with e | e <;> rcases hall j hj with e' | e' <;> rw [e, e'] <;> simp
  | find x =>
    have hx : x < s.capacity := hop x (by simp [UFOp.items])
    refine .inl ⟨s, .nat (root x), root, depth, ?_, ⟨h.root_lt x hx, ?_⟩, h, rfl, rfl⟩
    · simp [UnionFind.step, h.find hx, Except.map]
    · rw [← h.conn x hx _ (h.root_lt x hx)]; exact (h.root_idem hx).symm
  | same x y =>
    have hx : x < s.capacity := hop x (by simp [UFOp.items])
    have hy : y < s.capacity := hop y (by simp [UFOp.items])
    refine .inl ⟨s, .bool (decide (root x = root y)), root, depth, ?_, ?_, h, rfl, rfl⟩
    · simp [UnionFind.step, areInSameSet_eq h hx hy, Except.map]
    · simp only [UFExpected]; rw [← h.conn x hx y hy]; simp
  | card x =>
    have hx : x < s.capacity := hop x (by simp [UFOp.items])
    refine .inl ⟨s, .nat (cell s.cardinalities (root x)), root, depth, ?_, ?_, h, rfl, rfl⟩
    · simp [UnionFind.step, cardinality_eq h hx, Except.map]
    · exact (h.ncard hx).symm
  | len =>
    exact .inl ⟨s, .int s.count, root, depth, rfl, h.classes, h, rfl, rfl⟩
  | clear =>
    exact .inl ⟨s.clear, .unit, id, fun _ => 0, rfl, trivial, h.clear, rfl, rfl⟩

/-- A call mentioning an out-of-range item raises `IndexError`. -/
theorem Inv.step_oob (h : Inv s pairs root depth) (op : UFOp Nat)
    (hop : ¬ ∀ x ∈ op.items, x < s.capacity) : (s.step op).2 = .error .indexError := by
  cases op with
  | union x y =>
    simp only [UFOp.items, List.mem_cons, List.not_mem_nil, or_false, forall_eq_or_imp, forall_eq] at hop
    by_cases hx : x < s.capacity
    · have hy : s.capacity ≤ y := by omega
      simp [UnionFind.step, UnionFind.union, h.find hx, find_oob h.lenP hy, Except.map]
    · simp [UnionFind.step, UnionFind.union, find_oob h.lenP (Nat.le_of_not_lt hx), Except.map]
  | find x =>
    simp only [UFOp.items, List.mem_cons, List.not_mem_nil, or_false, forall_eq] at hop
    simp [UnionFind.step, find_oob h.lenP (Nat.le_of_not_lt hop), Except.map]
  | same x y =>
    simp only [UFOp.items, List.mem_cons, List.not_mem_nil, or_false, forall_eq_or_imp, forall_eq] at hop
    by_cases hx : x < s.capacity
    · have hy : s.capacity ≤ y := by omega
      simp [UnionFind.step, areInSameSet, h.find hx, find_oob h.lenP hy, Except.map]
    · simp [UnionFind.step, areInSameSet, find_oob h.lenP (Nat.le_of_not_lt hx), Except.map]
  | card x =>
    simp only [UFOp.items, List.mem_cons, List.not_mem_nil, or_false, forall_eq] at hop
    simp [UnionFind.step, cardinality, find_oob h.lenP (Nat.le_of_not_lt hop), Except.map]
  | len => simp [UFOp.items] at hop
  | clear => simp [UFOp.items] at hop

/-- On a state satisfying the invariant not everything is linked if the cells are one short. -/
theorem Inv.not_full (h : Inv s pairs root depth) (hc : s.capacity = s.cellMax + 1) :
    ¬ ∀ x < s.capacity, ∀ y < s.capacity, Linked pairs x y := by
  intro hall
  have h0 : 0 < s.capacity := by omega
  have hr := h.root_lt 0 h0
  have hle := h.cards_le _ hr
  rw [h.card_eq _ hr (h.root_fix 0 h0), Finset.filter_true_of_mem] at hle
  · simp at hle; omega
  · intro i hi
    exact (h.conn i (Finset.mem_range.1 hi) 0 h0).2 (hall _ (Finset.mem_range.1 hi) _ h0)

/-- Histories. -/
theorem Inv.run_ok (h : Inv s pairs root depth) (ops : List (UFOp Nat)) {s' : UnionFind}
    {outs : List UFOut} (hrun : s.run ops = .ok (s', outs)) :
    UFConforms s.capacity pairs ops outs ∧
      ∃ root' depth', Inv s' (ops.foldl UFOp.next pairs) root' depth' ∧ s'.capacity = s.capacity ∧
        s'.cellMax = s.cellMax := by
  induction ops generalizing s pairs root depth outs with
  | nil =>
    simp only [UnionFind.run, Except.ok.injEq, Prod.mk.injEq] at hrun
    obtain ⟨rfl, rfl⟩ := hrun
    exact ⟨trivial, root, depth, h, rfl, rfl⟩
  | cons op ops ih =>
    by_cases hop : ∀ x ∈ op.items, x < s.capacity
    · rcases h.step op hop with ⟨s1, out, root1, depth1, h1, h2, h3, h4, h5⟩ | ⟨he, _, _⟩
      · rw [UnionFind.run, h1] at hrun
        simp only at hrun
        rcases hr : s1.run ops with e | ⟨s2, outs2⟩
        · rw [hr] at hrun; simp at hrun
        · rw [hr] at hrun
          simp only [Except.ok.injEq, Prod.mk.injEq] at hrun
          obtain ⟨rfl, rfl⟩ := hrun
          obtain ⟨hc, root', depth', hi, e1, e2⟩ := ih h3 hr
          rw [h4] at hc
          exact ⟨⟨h2, hc⟩, root', depth', hi, e1.trans h4, e2.trans h5⟩
      · rw [UnionFind.run] at hrun
        rcases hst : s.step op with ⟨s1, r⟩
        rw [hst] at he hrun
        simp only at he
        subst he
        simp at hrun
    · have he := h.step_oob op hop
      rw [UnionFind.run] at hrun
      rcases hst : s.step op with ⟨s1, r⟩
      rw [hst] at he hrun
      simp only at he
      subst he
      simp at hrun

/-- In-range histories either run to completion or stop with an overflow when everything gets
linked and the cells are one short. -/
theorem Inv.run_range (h : Inv s pairs root depth) (ops : List (UFOp Nat))
    (hops : ∀ op ∈ ops, ∀ x ∈ op.items, x < s.capacity) :
    ((∃ s' outs, s.run ops = .ok (s', outs)) ∧
      (s.capacity = s.cellMax + 1 → ∀ pre op suf, ops = pre ++ op :: suf →
        ¬ ∀ x < s.capacity, ∀ y < s.capacity, Linked ((pre ++ [op]).foldl UFOp.next pairs) x y)) ∨
    (s.run ops = .error .overflowError ∧ s.capacity = s.cellMax + 1 ∧
      ∃ pre op suf, ops = pre ++ op :: suf ∧
        ∀ x < s.capacity, ∀ y < s.capacity, Linked ((pre ++ [op]).foldl UFOp.next pairs) x y) := by
  induction ops generalizing s pairs root depth with
  | nil =>
    refine .inl ⟨⟨s, [], rfl⟩, ?_⟩
    intro _ pre op suf he
    simp at he
  | cons op ops ih =>
    rcases h.step op (hops op (by simp)) with ⟨s1, out, root1, depth1, h1, h2, h3, h4, h5⟩ | ⟨he, hc, hl⟩
    · rcases ih h3 (fun o ho x hx => by rw [h4]; exact hops o (by simp [ho]) x hx) with
        ⟨⟨s2, outs, hr⟩, hnf⟩ | ⟨hr, hc, pre, op', suf, he, hl⟩
      · refine .inl ⟨⟨s2, out :: outs, ?_⟩, ?_⟩
        · rw [UnionFind.run, h1]; simp only; rw [hr]
        · intro hc pre op' suf he
          cases pre with
          | nil =>
            simp only [List.nil_append, List.cons.injEq] at he
            obtain ⟨rfl, rfl⟩ := he
            have := h3.not_full (by omega)
            rw [h4] at this
            exact this
          | cons p pre =>
            simp only [List.cons_append, List.cons.injEq] at he
            obtain ⟨rfl, he⟩ := he
            have := hnf (by omega) pre op' suf he
            rw [h4] at this
            exact this
      · refine .inr ⟨?_, by omega, op :: pre, op', suf, by simp [he], ?_⟩
        · rw [UnionFind.run, h1]; simp only; rw [hr]
        · rw [h4] at hl; exact hl
    · refine .inr ⟨?_, hc, [], op, ops, rfl, hl⟩
      rw [UnionFind.run]
      rcases hst : s.step op with ⟨s1, r⟩
      rw [hst] at he
      simp only at he
      subst he
      rfl

/-! ### Allocation -/

theorem uintRep_cases (m : Int) :
    (m ≤ 2^8 - 1 ∧ uintRepresentationForMax m = .ok ⟨2^8 - 1, .B⟩) ∨
    (2^8 ≤ m ∧ m ≤ 2^16 - 1 ∧ uintRepresentationForMax m = .ok ⟨2^16 - 1, .H⟩) ∨
    (2^16 ≤ m ∧ m ≤ 2^32 - 1 ∧ uintRepresentationForMax m = .ok ⟨2^32 - 1, .L⟩) ∨
    (2^32 ≤ m ∧ m ≤ 2^64 - 1 ∧ uintRepresentationForMax m = .ok ⟨2^64 - 1, .Q⟩) ∨
    (2^64 ≤ m ∧ uintRepresentationForMax m = .error (.typeError "capacity is over 64 bits")) := by
  unfold uintRepresentationForMax uintRepresentations
  simp only [List.find?]
  by_cases h1 : m ≤ 255
  · left; exact ⟨h1, by simp [h1]⟩
  by_cases h2 : m ≤ 65535
  · right; left; exact ⟨by omega, h2, by simp [h1, h2]⟩
  by_cases h3 : m ≤ 4294967295
  · right; right; left; exact ⟨by omega, h3, by simp [h1, h2, h3]⟩
  by_cases h4 : m ≤ 18446744073709551615
  · right; right; right; left; exact ⟨by omega, h4, by simp [h1, h2, h3, h4]⟩
  · right; right; right; right; exact ⟨by omega, by simp [h1, h2, h3, h4]⟩

/-- The structure allocated for a capacity satisfies the invariant. -/
theorem init_inv {ulongMax cap : Nat} (hu : 2^32 - 1 ≤ ulongMax) {s : UnionFind}
    (h : init ulongMax cap = .ok s) :
    Inv s [] id (fun _ => 0) ∧ s.capacity = cap ∧
      (cap = s.cellMax + 1 →
        cap = 2^8 ∨ cap = 2^16 ∨ (cap = 2^32 ∧ ulongMax = 2^32 - 1) ∨ cap = 2^64) := by
  unfold init uintRepresentationForCapacity at h
  rcases uintRep_cases ((cap : Int) - 1) with ⟨h1, h2⟩ | ⟨h0, h1, h2⟩ | ⟨h0, h1, h2⟩ | ⟨h0, h1, h2⟩ | ⟨h1, h2⟩ <;>
    rw [h2] at h <;> simp only [Except.ok.injEq, reduceCtorEq] at h <;> subst h <;>
    refine ⟨inv_fresh _ rfl rfl rfl rfl ?_ ?_, rfl, ?_⟩ <;> simp [TypeCode.cellMax] <;> omega

end UnionFind
end Pelote
