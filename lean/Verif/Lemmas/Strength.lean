import Verif.Lemmas.View
import Verif.Lemmas.Components
import Verif.Props.Utils
import Mathlib.Order.Basic

/-! Lemmas about triangular strength. -/
namespace Pelote

/-- Python's `>` on node keys is the given order. -/
def OrderedKeys (V : Type) [LinearOrder V] [PyOrd V] : Prop :=
  ∀ a b : V, PyOrd.gt a b = .ok (decide (b < a))

variable {V A : Type} [LinearOrder V]

/-- A pair with the smaller member first. -/
def ordPair (u v : V) : V × V := if v < u then (v, u) else (u, v)

theorem ordPair_eq {u v x y : V} :
    ordPair u v = (x, y) ↔ x ≤ y ∧ ((u = x ∧ v = y) ∨ (u = y ∧ v = x)) := by
  unfold ordPair
  split
  · rename_i h
    simp only [Prod.mk.injEq]
    constructor
    · rintro ⟨rfl, rfl⟩; exact ⟨h.le, .inr ⟨rfl, rfl⟩⟩
    · rintro ⟨hle, ⟨rfl, rfl⟩ | ⟨rfl, rfl⟩⟩
      · exact absurd h (not_lt.2 hle)
      · exact ⟨rfl, rfl⟩
  · rename_i h
    simp only [Prod.mk.injEq]
    constructor
    · rintro ⟨rfl, rfl⟩; exact ⟨not_lt.1 h, .inl ⟨rfl, rfl⟩⟩
    · rintro ⟨hle, ⟨rfl, rfl⟩ | ⟨rfl, rfl⟩⟩
      · exact ⟨rfl, rfl⟩
      · have := le_antisymm hle (not_lt.1 h)
        exact ⟨this.symm, this⟩

theorem orderedByGt_eq [PyOrd V] (ho : OrderedKeys V) (u v : V) : orderedByGt u v = .ok (ordPair u v) := by
  unfold orderedByGt ordPair
  rw [ho u v]
  by_cases h : v < u <;> simp [h]

theorem orderedByLt_eq [PyOrd V] (ho : OrderedKeys V) (u v : V) : orderedByLt u v = .ok (ordPair u v) := by
  unfold orderedByLt ordPair
  rw [ho v u]
  rcases lt_trichotomy u v with h | h | h
  · simp [h, not_lt.2 h.le]
  · simp [h]
  · simp [h, not_lt.2 h.le]

/-! ### Counters -/

theorem get?_counterIncr {κ : Type} [DecidableEq κ] [BEq κ] [LawfulBEq κ] (ks : List κ) (d : Dict κ Nat) (k : κ) :
    (ks.foldl counterIncr d).get? k =
      if k ∈ ks then some ((d.get? k).getD 0 + ks.count k) else d.get? k := by
  induction ks generalizing d with
  | nil => simp
  | cons a ks ih =>
    rw [List.foldl_cons, ih]
    unfold counterIncr
    rw [Dict.get?_set]
    by_cases h1 : a = k
    · subst h1
      by_cases h2 : a ∈ ks
      · simp [h2, Nat.add_assoc, Nat.add_comm]
      · simp [h2, List.count_eq_zero_of_not_mem h2]
    · have h3 : ¬ k = a := fun e => h1 e.symm
      simp [h1, h3]

theorem nodup_counterIncr {κ : Type} [DecidableEq κ] (ks : List κ) (d : Dict κ Nat) (h : d.keys.Nodup) :
    (ks.foldl counterIncr d).keys.Nodup := by
  induction ks generalizing d with
  | nil => exact h
  | cons a ks ih => exact ih _ (Dict.nodup_set _ _ h)

/-- The three pairs of a triple. -/
def pairs3 (t : V × V × V) : List (V × V) := [ordPair t.1 t.2.1, ordPair t.1 t.2.2, ordPair t.2.1 t.2.2]

theorem countTriangles_eq [PyOrd V] (ho : OrderedKeys V) (ts : List (V × V × V)) (d : Dict (V × V) Nat) :
    countTriangles ts d = .ok ((ts.flatMap pairs3).foldl counterIncr d) := by
  induction ts generalizing d with
  | nil => rfl
  | cons t ts ih =>
    obtain ⟨u, v, w⟩ := t
    simp only [countTriangles, orderedByLt_eq ho, ih, List.flatMap_cons, List.foldl_append, pairs3,
      List.foldl_cons, List.foldl_nil]

theorem zeroStrengths_eq [PyOrd V] (ho : OrderedKeys V) (es : List (V × V)) (d : Dict (V × V) Nat)
    (hd : d.keys.Nodup) :
    ∃ d', zeroStrengths es d = .ok d' ∧ d'.keys.Nodup ∧
      ∀ k, d'.get? k = if k ∈ es.map (fun e => ordPair e.1 e.2) then some 0 else d.get? k := by
  induction es generalizing d with
  | nil => exact ⟨d, rfl, hd, by simp⟩
  | cons e es ih =>
    obtain ⟨u, v⟩ := e
    obtain ⟨d', h1, h2, h3⟩ := ih (d.set (ordPair u v) 0) (Dict.nodup_set _ _ hd)
    refine ⟨d', ?_, h2, ?_⟩
    · simp only [zeroStrengths, orderedByGt_eq ho, h1]
    · intro k
      rw [h3, Dict.get?_set]
      by_cases e1 : k ∈ es.map (fun e => ordPair e.1 e.2)
      · simp [e1]
      · by_cases e2 : ordPair u v = k
        · simp [e2]
        · have e3 : ¬ k = ordPair u v := fun e => e2 e.symm
          simp only [e1, e2, if_false, List.map_cons, List.mem_cons, e3, or_self]

theorem count_pairs3 {t : V × V × V} (h1 : t.1 ≠ t.2.1) (h2 : t.1 ≠ t.2.2) (h3 : t.2.1 ≠ t.2.2) (x y : V) :
    (pairs3 t).count (x, y) = if x < y ∧ x ∈ tripleSet t ∧ y ∈ tripleSet t then 1 else 0 := by
  obtain ⟨a, b, c⟩ := t
  simp only at h1 h2 h3
  unfold pairs3 tripleSet
  simp only [List.count_cons, List.count_nil, beq_iff_eq, ordPair_eq, Finset.mem_insert,
    Finset.mem_singleton]
  rcases lt_trichotomy x y with h | h | h
  · have hne := h.ne
    have hle := h.le
    simp only [h, hle, true_and]
    by_cases ax : a = x
    · subst ax
      by_cases by' : b = y
      · subst by'; simp [h1, h3, Ne.symm h1, Ne.symm h2, Ne.symm h3]
      · by_cases cy : c = y
        · subst cy; simp [h1, h2, h3, Ne.symm h1, Ne.symm h2]
        · simp [by', cy, hne, hne.symm, Ne.symm h1, Ne.symm h2, Ne.symm (a := b) by', Ne.symm (a := c) cy]
    · by_cases ay : a = y
      · subst ay
        by_cases bx : b = x
        · subst bx; simp [h1, h2, h3, Ne.symm h2, Ne.symm h3]
        · by_cases cx : c = x
          · subst cx; simp [h1, h2, h3, Ne.symm h1]
          · simp [ax, bx, cx, Ne.symm ax, Ne.symm bx, Ne.symm cx, h1, h2]
      · simp only [ax, ay, Ne.symm ax, Ne.symm ay, false_and, false_or, or_self, if_false, zero_add,
          add_zero]
        by_cases bx : b = x
        · subst bx
          by_cases cy : c = y
          · subst cy; simp
          · simp [cy, hne, hne.symm, Ne.symm cy, Ne.symm (a := b) h3]
        · by_cases cx : c = x
          · subst cx
            by_cases by' : b = y
            · subst by'; simp [hne, hne.symm]
            · simp [by', Ne.symm by', hne, hne.symm, bx]
          · simp [bx, cx, Ne.symm bx, Ne.symm cx]
  · subst h
    have key : ∀ u v : V, u ≠ v → ¬ (x ≤ x ∧ (u = x ∧ v = x ∨ u = x ∧ v = x)) := by
      rintro u v huv ⟨_, ⟨rfl, rfl⟩ | ⟨rfl, rfl⟩⟩ <;> exact huv rfl
    rw [if_neg (key a b h1), if_neg (key a c h2), if_neg (key b c h3), if_neg (fun h => lt_irrefl x h.1)]
  · have h' : ¬ x ≤ y := not_le.2 h
    have h'' : ¬ x < y := fun h2 => h' h2.le
    simp [h', h'']

theorem count_flatMap_pairs3 (ts : List (V × V × V))
    (hd : ∀ t ∈ ts, t.1 ≠ t.2.1 ∧ t.1 ≠ t.2.2 ∧ t.2.1 ≠ t.2.2) (x y : V) :
    (ts.flatMap pairs3).count (x, y) =
      if x < y then (ts.map tripleSet).countP (fun s => decide (x ∈ s ∧ y ∈ s)) else 0 := by
  induction ts with
  | nil => simp
  | cons t ts ih =>
    obtain ⟨h1, h2, h3⟩ := hd t (by simp)
    rw [List.flatMap_cons, List.count_append, ih (fun t ht => hd t (by simp [ht])), count_pairs3 h1 h2 h3,
      List.map_cons, List.countP_cons]
    by_cases hxy : x < y
    · by_cases hm : x ∈ tripleSet t ∧ y ∈ tripleSet t
      · simp [hxy, hm, Nat.add_comm]
      · simp [hxy, hm]
    · simp [hxy]

theorem Graph.strength_eq {g : Graph V A} (h : g.WF) {x y : V} (hne : x ≠ y) :
    ((triangles g).yields.map tripleSet).countP (fun s => decide (x ∈ s ∧ y ∈ s)) = g.strength x y := by
  obtain ⟨_, h2, h3⟩ := trianglesOf_spec (undirectedView_spec h)
  unfold triangles
  rw [List.countP_eq_length_filter, ← List.toFinset_card_of_nodup (h2.filter _), ← Set.ncard_coe_finset]
  unfold Graph.strength
  congr 1
  ext s
  simp only [Finset.mem_coe, List.mem_toFinset, List.mem_filter, decide_eq_true_eq, Set.mem_ofPred_eq]
  exact and_congr (h3 s) ⟨fun h => ⟨hne, h⟩, fun h => h.2⟩

theorem Graph.strength_self (g : Graph V A) (x : V) : g.strength x x = 0 := by
  unfold Graph.strength
  simp

theorem Graph.mem_edges_adjacent {g : Graph V A} (h : g.WF) {x y : V} :
    (x, y) ∈ g.edges.map (fun e => ordPair e.1 e.2) ↔ x ≤ y ∧ g.Adjacent x y := by
  simp only [List.mem_map, Prod.exists, ordPair_eq]
  have key : ∀ {u v : V}, (u, v) ∈ g.edges → g.hasEdge u v = true := fun he =>
    (hasEdge_listed h).2 (.inl he)
  constructor
  · rintro ⟨u, v, he, hle, ⟨rfl, rfl⟩ | ⟨rfl, rfl⟩⟩
    · exact ⟨hle, .inl (key he)⟩
    · exact ⟨hle, .inr (key he)⟩
  · rintro ⟨hle, he | he⟩ <;> rcases (hasEdge_listed h).1 he with h1 | ⟨_, h1⟩
    · exact ⟨_, _, h1, hle, .inl ⟨rfl, rfl⟩⟩
    · exact ⟨_, _, h1, hle, .inr ⟨rfl, rfl⟩⟩
    · exact ⟨_, _, h1, hle, .inr ⟨rfl, rfl⟩⟩
    · exact ⟨_, _, h1, hle, .inl ⟨rfl, rfl⟩⟩

theorem strength_common {g : Graph V A} {u v : V} (hne : u ≠ v) (ha : g.Adjacent u v) (C : Finset V)
    (hC : ∀ w, w ∈ C ↔ (w ≠ u ∧ g.Adjacent u w) ∧ w ≠ v ∧ g.Adjacent v w) : g.strength u v = C.card := by
  unfold Graph.strength
  have himg : {s : Finset V | g.IsTriangle s ∧ u ≠ v ∧ u ∈ s ∧ v ∈ s} =
      (fun w => ({u, v, w} : Finset V)) '' (C : Set V) := by
    ext s
    simp only [Set.mem_ofPred_eq, Set.mem_image, Finset.mem_coe]
    constructor
    · rintro ⟨⟨a, b, c, hab, hbc, hac, k1, k2, k3, rfl⟩, _, hu, hv⟩
      simp only [Finset.mem_insert, Finset.mem_singleton] at hu hv
      have k1' := Graph.adjacent_comm.1 k1
      have k2' := Graph.adjacent_comm.1 k2
      have k3' := Graph.adjacent_comm.1 k3
      rcases hu with rfl | rfl | rfl <;> rcases hv with rfl | rfl | rfl
      · exact absurd rfl hne
      · exact ⟨c, (hC c).2 ⟨⟨hac.symm, k3⟩, hbc.symm, k2⟩, rfl⟩
      · exact ⟨b, (hC b).2 ⟨⟨hab.symm, k1⟩, hbc, k2'⟩, by rw [Finset.pair_comm]⟩
      · exact ⟨c, (hC c).2 ⟨⟨hbc.symm, k2⟩, hac.symm, k3⟩, by rw [Finset.insert_comm]⟩
      · exact absurd rfl hne
      · exact ⟨a, (hC a).2 ⟨⟨hab, k1'⟩, hac, k3'⟩, by ext; simp; tauto⟩
      · exact ⟨b, (hC b).2 ⟨⟨hbc, k2'⟩, hab.symm, k1⟩, by ext; simp; tauto⟩
      · exact ⟨a, (hC a).2 ⟨⟨hac, k3'⟩, hab, k1'⟩, by ext; simp; tauto⟩
      · exact absurd rfl hne
    · rintro ⟨w, hw, rfl⟩
      obtain ⟨⟨h1, h2⟩, h3, h4⟩ := (hC w).1 hw
      exact ⟨⟨u, v, w, hne, h3.symm, h1.symm, ha, h4, h2, rfl⟩, hne, by simp, by simp⟩
  rw [himg, Set.InjOn.ncard_image, Set.ncard_coe_finset]
  intro x hx y hy e
  obtain ⟨⟨h1, _⟩, h3, _⟩ := (hC x).1 hx
  have : x ∈ ({u, v, x} : Finset V) := by simp
  simp only at e
  rw [e] at this
  simp only [Finset.mem_insert, Finset.mem_singleton] at this
  exact (this.resolve_left h1).resolve_left h3

/-! ### The naive version -/

theorem mem_viewEdges {w : View V} {E : V → V → Prop} (h : ViewOf w E) (pre ns : List V)
    (hns : w.nodes = pre.reverse ++ ns) (hnd : w.nodes.Nodup) (x y : V) :
    (x, y) ∈ w.edgesFrom pre ns ∨ (y, x) ∈ w.edgesFrom pre ns ↔ E x y ∧ x ∉ pre ∧ y ∉ pre := by
  induction ns generalizing pre with
  | nil =>
    simp only [View.edgesFrom, List.not_mem_nil, or_self, false_iff]
    rintro ⟨he, hx, _⟩
    have := h.node x y he
    rw [hns] at this
    simp at this
    exact hx this
  | cons n ns ih =>
    have hn : n ∉ pre := by
      rw [hns, List.nodup_append] at hnd
      intro hp
      exact hnd.2.2 n (by simp [hp]) n (by simp) rfl
    have := ih (n :: pre) (by simp [hns])
    simp only [View.edgesFrom, List.mem_append, List.mem_map, List.mem_filter, Bool.not_eq_true',
      decide_eq_false_iff_not, h.mem, Prod.mk.injEq]
    constructor
    · rintro ((⟨m, ⟨he, hm⟩, rfl, rfl⟩ | hr) | (⟨m, ⟨he, hm⟩, rfl, rfl⟩ | hr))
      · exact ⟨he, hn, hm⟩
      · obtain ⟨he, h1, h2⟩ := this.1 (.inl hr)
        simp only [List.mem_cons, not_or] at h1 h2
        exact ⟨he, h1.2, h2.2⟩
      · exact ⟨h.symm _ _ he, hm, hn⟩
      · obtain ⟨he, h1, h2⟩ := this.1 (.inr hr)
        simp only [List.mem_cons, not_or] at h1 h2
        exact ⟨he, h1.2, h2.2⟩
    · rintro ⟨he, hx, hy⟩
      by_cases ex : x = n
      · exact .inl (.inl ⟨y, ⟨ex ▸ he, hy⟩, ex.symm, rfl⟩)
      by_cases ey : y = n
      · exact .inr (.inl ⟨x, ⟨ey ▸ h.symm _ _ he, hx⟩, ey.symm, rfl⟩)
      rcases this.2 ⟨he, by simp [ex, hx], by simp [ey, hy]⟩ with h1 | h1
      · exact .inl (.inr h1)
      · exact .inr (.inr h1)

/-- The neighbors of a node other than itself. -/
def View.others (w : View V) (n : V) : List V := (w.neighbors n).filter (fun m => !decide (n = m))

theorem get?_neighborhoods (w : View V) (hn : ∀ n, (w.neighbors n).Nodup) (ns : List V)
    (d : Dict V (List V)) (x : V) :
    (ns.foldl (fun d n =>
      let neighborhood := ((w.neighbors n).filter (fun m => !decide (n = m))).dedup
      if neighborhood.length > 1 then d.set n neighborhood else d) d).get? x =
      if x ∈ ns ∧ 1 < (w.others x).length then some (w.others x) else d.get? x := by
  have hde : ∀ n, ((w.neighbors n).filter (fun m => !decide (n = m))).dedup = w.others n := fun n =>
    List.Nodup.dedup ((hn n).filter _)
  simp only [hde]
  induction ns generalizing d with
  | nil => simp
  | cons n ns ih =>
    rw [List.foldl_cons, ih]
    by_cases h1 : 1 < (w.others n).length
    · simp only [gt_iff_lt, h1, if_true, Dict.get?_set]
      by_cases e : n = x
      · subst e; simp [h1]
      · have e' : ¬ x = n := fun h => e h.symm
        simp [e, e']
    · simp only [gt_iff_lt, h1, if_false]
      by_cases e : n = x
      · subst e; simp [h1]
      · have e' : ¬ x = n := fun h => e h.symm
        simp [e']

/-- What the naive loop assigns to a key. -/
def naiveValue (full : Bool) (nbh : Dict V (List V)) (k : V × V) : Option Nat :=
  match nbh.get? k.1, nbh.get? k.2 with
  | some n1, some n2 => some (fastIntersectionSize (decide (k.1 = k.2)) n1 n2)
  | _, _ => if full then some 0 else none

theorem naiveLoop_eq [PyOrd V] (ho : OrderedKeys V) (full : Bool) (nbh : Dict V (List V))
    (es : List (V × V)) (d : Dict (V × V) Nat) (hd : d.keys.Nodup) :
    ∃ d', naiveLoop full nbh es d = .ok d' ∧ d'.keys.Nodup ∧
      ∀ k, d'.get? k = if k ∈ es.map (fun e => ordPair e.1 e.2) ∧ (naiveValue full nbh k).isSome
        then naiveValue full nbh k else d.get? k := by
  induction es generalizing d with
  | nil => exact ⟨d, rfl, hd, by simp⟩
  | cons e es ih =>
    obtain ⟨u, v⟩ := e
    have step : naiveLoop full nbh ((u, v) :: es) d = naiveLoop full nbh es
        (match naiveValue full nbh (ordPair u v) with
          | some n => d.set (ordPair u v) n
          | none => d) := by
      rw [naiveLoop, orderedByGt_eq ho]
      unfold naiveValue
      simp only
      cases h1 : nbh.get? (ordPair u v).1 <;> cases h2 : nbh.get? (ordPair u v).2 <;>
        cases full <;> rfl
    obtain ⟨d', h1, h2, h3⟩ := ih (match naiveValue full nbh (ordPair u v) with
          | some n => d.set (ordPair u v) n
          | none => d) (by split; exacts [Dict.nodup_set _ _ hd, hd])
    refine ⟨d', step.trans h1, h2, ?_⟩
    intro k
    rw [h3]
    by_cases e1 : k ∈ es.map (fun e => ordPair e.1 e.2)
    · by_cases e2 : (naiveValue full nbh k).isSome = true
      · simp only [e1, e2, List.map_cons, List.mem_cons, or_true, and_self, if_true]
      · simp only [e1, e2, and_false, if_false, List.map_cons, List.mem_cons, or_true, Bool.false_eq_true]
        cases hv : naiveValue full nbh (ordPair u v) with
        | none => rfl
        | some n =>
          simp only
          rw [Dict.get?_set_ne]
          rintro rfl
          rw [hv] at e2
          simp at e2
    · by_cases e3 : k = ordPair u v
      · subst e3
        cases hv : naiveValue full nbh (ordPair u v) with
        | none => simp [e1]
        | some n => simp [e1]
      · simp only [e1, false_and, if_false, List.map_cons, List.mem_cons, e3, or_self]
        cases hv : naiveValue full nbh (ordPair u v) with
        | none => rfl
        | some n =>
          simp only
          rw [Dict.get?_set_ne]
          exact fun e => e3 e.symm

end Pelote
