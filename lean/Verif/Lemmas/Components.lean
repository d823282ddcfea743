import Verif.Model.Components
import Verif.Spec.Components
import Verif.Lemmas.Graph
import Verif.Lemmas.GraphOps
import Verif.Lemmas.Linked
import Mathlib.Data.List.Nodup
import Mathlib.Data.List.Perm.Subperm

/-! The two traversals find the classes of the linkage relation. -/
set_option linter.unusedSectionVars false
namespace Pelote
variable {V A : Type} [DecidableEq V]
open Graph

/-- Reachability by a neighbor function. -/
abbrev Reach (nbrs : V → List V) : V → V → Prop := Relation.ReflTransGen (fun a b => b ∈ nbrs a)

theorem Reach.closed {nbrs : V → List V} {S : V → Prop} (hS : ∀ x, S x → ∀ y ∈ nbrs x, S y) {s x : V}
    (h : Reach nbrs s x) (hs : S s) : S x := by
  induction h with
  | refl => exact hs
  | tail _ hbc ih => exact hS _ ih _ hbc

/-- The neighbor function and the pairs describe the same undirected adjacency. -/
def Describes (nbrs : V → List V) (pairs : List (V × V)) : Prop :=
  ∀ x y, y ∈ nbrs x ↔ (x, y) ∈ pairs ∨ (y, x) ∈ pairs

theorem Describes.symm {nbrs : V → List V} {pairs : List (V × V)} (h : Describes nbrs pairs) {x y : V}
    (hy : y ∈ nbrs x) : x ∈ nbrs y := (h y x).2 ((h x y).1 hy).symm

theorem Describes.reach_symm {nbrs : V → List V} {pairs : List (V × V)} (h : Describes nbrs pairs) {x y : V}
    (hr : Reach nbrs x y) : Reach nbrs y x := by
  induction hr with
  | refl => exact .refl
  | tail _ hbc ih => exact .head (h.symm hbc) ih

theorem Describes.reach_iff {nbrs : V → List V} {pairs : List (V × V)} (h : Describes nbrs pairs) {x y : V} :
    Reach nbrs x y ↔ Linked pairs x y := by
  constructor
  · intro hr
    induction hr with
    | refl => exact Linked.refl _ _
    | tail _ hbc ih =>
      refine ih.trans ?_
      rcases (h _ _).1 hbc with hh | hh
      · exact Linked.of_mem hh
      · exact (Linked.of_mem hh).symm
  · intro hl
    induction hl with
    | rel a b hab => exact .single ((h a b).2 (.inl hab))
    | refl a => exact .refl
    | symm a b _ ih => exact h.reach_symm ih
    | trans a b c _ _ ih1 ih2 => exact ih1.trans ih2

/-! ### The DFS stack -/

theorem append_seen {t : Traversal V V} {n : V} (h : n ∈ t.seen) : (t.append id n none).1 = t := by
  unfold Traversal.append
  simp [h]

theorem append_unseen {t : Traversal V V} {n : V} (h : n ∉ t.seen) :
    (t.append id n none).1 = { t with seen := n :: t.seen, items := t.items ++ [n] } := by
  unfold Traversal.append
  simp [h]

/-- Append several nodes. -/
def appendAll (t : Traversal V V) (ns : List V) : Traversal V V :=
  ns.foldl (fun t n => (t.append id n none).1) t

theorem appendAll_spec (t : Traversal V V) (ns : List V) (hn : t.seen.Nodup) :
    ∃ extra, (appendAll t ns).items = t.items ++ extra ∧ (appendAll t ns).seen = extra.reverse ++ t.seen ∧
      (appendAll t ns).seen.Nodup ∧ (∀ x, x ∈ (appendAll t ns).seen ↔ x ∈ t.seen ∨ x ∈ ns) ∧
      (appendAll t ns).graph = t.graph := by
  induction ns generalizing t with
  | nil => exact ⟨[], by simp [appendAll], by simp [appendAll], hn, by simp [appendAll], rfl⟩
  | cons n ns ih =>
    have e : appendAll t (n :: ns) = appendAll (t.append id n none).1 ns := rfl
    rw [e]
    by_cases h : n ∈ t.seen
    · rw [append_seen h]
      obtain ⟨extra, h1, h2, h3, h4, h5⟩ := ih t hn
      refine ⟨extra, h1, h2, h3, ?_, h5⟩
      intro x
      rw [h4, List.mem_cons]
      constructor
      · tauto
      · rintro (hx | rfl | hx)
        · exact .inl hx
        · exact .inl h
        · exact .inr hx
    · rw [append_unseen h]
      obtain ⟨extra, h1, h2, h3, h4, h5⟩ := ih { t with seen := n :: t.seen, items := t.items ++ [n] }
        (List.nodup_cons.2 ⟨h, hn⟩)
      refine ⟨n :: extra, by simp [h1], by simp [h2], h3, ?_, h5⟩
      intro x
      rw [h4]
      simp only [List.mem_cons]
      tauto

/-- Invariant of the `while` loop started at `s` with the nodes `S0` already seen. -/
structure DrainInv (nodes : List V) (nbrs : V → List V) (S0 : List V) (s : V) (t : Traversal V V) (size : Nat) :
    Prop where
  nodup : t.seen.Nodup
  sub : ∀ x ∈ t.seen, x ∈ nodes
  old : ∀ x ∈ S0, x ∈ t.seen
  items : ∀ x ∈ t.items, x ∈ t.seen ∧ Reach nbrs s x
  closed : ∀ x ∈ t.seen, x ∉ t.items → ∀ y ∈ nbrs x, y ∈ t.seen
  reach : ∀ x ∈ t.seen, x ∈ S0 ∨ Reach nbrs s x
  start : s ∈ t.seen
  count : S0.length + size + t.items.length = t.seen.length
  graph : t.graph = nodes

theorem drainStack_ok {g : Graph V A} {filter : Option (EdgePred V A)} {nbrs : V → List V} {S0 : List V} {s : V}
    (hpush : ∀ n ∈ g.nodes, ∀ t, pushNeighbors filter n (g.edgesOf n) t = .ok (appendAll t (nbrs n)))
    (hnb : ∀ n ∈ g.nodes, ∀ m ∈ nbrs n, m ∈ g.nodes)
    (fuel : Nat) (t : Traversal V V) (size : Nat) (h : DrainInv g.nodes nbrs S0 s t size)
    (hf : g.nodes.length ≤ fuel + size) :
    ∃ size' t', drainStack g filter fuel t size = .ok (size', t') ∧ DrainInv g.nodes nbrs S0 s t' size' ∧
      t'.items = [] := by
  induction fuel generalizing t size with
  | zero =>
    have hlen : t.items.length = 0 := by
      have := (h.nodup.subperm (fun x hx => h.sub x hx)).length_le
      have := h.count
      omega
    have h0 : t.len = 0 := hlen
    refine ⟨size, t, ?_, h, List.length_eq_zero_iff.1 hlen⟩
    unfold drainStack
    rw [if_pos h0]
  | succ fuel ih =>
    by_cases h0 : t.len = 0
    · refine ⟨size, t, ?_, h, List.length_eq_zero_iff.1 h0⟩
      unfold drainStack
      rw [if_pos h0]
    · have hne : t.items ≠ [] := fun hc => h0 (by simp [Traversal.len, hc])
      obtain ⟨init, n, hin⟩ : ∃ init n, t.items = init ++ [n] :=
        ⟨_, _, (List.dropLast_append_getLast hne).symm⟩
      have hpop : t.pop = .ok ({ t with items := init }, n) := by
        unfold Traversal.pop
        rw [hin]
        simp
      obtain ⟨hnm, hnr⟩ := h.items n (by rw [hin]; simp)
      obtain ⟨extra, e1, e2, e3, e4, e5⟩ := appendAll_spec { t with items := init } (nbrs n) h.nodup
      have hI : DrainInv g.nodes nbrs S0 s (appendAll { t with items := init } (nbrs n)) (size + 1) := by
        refine ⟨e3, ?_, ?_, ?_, ?_, ?_, ?_, ?_, ?_⟩
        · intro x hx
          rcases (e4 x).1 hx with hx | hx
          · exact h.sub x hx
          · exact hnb n (h.sub n hnm) x hx
        · intro x hx
          exact (e4 x).2 (.inl (h.old x hx))
        · intro x hx
          rw [e1] at hx
          rcases List.mem_append.1 hx with hx | hx
          · have := h.items x (by rw [hin]; exact List.mem_append_left _ hx)
            exact ⟨(e4 x).2 (.inl this.1), this.2⟩
          · have hxs : x ∈ (appendAll { t with items := init } (nbrs n)).seen := by rw [e2]; simp [hx]
            refine ⟨hxs, ?_⟩
            rcases (e4 x).1 hxs with hx' | hx'
            · rw [e2] at e3
              exact absurd hx' (List.disjoint_of_nodup_append e3 (List.mem_reverse.2 hx))
            · exact hnr.tail hx'
        · intro x hx hxi y hy
          rw [e1] at hxi
          rw [e4]
          by_cases hxn : x = n
          · subst hxn; exact .inr hy
          · rw [e2] at hx
            rcases List.mem_append.1 hx with hx | hx
            · exact absurd (List.mem_append_right _ (List.mem_reverse.1 hx)) hxi
            · refine .inl (h.closed x hx ?_ y hy)
              rw [hin]
              simp only [List.mem_append, List.mem_singleton, not_or]
              exact ⟨fun hc => hxi (List.mem_append_left _ hc), hxn⟩
        · intro x hx
          rcases (e4 x).1 hx with hx | hx
          · exact h.reach x hx
          · by_cases hxs : x ∈ S0
            · exact .inl hxs
            · exact .inr (hnr.tail hx)
        · exact (e4 s).2 (.inl h.start)
        · rw [e1, e2]
          have := h.count
          rw [hin] at this
          simp only [List.length_append, List.length_cons, List.length_nil, List.length_reverse] at this ⊢
          omega
        · rw [e5]; exact h.graph
      obtain ⟨size', t', h1, h2, h3⟩ := ih _ _ hI (by omega)
      refine ⟨size', t', ?_, h2, h3⟩
      unfold drainStack
      rw [if_neg h0]
      simp only [hpop]
      rw [hpush n (h.sub n hnm)]
      exact h1

/-- The first node of a list of nodes is in the specification's list of first nodes iff it is linked to
none of the nodes before it. -/
theorem firstNodes_split {nodes pre ns : List V} (hn : nodes.Nodup) (he : nodes = pre ++ ns) (pairs : List (V × V)) :
    ∀ n ∈ ns, (∀ m ∈ nodes, nodes.idxOf m < nodes.idxOf n → ¬ Linked pairs m n) →
      ∀ m ∈ pre, ¬ Linked pairs m n := by
  intro n hns hall m hm
  have hnp : n ∉ pre := by
    intro hc
    rw [he] at hn
    exact List.disjoint_of_nodup_append hn hc hns
  refine hall m (by rw [he]; exact List.mem_append_left _ hm) ?_
  rw [he, List.idxOf_append_of_mem hm, List.idxOf_append_of_notMem hnp]
  have := List.idxOf_lt_length_iff.2 hm
  omega

open Classical in
theorem first_iff {nodes pre ns : List V} {n : V} (hn : nodes.Nodup) (he : nodes = pre ++ n :: ns) (pairs : List (V × V)) :
    (∀ m ∈ nodes, nodes.idxOf m < nodes.idxOf n → ¬ Linked pairs m n) ↔ ∀ m ∈ pre, ¬ Linked pairs m n := by
  constructor
  · intro h; exact firstNodes_split hn he pairs n (by simp) h
  · intro h m hm hlt
    have hnp : n ∉ pre := by
      intro hc
      rw [he] at hn
      exact List.disjoint_of_nodup_append hn hc (by simp)
    apply h
    by_contra hmp
    rw [he, List.idxOf_append_of_notMem hmp, List.idxOf_append_of_notMem hnp, List.idxOf_cons_self] at hlt
    omega

theorem ncard_of_nodup {l : List V} (h : l.Nodup) : {x | x ∈ l}.ncard = l.length := by
  have : {x | x ∈ l} = ((l.toFinset : Finset V) : Set V) := by ext x; simp
  rw [this, Set.ncard_coe_finset, List.toFinset_card_of_nodup h]

/-- The size found by a drained stack is the number of newly seen nodes. -/
theorem ncard_new {S T : List V} (hS : S.Nodup) (hT : T.Nodup) (hST : ∀ x ∈ S, x ∈ T) {C : Set V}
    (hC : ∀ x, x ∈ C ↔ x ∈ T ∧ x ∉ S) : S.length + C.ncard = T.length := by
  have hC' : C = ((T.toFinset \ S.toFinset : Finset V) : Set V) := by
    ext x; simp [hC]
  rw [hC', Set.ncard_coe_finset, Finset.card_sdiff_of_subset (by intro x; simpa using hST x),
    List.toFinset_card_of_nodup hS, List.toFinset_card_of_nodup hT]
  have := (hS.subperm (fun x hx => hST x hx)).length_le
  omega

/-- Between two components: the seen nodes are the nodes linked to a node already passed. -/
structure LoopInv (nodes : List V) (nbrs : V → List V) (pre : List V) (t : Traversal V V) : Prop where
  nodup : t.seen.Nodup
  sub : ∀ x ∈ t.seen, x ∈ nodes
  items : t.items = []
  closed : ∀ x ∈ t.seen, ∀ y ∈ nbrs x, y ∈ t.seen
  passed : ∀ x ∈ pre, x ∈ t.seen
  graph : t.graph = nodes

theorem drain_from {g : Graph V A} {filter : Option (EdgePred V A)} {nbrs : V → List V} {pre : List V} {n : V}
    {t : Traversal V V}
    (hpush : ∀ n ∈ g.nodes, ∀ t, pushNeighbors filter n (g.edgesOf n) t = .ok (appendAll t (nbrs n)))
    (hnb : ∀ n ∈ g.nodes, ∀ m ∈ nbrs n, m ∈ g.nodes)
    (h : LoopInv g.nodes nbrs pre t) (hn : n ∈ g.nodes) (hns : n ∉ t.seen) :
    ∃ size t', drainStack g filter g.order (t.append id n none).1 0 = .ok (size, t') ∧
      LoopInv g.nodes nbrs (pre ++ [n]) t' ∧ t.seen.length + size = t'.seen.length ∧
      (∀ x ∈ t.seen, x ∈ t'.seen) ∧ (∀ x, x ∈ t'.seen → x ∈ t.seen ∨ Reach nbrs n x) := by
  rw [append_unseen hns]
  have hI : DrainInv g.nodes nbrs t.seen n { t with seen := n :: t.seen, items := t.items ++ [n] } 0 := by
    refine ⟨List.nodup_cons.2 ⟨hns, h.nodup⟩, ?_, ?_, ?_, ?_, ?_, by simp, ?_, h.graph⟩
    · intro x hx
      rcases List.mem_cons.1 hx with rfl | hx
      · exact hn
      · exact h.sub x hx
    · intro x hx; exact List.mem_cons_of_mem _ hx
    · intro x hx
      simp only [h.items, List.nil_append, List.mem_singleton] at hx
      subst hx
      exact ⟨by simp, .refl⟩
    · intro x hx hxi y hy
      simp only [h.items, List.nil_append, List.mem_singleton] at hxi
      rcases List.mem_cons.1 hx with rfl | hx
      · exact absurd rfl hxi
      · exact List.mem_cons_of_mem _ (h.closed x hx y hy)
    · intro x hx
      rcases List.mem_cons.1 hx with rfl | hx
      · exact .inr .refl
      · exact .inl hx
    · simp [h.items]
  obtain ⟨size, t', h1, h2, h3⟩ := drainStack_ok hpush hnb g.order _ 0 hI
    (by simp [order, nodes, Dict.keys])
  refine ⟨size, t', h1, ?_, ?_, h2.old, h2.reach⟩
  · refine ⟨h2.nodup, h2.sub, h3, ?_, ?_, h2.graph⟩
    · intro x hx y hy
      exact h2.closed x hx (by rw [h3]; simp) y hy
    · intro x hx
      rcases List.mem_append.1 hx with hx | hx
      · exact h2.old x (h.passed x hx)
      · rw [List.mem_singleton.1 hx]; exact h2.start
  · have := h2.count
    rw [h3] at this
    simpa using this

theorem seenAll_loop {nodes : List V} {nbrs : V → List V} {pre : List V} {t : Traversal V V}
    (hn : nodes.Nodup) (h : LoopInv nodes nbrs pre t) : t.seenAll = true ↔ ∀ x ∈ nodes, x ∈ t.seen := by
  unfold Traversal.seenAll
  rw [beq_iff_eq, h.graph]
  constructor
  · intro hlen x hx
    exact ((h.nodup.subperm (fun x hx => h.sub x hx)).perm_of_length_le (by omega)).mem_iff.2 hx
  · intro hall
    exact ((List.perm_ext_iff_of_nodup h.nodup hn).2 (fun x => ⟨h.sub x, hall x⟩)).length_eq

theorem componentOrdersLoop_sum {g : Graph V A} {filter : Option (EdgePred V A)} {nbrs : V → List V}
    (hpush : ∀ n ∈ g.nodes, ∀ t, pushNeighbors filter n (g.edgesOf n) t = .ok (appendAll t (nbrs n)))
    (hnb : ∀ n ∈ g.nodes, ∀ m ∈ nbrs n, m ∈ g.nodes) (hndp : g.nodes.Nodup)
    (ns pre : List V) (he : g.nodes = pre ++ ns) (t : Traversal V V) (h : LoopInv g.nodes nbrs pre t) :
    (componentOrdersLoop g filter ns t).err = none ∧
      t.seen.length + (componentOrdersLoop g filter ns t).yields.sum = g.nodes.length := by
  induction ns generalizing pre t with
  | nil =>
    refine ⟨rfl, ?_⟩
    rw [List.append_nil] at he
    have := (seenAll_loop hndp h).2 (by rw [he]; exact h.passed)
    unfold Traversal.seenAll at this
    rw [beq_iff_eq, h.graph] at this
    simpa [componentOrdersLoop] using this
  | cons n ns ih =>
    have he' : g.nodes = (pre ++ [n]) ++ ns := by rw [he]; simp
    unfold componentOrdersLoop
    by_cases hall : t.seenAll = true
    · rw [if_pos hall]
      refine ⟨rfl, ?_⟩
      unfold Traversal.seenAll at hall
      rw [beq_iff_eq, h.graph] at hall
      simpa using hall
    · rw [if_neg hall]
      by_cases hc : n ∈ t.seen
      · rw [if_pos (by simpa [Traversal.contains] using hc)]
        refine ih (pre ++ [n]) he' t { h with passed := ?_ }
        intro x hx
        rcases List.mem_append.1 hx with hx | hx
        · exact h.passed x hx
        · rw [List.mem_singleton.1 hx]; exact hc
      · rw [if_neg (by simpa [Traversal.contains] using hc)]
        obtain ⟨size, t', h1, h2, h3, _, _⟩ := drain_from hpush hnb h (by rw [he]; simp) hc
        rw [h1]
        obtain ⟨h4, h5⟩ := ih (pre ++ [n]) he' t' h2
        refine ⟨h4, ?_⟩
        simp only [List.sum_cons]
        omega

open Classical in
theorem componentOrdersLoop_spec {g : Graph V A} {filter : Option (EdgePred V A)} {nbrs : V → List V}
    {pairs : List (V × V)} (hdesc : Describes nbrs pairs)
    (hpush : ∀ n ∈ g.nodes, ∀ t, pushNeighbors filter n (g.edgesOf n) t = .ok (appendAll t (nbrs n)))
    (hnb : ∀ n ∈ g.nodes, ∀ m ∈ nbrs n, m ∈ g.nodes) (hndp : g.nodes.Nodup)
    (ns pre : List V) (he : g.nodes = pre ++ ns) (t : Traversal V V) (h : LoopInv g.nodes nbrs pre t)
    (hseen : ∀ x ∈ t.seen, ∃ m ∈ pre, Linked pairs m x) :
    (componentOrdersLoop g filter ns t).yields =
      (ns.filter (fun n => decide (∀ m ∈ g.nodes, g.nodes.idxOf m < g.nodes.idxOf n → ¬ Linked pairs m n))).map
        (fun n => (componentOf g.nodes pairs n).ncard) := by
  induction ns generalizing pre t with
  | nil => rfl
  | cons n ns ih =>
    have he' : g.nodes = (pre ++ [n]) ++ ns := by rw [he]; simp
    have hnot : ∀ m, m ∈ t.seen → m ∈ n :: ns →
        ¬ (∀ k ∈ g.nodes, g.nodes.idxOf k < g.nodes.idxOf m → ¬ Linked pairs k m) := by
      intro m hm hmn hall
      obtain ⟨k, hk, hl⟩ := hseen m hm
      exact firstNodes_split hndp he pairs m hmn hall k hk hl
    unfold componentOrdersLoop
    by_cases hall : t.seenAll = true
    · rw [if_pos hall]
      have hall' := (seenAll_loop hndp h).1 hall
      rw [List.filter_eq_nil_iff.2]
      · rfl
      · intro m hm
        simpa using hnot m (hall' m (by rw [he]; exact List.mem_append_right _ hm)) hm
    · rw [if_neg hall]
      by_cases hc : n ∈ t.seen
      · rw [if_pos (by simpa [Traversal.contains] using hc)]
        rw [List.filter_cons_of_neg (by simpa using hnot n hc (by simp))]
        refine ih (pre ++ [n]) he' t { h with passed := ?_ } ?_
        · intro x hx
          rcases List.mem_append.1 hx with hx | hx
          · exact h.passed x hx
          · rw [List.mem_singleton.1 hx]; exact hc
        · intro x hx
          obtain ⟨m, hm, hl⟩ := hseen x hx
          exact ⟨m, List.mem_append_left _ hm, hl⟩
      · rw [if_neg (by simpa [Traversal.contains] using hc)]
        have hng : n ∈ g.nodes := by rw [he]; simp
        obtain ⟨size, t', h1, h2, h3, h4, h5⟩ := drain_from hpush hnb h hng hc
        rw [h1]
        have hfirst : ∀ m ∈ g.nodes, g.nodes.idxOf m < g.nodes.idxOf n → ¬ Linked pairs m n := by
          rw [first_iff hndp he]
          intro m hm hl
          exact hc ((hdesc.reach_iff.2 hl).closed (S := fun x => x ∈ t.seen) h.closed (h.passed m hm))
        rw [List.filter_cons_of_pos (by simpa using hfirst)]
        simp only [List.map_cons]
        rw [ih (pre ++ [n]) he' t' h2 ?_]
        · congr 1
          have hcard := ncard_new h.nodup h2.nodup h4 (C := componentOf g.nodes pairs n) (by
            intro x
            constructor
            · rintro ⟨hx, hl⟩
              refine ⟨(hdesc.reach_iff.2 hl).closed (S := fun x => x ∈ t'.seen) h2.closed (h2.passed n (by simp)), ?_⟩
              intro hxs
              exact hc ((hdesc.reach_iff.2 hl.symm).closed (S := fun x => x ∈ t.seen) h.closed hxs)
            · rintro ⟨hx, hxs⟩
              rcases h5 x hx with hh | hh
              · exact absurd hh hxs
              · exact ⟨h2.sub x hx, hdesc.reach_iff.1 hh⟩)
          omega
        · intro x hx
          rcases h5 x hx with hh | hh
          · obtain ⟨m, hm, hl⟩ := hseen x hh
            exact ⟨m, List.mem_append_left _ hm, hl⟩
          · exact ⟨n, by simp, hdesc.reach_iff.1 hh⟩

theorem LoopInv.init (nodes : List V) (nbrs : V → List V) : LoopInv nodes nbrs [] (Traversal.init nodes) :=
  ⟨List.nodup_nil, by simp [Traversal.init], rfl, by simp [Traversal.init], by simp, rfl⟩

/-- Neighbors of `n` by the edges that the filter accepts. -/
def acceptedNeighbors (g : Graph V A) (p : V → V → Attrs A → Bool) (n : V) : List V :=
  ((g.edgesOf n).filter (fun e => p n e.2.1 e.2.2.2)).map (fun e => e.2.1)

theorem pushNeighbors_ok {filter : Option (EdgePred V A)} {p : V → V → Attrs A → Bool} {n : V}
    {es : List (V × V × PyKey × Attrs A)} (h : ∀ e ∈ es, follows filter n e.2.1 e.2.2.2 = .ok (p n e.2.1 e.2.2.2))
    (t : Traversal V V) :
    pushNeighbors filter n es t = .ok (appendAll t ((es.filter (fun e => p n e.2.1 e.2.2.2)).map (fun e => e.2.1))) := by
  induction es generalizing t with
  | nil => rfl
  | cons e es ih =>
    obtain ⟨u, v, k, a⟩ := e
    have h1 := h (u, v, k, a) (by simp)
    simp only at h1
    simp only [pushNeighbors, h1]
    rw [ih (fun e he => h e (by simp [he]))]
    by_cases hp : p n v a = true
    · rw [List.filter_cons_of_pos (by simpa using hp), if_pos hp]
      rfl
    · rw [List.filter_cons_of_neg (by simpa using hp), if_neg hp]

/-- The edges at a node, seen from it. -/
theorem mem_edgesOf {g : Graph V A} (h : g.WF) {n u m : V} {k : PyKey} {a : Attrs A} :
    (u, m, k, a) ∈ g.edgesOf n ↔ u = n ∧ ∃ l ∈ g.links, samePair g.directed n m l.u l.v = true ∧ (k, a) ∈ l.data := by
  unfold edgesOf
  simp only [List.mem_flatMap, List.mem_map, Prod.mk.injEq, Prod.exists]
  constructor
  · rintro ⟨v, d, hd, k', a', hka, rfl, rfl, rfl, rfl⟩
    obtain ⟨l, hl, hs, rfl⟩ := (keydict?_eq_some h).1 ((mem_adj h).1 hd)
    exact ⟨rfl, l, hl, hs, hka⟩
  · rintro ⟨rfl, l, hl, hs, hka⟩
    exact ⟨m, l.data, (mem_adj h).2 ((keydict?_eq_some h).2 ⟨l, hl, hs, rfl⟩), k, a, hka, rfl, rfl, rfl, rfl⟩

theorem edgesOf_nodes {g : Graph V A} (h : g.WF) {n u m : V} {k : PyKey} {a : Attrs A}
    (he : (u, m, k, a) ∈ g.edgesOf n) : n ∈ g.nodes ∧ m ∈ g.nodes := by
  obtain ⟨_, l, hl, hs, _⟩ := (mem_edgesOf h).1 he
  exact hasEdge_mem h (hasEdge_iff.2 ⟨l, hl, hs⟩)

/-- An edge at a node is a listed edge, in one orientation or (undirected) the other. -/
theorem edgesOf_listed {g : Graph V A} (h : g.WF) (hd : g.directed = false) {n m : V} {a : Attrs A} :
    (∃ k, (n, m, k, a) ∈ g.edgesOf n) ↔ (n, m, a) ∈ g.edgesData ∨ (m, n, a) ∈ g.edgesData := by
  rw [mem_edgesData h, mem_edgesData h]
  constructor
  · rintro ⟨k, hk⟩
    obtain ⟨_, l, hl, hs, hka⟩ := (mem_edgesOf h).1 hk
    rcases samePair_iff.1 hs with ⟨rfl, rfl⟩ | ⟨_, rfl, rfl⟩ <;>
      rcases g.orient_cases l with ho | ⟨_, ho⟩
    · exact .inl ⟨l, hl, by rw [ho], by rw [ho], k, hka⟩
    · exact .inr ⟨l, hl, by rw [ho], by rw [ho], k, hka⟩
    · exact .inr ⟨l, hl, by rw [ho], by rw [ho], k, hka⟩
    · exact .inl ⟨l, hl, by rw [ho], by rw [ho], k, hka⟩
  · rintro (⟨l, hl, rfl, rfl, k, hka⟩ | ⟨l, hl, rfl, rfl, k, hka⟩)
    · exact ⟨k, (mem_edgesOf h).2 ⟨rfl, l, hl, g.orient_samePair l, hka⟩⟩
    · refine ⟨k, (mem_edgesOf h).2 ⟨rfl, l, hl, ?_, hka⟩⟩
      have := g.orient_samePair l
      rw [hd] at this ⊢
      rw [samePair_swap]; exact this

theorem mem_edges {g : Graph V A} {x y : V} : (x, y) ∈ g.edges ↔ ∃ a, (x, y, a) ∈ g.edgesData := by
  unfold edges edgesData
  simp only [List.mem_map, Prod.mk.injEq, Prod.exists]
  constructor
  · rintro ⟨u, v, k, a, he, rfl, rfl⟩; exact ⟨a, u, v, k, a, he, rfl, rfl, rfl⟩
  · rintro ⟨_, u, v, k, a, he, rfl, rfl, _⟩; exact ⟨u, v, k, a, he, rfl, rfl⟩

/-- Being joined by an edge, in terms of the listing. -/
theorem hasEdge_listed {g : Graph V A} (h : g.WF) {x y : V} :
    g.hasEdge x y = true ↔ (x, y) ∈ g.edges ∨ (g.directed = false ∧ (y, x) ∈ g.edges) := by
  rw [hasEdge_iff, mem_edges, mem_edges]
  simp only [mem_edgesData h]
  constructor
  · rintro ⟨l, hl, hs⟩
    obtain ⟨⟨k, a⟩, hka⟩ := List.exists_mem_of_ne_nil _ (h.nonempty l hl)
    rcases samePair_iff.1 hs with ⟨rfl, rfl⟩ | ⟨hd, rfl, rfl⟩ <;>
      rcases g.orient_cases l with ho | ⟨hd', ho⟩
    · exact .inl ⟨a, l, hl, by rw [ho], by rw [ho], k, hka⟩
    · exact .inr ⟨hd', a, l, hl, by rw [ho], by rw [ho], k, hka⟩
    · exact .inr ⟨hd, a, l, hl, by rw [ho], by rw [ho], k, hka⟩
    · exact .inl ⟨a, l, hl, by rw [ho], by rw [ho], k, hka⟩
  · rintro (⟨a, l, hl, rfl, rfl, k, hka⟩ | ⟨hd, a, l, hl, rfl, rfl, k, hka⟩)
    · exact ⟨l, hl, g.orient_samePair l⟩
    · refine ⟨l, hl, ?_⟩
      have := g.orient_samePair l
      rw [hd] at this ⊢
      rw [samePair_swap]; exact this

/-- The listed pairs accepted by a predicate. -/
def acceptedPairs (g : Graph V A) (p : V → V → Attrs A → Bool) : List (V × V) :=
  (g.edgesData.filter (fun e => p e.1 e.2.1 e.2.2)).map (fun e => (e.1, e.2.1))

theorem acceptedNeighbors_describes {g : Graph V A} (h : g.WF) (hd : g.directed = false)
    {p : V → V → Attrs A → Bool} (hsym : ∀ e ∈ g.edgesData, p e.1 e.2.1 e.2.2 = p e.2.1 e.1 e.2.2) :
    Describes (acceptedNeighbors g p) (acceptedPairs g p) := by
  intro x y
  unfold acceptedNeighbors acceptedPairs
  simp only [List.mem_map, List.mem_filter, Prod.mk.injEq, Prod.exists]
  constructor
  · rintro ⟨u, v, k, a, ⟨he, hp⟩, rfl⟩
    have hu : u = x := ((mem_edgesOf h).1 he).1
    subst hu
    rcases (edgesOf_listed h hd).1 ⟨k, he⟩ with hl | hl
    · exact .inl ⟨u, v, a, ⟨hl, hp⟩, rfl, rfl⟩
    · exact .inr ⟨v, u, a, ⟨hl, by rw [hsym _ hl]; exact hp⟩, rfl, rfl⟩
  · rintro (⟨u, v, a, ⟨he, hp⟩, rfl, rfl⟩ | ⟨u, v, a, ⟨he, hp⟩, rfl, rfl⟩)
    · obtain ⟨k, hk⟩ := (edgesOf_listed h hd).2 (.inl he)
      exact ⟨u, v, k, a, ⟨hk, hp⟩, rfl⟩
    · obtain ⟨k, hk⟩ := (edgesOf_listed h hd).2 (.inr he)
      exact ⟨v, u, k, a, ⟨hk, by rw [← hsym _ he]; exact hp⟩, rfl⟩

theorem acceptedNeighbors_nodes {g : Graph V A} (h : g.WF) (p : V → V → Attrs A → Bool) :
    ∀ n ∈ g.nodes, ∀ m ∈ acceptedNeighbors g p n, m ∈ g.nodes := by
  intro n _ m hm
  unfold acceptedNeighbors at hm
  simp only [List.mem_map, List.mem_filter, Prod.exists] at hm
  obtain ⟨u, v, k, a, ⟨he, _⟩, rfl⟩ := hm
  exact (edgesOf_nodes h he).2

theorem anyNeighbors_describes {g : Graph V A} (h : g.WF) : Describes g.anyNeighbors g.edges := by
  intro x y
  unfold anyNeighbors
  cases hd : g.directed with
  | true =>
    simp only [if_true, List.mem_append, mem_neighbors, mem_predecessors, hasEdge_listed h, hd]
    simp
  | false =>
    simp only [Bool.false_eq_true, if_false, mem_neighbors, hasEdge_listed h, hd]
    simp

theorem anyNeighbors_nodes {g : Graph V A} (h : g.WF) : ∀ n ∈ g.nodes, ∀ m ∈ g.anyNeighbors n, m ∈ g.nodes := by
  intro n _ m hm
  rcases (anyNeighbors_describes h n m).1 hm with he | he
  · exact (hasEdge_mem h ((hasEdge_listed h).2 (.inl he))).2
  · exact (hasEdge_mem h ((hasEdge_listed h).2 (.inl he))).1

/-! ### networkx's breadth first search -/

theorem mem_setUpdate {s xs : List V} {x : V} : x ∈ setUpdate s xs ↔ x ∈ s ∨ x ∈ xs := by
  induction xs generalizing s with
  | nil => simp [setUpdate]
  | cons y ys ih =>
    have e : setUpdate s (y :: ys) = setUpdate (if y ∈ s then s else s ++ [y]) ys := rfl
    rw [e, ih]
    split
    · rename_i h
      simp only [List.mem_cons]
      constructor
      · tauto
      · rintro (hx | rfl | hx)
        · exact .inl hx
        · exact .inl h
        · exact .inr hx
    · simp only [List.mem_append, List.mem_cons, List.not_mem_nil, or_false]
      tauto

structure BfsInv (nodes : List V) (nbrs : V → List V) (s : V) (seen : List V) (level : List V) : Prop where
  nodup : seen.Nodup
  sub : ∀ x, x ∈ seen ∨ x ∈ level → x ∈ nodes
  reach : ∀ x, x ∈ seen ∨ x ∈ level → Reach nbrs s x
  closed : ∀ x ∈ seen, ∀ y ∈ nbrs x, y ∈ seen ∨ y ∈ level
  start : s ∈ seen ∨ s ∈ level

theorem bfsLevel_spec (nbrs : V → List V) (vs : List V) (st : List V × List V) (hn : st.1.Nodup) :
    (bfsLevel nbrs vs st).1.Nodup ∧
    (∀ x, x ∈ (bfsLevel nbrs vs st).1 ↔ x ∈ st.1 ∨ x ∈ vs) ∧
    (∀ y ∈ st.2, y ∈ (bfsLevel nbrs vs st).2) ∧
    (∀ y ∈ (bfsLevel nbrs vs st).2, y ∈ st.2 ∨ ∃ x ∈ vs, x ∉ st.1 ∧ y ∈ nbrs x) ∧
    (∀ x ∈ vs, x ∉ st.1 → ∀ y ∈ nbrs x, y ∈ (bfsLevel nbrs vs st).2) ∧
    (st.1.length ≤ (bfsLevel nbrs vs st).1.length) ∧
    ((bfsLevel nbrs vs st).1.length = st.1.length → (bfsLevel nbrs vs st).2 = st.2) := by
  induction vs generalizing st with
  | nil => simp [bfsLevel, hn]
  | cons v vs ih =>
    unfold bfsLevel
    by_cases hv : v ∈ st.1
    · rw [if_pos hv]
      obtain ⟨h1, h2, h3, h4, h5, h6, h7⟩ := ih st hn
      refine ⟨h1, ?_, h3, ?_, ?_, h6, h7⟩
      · intro x
        rw [h2, List.mem_cons]
        constructor
        · tauto
        · rintro (hx | rfl | hx)
          · exact .inl hx
          · exact .inl hv
          · exact .inr hx
      · intro y hy
        rcases h4 y hy with hy | ⟨x, hx, h⟩
        · exact .inl hy
        · exact .inr ⟨x, List.mem_cons_of_mem _ hx, h⟩
      · intro x hx hxs
        rcases List.mem_cons.1 hx with rfl | hx
        · exact absurd hv hxs
        · exact h5 x hx hxs
    · rw [if_neg hv]
      obtain ⟨h1, h2, h3, h4, h5, h6, h7⟩ := ih (st.1 ++ [v], setUpdate st.2 (nbrs v))
        (List.nodup_append.2 ⟨hn, by simp, by
          intro a ha b hb
          simp only [List.mem_singleton] at hb
          subst hb
          rintro rfl
          exact hv ha⟩)
      simp only [List.length_append, List.length_singleton] at h6 h7
      refine ⟨h1, ?_, ?_, ?_, ?_, by omega, ?_⟩
      · intro x
        rw [h2]
        simp only [List.mem_append, List.mem_cons, List.not_mem_nil, or_false]
        tauto
      · intro y hy
        exact h3 y (mem_setUpdate.2 (.inl hy))
      · intro y hy
        rcases h4 y hy with hy | ⟨x, hx, hxs, h⟩
        · rcases mem_setUpdate.1 hy with hy | hy
          · exact .inl hy
          · exact .inr ⟨v, by simp, hv, hy⟩
        · exact .inr ⟨x, List.mem_cons_of_mem _ hx, fun hc => hxs (List.mem_append_left _ hc), h⟩
      · intro x hx hxs y hy
        by_cases hxv : x = v
        · subst hxv
          exact h3 y (mem_setUpdate.2 (.inr hy))
        · rcases List.mem_cons.1 hx with rfl | hx
          · exact absurd rfl hxv
          · exact h5 x hx (by simp [hxs, hxv]) y hy
      · intro hlen
        omega

theorem bfsLoop_ok {nodes : List V} {nbrs : V → List V} {s : V}
    (hnb : ∀ n ∈ nodes, ∀ m ∈ nbrs n, m ∈ nodes) (fuel : Nat) (seen level : List V)
    (h : BfsInv nodes nbrs s seen level) (hf : nodes.length + 1 ≤ fuel + seen.length) :
    ∃ c, bfsLoop nbrs fuel seen level = .ok c ∧ BfsInv nodes nbrs s c [] := by
  induction fuel generalizing seen level with
  | zero =>
    have := (h.nodup.subperm (fun x hx => h.sub x (.inl hx))).length_le
    omega
  | succ fuel ih =>
    rcases level with _ | ⟨v, vs⟩
    · exact ⟨seen, rfl, h⟩
    · simp only [bfsLoop]
      obtain ⟨h1, h2, h3, h4, h5, h6, h7⟩ := bfsLevel_spec nbrs (v :: vs) (seen, []) h.nodup
      have hI : BfsInv nodes nbrs s (bfsLevel nbrs (v :: vs) (seen, [])).1 (bfsLevel nbrs (v :: vs) (seen, [])).2 := by
        refine ⟨h1, ?_, ?_, ?_, ?_⟩
        · rintro x (hx | hx)
          · exact h.sub x ((h2 x).1 hx)
          · rcases h4 x hx with hx | ⟨y, hy, _, hx⟩
            · cases hx
            · exact hnb y (h.sub y (.inr hy)) x hx
        · rintro x (hx | hx)
          · exact h.reach x ((h2 x).1 hx)
          · rcases h4 x hx with hx | ⟨y, hy, _, hx⟩
            · cases hx
            · exact (h.reach y (.inr hy)).tail hx
        · intro x hx y hy
          by_cases hxs : x ∈ seen
          · exact .inl ((h2 y).2 (h.closed x hxs y hy))
          · rcases (h2 x).1 hx with hx' | hx'
            · exact absurd hx' hxs
            · exact .inr (h5 x hx' hxs y hy)
        · exact .inl ((h2 s).2 h.start)
      by_cases hlen : (bfsLevel nbrs (v :: vs) (seen, [])).1.length = seen.length
      · have hnil := h7 hlen
        simp only at hnil
        rw [hnil] at hI ⊢
        refine ⟨_, ?_, hI⟩
        cases fuel <;> rfl
      · simp only at h6
        exact ih _ _ hI (by omega)

theorem plainBfs_ok {nodes : List V} {nbrs : V → List V} {s : V}
    (hnb : ∀ n ∈ nodes, ∀ m ∈ nbrs n, m ∈ nodes) (hs : s ∈ nodes) :
    ∃ c, plainBfs nbrs nodes.length s = .ok c ∧ c.Nodup ∧ (∀ x ∈ c, x ∈ nodes) ∧ ∀ x, x ∈ c ↔ Reach nbrs s x := by
  obtain ⟨c, h1, h2⟩ := bfsLoop_ok hnb (nodes.length + 1) [] [s] (s := s)
    ⟨List.nodup_nil, by simpa using hs, by
      intro x hx
      simp only [List.not_mem_nil, List.mem_singleton, false_or] at hx
      subst hx; exact .refl, by simp, by simp⟩ (by simp)
  refine ⟨c, h1, h2.nodup, fun x hx => h2.sub x (.inl hx), ?_⟩
  intro x
  constructor
  · intro hx; exact h2.reach x (.inl hx)
  · intro hr
    refine hr.closed (S := fun x => x ∈ c) ?_ (by simpa using h2.start)
    intro y hy z hz
    simpa using h2.closed y hy z hz

open Classical in
theorem componentsLoop_ok {nodes : List V} {nbrs : V → List V} {pairs : List (V × V)} (hdesc : Describes nbrs pairs)
    (hnb : ∀ n ∈ nodes, ∀ m ∈ nbrs n, m ∈ nodes) (hndp : nodes.Nodup)
    (ns pre : List V) (he : nodes = pre ++ ns) (seen : List V)
    (hseen : ∀ x, x ∈ seen ↔ ∃ m ∈ pre, Linked pairs m x) :
    ∃ cs, componentsLoop nbrs nodes.length ns seen = .ok cs ∧
      List.Forall₂ (fun c n => c.Nodup ∧ ∀ x, x ∈ c ↔ x ∈ componentOf nodes pairs n) cs
        (ns.filter (fun n => decide (∀ m ∈ nodes, nodes.idxOf m < nodes.idxOf n → ¬ Linked pairs m n))) := by
  induction ns generalizing pre seen with
  | nil => exact ⟨[], rfl, .nil⟩
  | cons n ns ih =>
    have he' : nodes = (pre ++ [n]) ++ ns := by rw [he]; simp
    have hfirst := first_iff hndp he pairs
    unfold componentsLoop
    by_cases hc : n ∈ seen
    · rw [if_pos hc]
      obtain ⟨k, hk, hl⟩ := (hseen n).1 hc
      rw [List.filter_cons_of_neg (by
        rw [decide_eq_true_iff, hfirst]
        intro hall
        exact hall k hk hl)]
      refine ih (pre ++ [n]) he' seen ?_
      intro x
      rw [hseen]
      constructor
      · rintro ⟨m, hm, hl⟩; exact ⟨m, List.mem_append_left _ hm, hl⟩
      · rintro ⟨m, hm, hl'⟩
        rcases List.mem_append.1 hm with hm | hm
        · exact ⟨m, hm, hl'⟩
        · rw [List.mem_singleton.1 hm] at hl'
          exact ⟨k, hk, hl.trans hl'⟩
    · rw [if_neg hc]
      have hng : n ∈ nodes := by rw [he]; simp
      obtain ⟨c, h1, h2, h3, h4⟩ := plainBfs_ok hnb hng
      rw [h1]
      obtain ⟨cs, h5, h6⟩ := ih (pre ++ [n]) he' (setUpdate seen c) (by
        intro x
        rw [mem_setUpdate, hseen, h4, hdesc.reach_iff]
        constructor
        · rintro (⟨m, hm, hl⟩ | hl)
          · exact ⟨m, List.mem_append_left _ hm, hl⟩
          · exact ⟨n, by simp, hl⟩
        · rintro ⟨m, hm, hl⟩
          rcases List.mem_append.1 hm with hm | hm
          · exact .inl ⟨m, hm, hl⟩
          · rw [List.mem_singleton.1 hm] at hl; exact .inr hl)
      refine ⟨c :: cs, by simp only [h5], ?_⟩
      rw [List.filter_cons_of_pos (by
        rw [decide_eq_true_iff, hfirst]
        intro m hm hl
        exact hc ((hseen n).2 ⟨m, hm, hl⟩))]
      refine .cons ⟨h2, ?_⟩ h6
      intro x
      constructor
      · intro hx; exact ⟨h3 x hx, hdesc.reach_iff.1 ((h4 x).1 hx)⟩
      · rintro ⟨_, hl⟩; exact (h4 x).2 (hdesc.reach_iff.2 hl)

/-- networkx's components are the connected components, in order of their first nodes. -/
theorem nxComponents_ok {g : Graph V A} (h : g.WF) :
    ∃ cs, g.nxComponents = .ok cs ∧
      List.Forall₂ (fun c n => c.Nodup ∧ ∀ x, x ∈ c ↔ x ∈ componentOf g.nodes g.edges n) cs
        (firstNodes g.nodes g.edges) := by
  have e : g.order = g.nodes.length := by simp [order, nodes, Dict.keys]
  unfold nxComponents
  rw [e]
  exact componentsLoop_ok (anyNeighbors_describes h) (anyNeighbors_nodes h) h.nodup g.nodes [] rfl []
    (by simp)

end Pelote
