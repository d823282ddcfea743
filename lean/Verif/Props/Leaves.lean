import Verif.Spec.Leaves
import Verif.Spec.Linked
import Verif.Props.GraphEdit
import Verif.Lemmas.Strength
import Mathlib.Logic.Relation

/-! C91: removing leaves again and again. -/
namespace Pelote
open Graph
open scoped List
variable {V A : Type} [DecidableEq V]

/-- The number of ends of an edge at a node. -/
abbrev endsAtNode (n : V) (e : V × V) : Nat := (if e.1 = n then 1 else 0) + (if e.2 = n then 1 else 0)

theorem sum_filter_le {α : Type} (f : α → Nat) (p : α → Bool) (l : List α) : ((l.filter p).map f).sum ≤ (l.map f).sum := by
  induction l with
  | nil => simp
  | cons a l ih =>
    rw [List.filter_cons]
    split <;> simp <;> omega

theorem degreeWithin_le (g : Graph V A) (S : Set V) (n : V) : g.degreeWithin S n ≤ degreeSpec g n := sum_filter_le _ _ _

theorem degreeSpec_pos_mem {g : Graph V A} {n : V} (hn : 1 ≤ degreeSpec g n) :
    ∃ e ∈ g.edges, e.1 = n ∨ e.2 = n := by
  by_contra hc
  push Not at hc
  have : degreeSpec g n = 0 := by
    unfold degreeSpec
    apply List.sum_eq_zero
    intro y hy
    obtain ⟨e, he, rfl⟩ := List.mem_map.1 hy
    simp [(hc e he).1, (hc e he).2]
  omega

theorem edges_ends {g : Graph V A} (h : g.WF) {e : V × V} (he : e ∈ g.edges) : e.1 ∈ g.nodes ∧ e.2 ∈ g.nodes :=
  Graph.hasEdge_mem h ((hasEdge_listed h).2 (.inl he))

theorem sum_ge_of_mem {α : Type} (f : α → Nat) {l : List α} {a : α} (ha : a ∈ l) : f a ≤ (l.map f).sum := by
  induction l with
  | nil => simp at ha
  | cons b l ih =>
    rw [List.map_cons, List.sum_cons]
    rcases List.mem_cons.1 ha with rfl | ha
    · omega
    · have := ih ha; omega

theorem sum_ge_two {α : Type} (f : α → Nat) {l : List α} {a b : α} (ha : a ∈ l) (hb : b ∈ l) (hab : a ≠ b) :
    f a + f b ≤ (l.map f).sum := by
  induction l with
  | nil => simp at ha
  | cons c l ih =>
    rw [List.map_cons, List.sum_cons]
    rcases List.mem_cons.1 ha with rfl | ha
    · rcases List.mem_cons.1 hb with rfl | hb
      · exact absurd rfl hab
      · have := sum_ge_of_mem f hb; omega
    · rename_i hac
      clear hac
      rcases List.mem_cons.1 hb with hbc | hb
      · have := sum_ge_of_mem f ha; rw [hbc]; omega
      · have := ih ha hb; omega

/-- A node of degree 1 has a single edge, which is not a self loop. -/
theorem leaf_edge {g : Graph V A} {n : V} (hn : degreeSpec g n = 1) {e e' : V × V} (he : e ∈ g.edges) (he' : e' ∈ g.edges)
    (h1 : e.1 = n ∨ e.2 = n) (h2 : e'.1 = n ∨ e'.2 = n) : e = e' ∧ e.1 ≠ e.2 := by
  have f1 : 1 ≤ endsAtNode n e := by unfold endsAtNode; rcases h1 with h | h <;> simp [h]
  have f2 : 1 ≤ endsAtNode n e' := by unfold endsAtNode; rcases h2 with h | h <;> simp [h]
  constructor
  · by_contra hc
    have : endsAtNode n e + endsAtNode n e' ≤ degreeSpec g n := sum_ge_two (endsAtNode n) he he' hc
    omega
  · intro hc
    have h3 : endsAtNode n e ≤ degreeSpec g n := sum_ge_of_mem (endsAtNode n) he
    have : e.1 = n ∧ e.2 = n := by rcases h1 with h | h <;> [exact ⟨h, hc ▸ h⟩; exact ⟨hc.trans h, h⟩]
    unfold endsAtNode at h3
    simp only [this.1, this.2, if_true] at h3
    omega

/-- One call: nodes, edges. -/
theorem removeLeaves_step {g : Graph V A} (h : g.WF) :
    ∃ g', removeLeaves g = (g', .ok ()) ∧ g'.WF ∧ g'.directed = g.directed ∧ g'.multi = g.multi ∧ g'.attrs = g.attrs ∧
      g'.node <+ g.node ∧ (∀ n, n ∈ g'.nodes ↔ n ∈ g.nodes ∧ degreeSpec g n ≠ 1) ∧
      g'.edgesKeys = g.edgesKeys.filter (fun e => decide (e.1 ∈ g'.nodes) && decide (e.2.1 ∈ g'.nodes)) := by
  obtain ⟨g', h1, h2, h3, h4, h5, h6, h7⟩ := removeLeaves_exact h
  refine ⟨g', h1, h2, h3, h4, h5, by rw [h6]; exact List.filter_sublist, ?_, h7⟩
  intro n
  have hm : n ∈ g'.nodes ↔ ∃ q, (q ∈ g.node ∧ degreeSpec g q.1 ≠ 1) ∧ q.1 = n := by
    unfold Graph.nodes Dict.keys
    rw [h6, List.mem_map]
    simp only [List.mem_filter, decide_eq_true_eq]
  have hm' : n ∈ g.nodes ↔ ∃ q, q ∈ g.node ∧ q.1 = n := List.mem_map
  rw [hm, hm']
  constructor
  · rintro ⟨q, ⟨hq, hd⟩, rfl⟩; exact ⟨⟨q, hq, rfl⟩, hd⟩
  · rintro ⟨⟨q, hq, rfl⟩, hd⟩; exact ⟨q, ⟨hq, hd⟩, rfl⟩

theorem edges_of_keys {g g' : Graph V A} {p : V → Prop} [DecidablePred p]
    (he : g'.edgesKeys = g.edgesKeys.filter (fun e => decide (p e.1) && decide (p e.2.1))) :
    g'.edges = g.edges.filter (fun e => decide (p e.1) && decide (p e.2)) := by
  unfold Graph.edges
  rw [he, List.filter_map]
  rfl

/-- One call removes no node of the core. -/
theorem inCore_step {g g' : Graph V A} (h : g.WF) (hn : ∀ n, n ∈ g'.nodes ↔ n ∈ g.nodes ∧ degreeSpec g n ≠ 1)
    (he : g'.edgesKeys = g.edgesKeys.filter (fun e => decide (e.1 ∈ g'.nodes) && decide (e.2.1 ∈ g'.nodes))) (n : V) :
    g'.InCore n ↔ g.InCore n := by
  classical
  have hed := edges_of_keys (p := fun n => n ∈ g'.nodes) he
  constructor
  · rintro ⟨S, hS, hd⟩
    refine ⟨S, hS, fun m hm => (hd m hm).trans ?_⟩
    unfold degreeWithin
    rw [hed, List.filter_filter]
    have : (g.edges.filter (fun e => decide (e.1 ∈ S ∧ e.2 ∈ S) && (decide (e.1 ∈ g'.nodes) && decide (e.2 ∈ g'.nodes)))) =
        (g.edges.filter (fun e => decide (e.1 ∈ S ∧ e.2 ∈ S))).filter
          (fun e => decide (e.1 ∈ g'.nodes) && decide (e.2 ∈ g'.nodes)) := by
      rw [List.filter_filter]
      apply List.filter_congr
      intro e _
      rw [Bool.and_comm]
    rw [this]
    exact sum_filter_le _ _ _
  · rintro ⟨S, hS, hd⟩
    have hin : ∀ m ∈ S, m ∈ g'.nodes := by
      intro m hm
      have h1 := (hd m hm).trans (degreeWithin_le g S m)
      obtain ⟨e, he, hem⟩ := degreeSpec_pos_mem (g := g) (n := m) (by omega)
      have h2 := edges_ends h he
      rw [hn]
      refine ⟨by rcases hem with rfl | rfl <;> [exact h2.1; exact h2.2], by omega⟩
    refine ⟨S, hS, fun m hm => ?_⟩
    have : g'.degreeWithin S m = g.degreeWithin S m := by
      unfold degreeWithin
      rw [hed, List.filter_filter]
      congr 2
      apply List.filter_congr
      intro e _
      by_cases hc : e.1 ∈ S ∧ e.2 ∈ S
      · simp [hc, hin _ hc.1, hin _ hc.2]
      · simp [hc]
    rw [this]
    exact hd m hm

/-- One call changes nothing to what is linked. -/
theorem linked_step {g g' : Graph V A} (hn : ∀ n, n ∈ g'.nodes ↔ n ∈ g.nodes ∧ degreeSpec g n ≠ 1) (h : g.WF)
    (he : g'.edgesKeys = g.edgesKeys.filter (fun e => decide (e.1 ∈ g'.nodes) && decide (e.2.1 ∈ g'.nodes)))
    {x y : V} (hx : x ∈ g'.nodes) (hy : y ∈ g'.nodes) : Linked g'.edges x y ↔ Linked g.edges x y := by
  have hed := edges_of_keys (p := fun n => n ∈ g'.nodes) he
  constructor
  · apply Relation.EqvGen.mono
    intro a b hab
    rw [hed] at hab
    exact (List.mem_filter.1 hab).1
  · intro hl
    -- leaves share the fate of the node they hang from
    let P : V → Prop := fun z => (degreeSpec g z ≠ 1 ∧ Linked g'.edges x z) ∨
      (degreeSpec g z = 1 ∧ ∃ m, degreeSpec g m ≠ 1 ∧ ((z, m) ∈ g.edges ∨ (m, z) ∈ g.edges) ∧ Linked g'.edges x m)
    have hedge : ∀ a b, (a, b) ∈ g.edges → (P a ↔ P b) := by
      intro a b hab
      have hends := edges_ends h hab
      simp only at hends
      by_cases ha : degreeSpec g a = 1
      · by_cases hb : degreeSpec g b = 1
        · have no : ∀ z w, (a, b) ∈ g.edges → degreeSpec g z = 1 → (z = a ∧ w = b ∨ z = b ∧ w = a) → ¬ P z := by
            rintro z w _ hz hzw (⟨h1, -⟩ | ⟨-, m, hm, hzm, -⟩)
            · exact h1 hz
            · have hm' : m = a ∨ m = b := by
                rcases hzm with hzm | hzm
                · have := (leaf_edge hz hab hzm (by rcases hzw with ⟨rfl, -⟩ | ⟨rfl, -⟩ <;> simp) (.inl rfl)).1
                  simp only [Prod.mk.injEq] at this
                  exact .inr this.2.symm
                · have := (leaf_edge hz hab hzm (by rcases hzw with ⟨rfl, -⟩ | ⟨rfl, -⟩ <;> simp) (.inr rfl)).1
                  simp only [Prod.mk.injEq] at this
                  exact .inl this.1.symm
              rcases hm' with rfl | rfl
              · exact hm ha
              · exact hm hb
          exact iff_of_false (no a b hab ha (.inl ⟨rfl, rfl⟩)) (no b a hab hb (.inr ⟨rfl, rfl⟩))
        · constructor
          · rintro (⟨h1, -⟩ | ⟨-, m, hm, hzm, hl⟩)
            · exact absurd ha h1
            · have hmb : m = b := by
                rcases hzm with hzm | hzm
                · have := (leaf_edge ha hab hzm (.inl rfl) (.inl rfl)).1
                  simp only [Prod.mk.injEq] at this
                  exact this.2.symm
                · have := leaf_edge ha hab hzm (.inl rfl) (.inr rfl)
                  simp only [Prod.mk.injEq] at this
                  exact absurd this.1.2.symm this.2
              exact .inl ⟨hb, hmb ▸ hl⟩
          · rintro (⟨-, hl⟩ | ⟨h1, -⟩)
            · exact .inr ⟨ha, b, hb, .inl hab, hl⟩
            · exact absurd h1 hb
      · by_cases hb : degreeSpec g b = 1
        · constructor
          · rintro (⟨-, hl⟩ | ⟨h1, -⟩)
            · exact .inr ⟨hb, a, ha, .inr hab, hl⟩
            · exact absurd h1 ha
          · rintro (⟨h1, -⟩ | ⟨-, m, hm, hzm, hl⟩)
            · exact absurd hb h1
            · have hma : m = a := by
                rcases hzm with hzm | hzm
                · have := leaf_edge hb hab hzm (.inr rfl) (.inl rfl)
                  simp only [Prod.mk.injEq] at this
                  exact absurd this.1.1 this.2
                · have := (leaf_edge hb hab hzm (.inr rfl) (.inr rfl)).1
                  simp only [Prod.mk.injEq] at this
                  exact this.1.symm
              exact .inl ⟨ha, hma ▸ hl⟩
        · have hab' : (a, b) ∈ g'.edges := by
            rw [hed, List.mem_filter]
            simp [hn, hends.1, hends.2, ha, hb, hab]
          constructor
          · rintro (⟨-, hl⟩ | ⟨h1, -⟩)
            · exact .inl ⟨hb, hl.trans (.of_mem hab')⟩
            · exact absurd h1 ha
          · rintro (⟨-, hl⟩ | ⟨h1, -⟩)
            · exact .inl ⟨ha, hl.trans (Linked.of_mem hab').symm⟩
            · exact absurd h1 hb
    have hinv : ∀ a b, Linked g.edges a b → (P a ↔ P b) := by
      intro a b hab
      induction hab with
      | rel a b hab => exact hedge a b hab
      | refl a => exact Iff.rfl
      | symm a b _ ih => exact ih.symm
      | trans a b c _ _ h1 h2 => exact h1.trans h2
    have hPx : P x := .inl ⟨((hn x).1 hx).2, .refl _ _⟩
    rcases (hinv x y hl).1 hPx with ⟨-, h1⟩ | ⟨h1, -⟩
    · exact h1
    · exact absurd h1 ((hn y).1 hy).2

/-- A graph without leaf is left alone. -/
theorem removeLeaves_none {g : Graph V A} (h : g.WF) (hl : ∀ n ∈ g.nodes, degreeSpec g n ≠ 1) : removeLeaves g = (g, .ok ()) := by
  have key : ∀ l : Dict V (Attrs A), (∀ q ∈ l, g.degree q.1 ≠ 1) →
      nodesToDrop (fun n _ => .ok (decide (g.degree n ≠ 1))) l = .ok [] := by
    intro l hl
    induction l with
    | nil => rfl
    | cons q l ih =>
      obtain ⟨n, a⟩ := q
      have h1 := hl _ (List.mem_cons_self ..)
      simp only at h1
      simp only [nodesToDrop, ih (fun q hq => hl q (by simp [hq])), decide_eq_true h1, if_true]
  unfold removeLeaves removeNodes
  rw [key g.node (fun q hq => by rw [degree_eq h]; exact hl q.1 (List.mem_map_of_mem hq))]
  rfl

theorem removeLeavesTimes_none {g : Graph V A} (h : removeLeaves g = (g, .ok ())) (k : Nat) :
    removeLeavesTimes k g = (g, .ok ()) := by
  induction k with
  | zero => rfl
  | succ k ih => simp only [removeLeavesTimes, h, ih]

theorem inCore_of_two {g : Graph V A} (h : g.WF) (hl : ∀ n ∈ g.nodes, degreeSpec g n ≠ 1) {n : V} (hn : 1 ≤ degreeSpec g n) :
    g.InCore n := by
  classical
  refine ⟨{m | 1 ≤ degreeSpec g m}, hn, fun m hm => ?_⟩
  have hall : ∀ e ∈ g.edges, 1 ≤ degreeSpec g e.1 ∧ 1 ≤ degreeSpec g e.2 := by
    intro e he
    have h1 : endsAtNode e.1 e ≤ degreeSpec g e.1 := sum_ge_of_mem (endsAtNode e.1) he
    have h2 : endsAtNode e.2 e ≤ degreeSpec g e.2 := sum_ge_of_mem (endsAtNode e.2) he
    simp only [endsAtNode, if_true] at h1 h2
    exact ⟨by omega, by omega⟩
  have : g.degreeWithin {m | 1 ≤ degreeSpec g m} m = degreeSpec g m := by
    unfold degreeWithin
    rw [List.filter_eq_self.2]
    · rfl
    · intro e he
      exact @decide_eq_true _ (_) (hall e he)
  rw [this]
  obtain ⟨e, he, hem⟩ := degreeSpec_pos_mem (n := m) hm
  have := hl m (by rcases hem with rfl | rfl <;> [exact (edges_ends h he).1; exact (edges_ends h he).2])
  have : 1 ≤ degreeSpec g m := hm
  omega

theorem inCore_mem {g : Graph V A} (h : g.WF) {n : V} (hn : g.InCore n) : n ∈ g.nodes := by
  obtain ⟨S, hS, hd⟩ := hn
  have := (hd n hS).trans (degreeWithin_le g S n)
  obtain ⟨e, he, hem⟩ := degreeSpec_pos_mem (g := g) (n := n) (by omega)
  rcases hem with rfl | rfl <;> [exact (edges_ends h he).1; exact (edges_ends h he).2]

/-- C91.  The core is itself such a set, the largest one. -/
theorem inCore_largest {g : Graph V A} {m : V} (hm : g.InCore m) : 2 ≤ g.degreeWithin {n | g.InCore n} m := by
  classical
  obtain ⟨S, hS, hd⟩ := hm
  refine (hd m hS).trans ?_
  have hsub : ∀ x ∈ S, g.InCore x := fun x hx => ⟨S, hx, hd⟩
  unfold degreeWithin
  have : (g.edges.filter (fun e => decide (e.1 ∈ S ∧ e.2 ∈ S))) =
      (g.edges.filter (fun e => decide (e.1 ∈ {n | g.InCore n} ∧ e.2 ∈ {n | g.InCore n}))).filter
        (fun e => decide (e.1 ∈ S ∧ e.2 ∈ S)) := by
    rw [List.filter_filter]
    apply List.filter_congr
    intro e _
    by_cases hs : e.1 ∈ S ∧ e.2 ∈ S
    · rw [decide_eq_true hs, @decide_eq_true (e.1 ∈ {n | g.InCore n} ∧ e.2 ∈ {n | g.InCore n}) _ ⟨hsub _ hs.1, hsub _ hs.2⟩]; rfl
    · rw [decide_eq_false hs]; rfl
  refine le_trans (le_of_eq ?_) (sum_filter_le _ (fun e => decide (e.1 ∈ S ∧ e.2 ∈ S)) _)
  congr 2

/-- C91.  Calling `remove_leaves` as many times as there are nodes, or more, never raises.  The graph left has the edges of
the original between nodes of the core, as they were and in the same order; it has the nodes of the core and some others,
which have degree 0; no node has degree 1, another call changes nothing; two of its nodes are linked exactly when they were. -/
theorem removeLeaves_core {g : Graph V A} (h : g.WF) {k : Nat} (hk : g.nodes.length ≤ k) :
    ∃ g', removeLeavesTimes k g = (g', .ok ()) ∧ g'.WF ∧ g'.directed = g.directed ∧ g'.multi = g.multi ∧ g'.attrs = g.attrs ∧
      g'.node <+ g.node ∧ (∀ n, g.InCore n → n ∈ g'.nodes) ∧ (∀ n, g.InCore n ∨ degreeSpec g' n = 0) ∧
      g'.edgesKeys <+ g.edgesKeys ∧ (∀ e, e ∈ g'.edgesKeys ↔ e ∈ g.edgesKeys ∧ g.InCore e.1 ∧ g.InCore e.2.1) ∧
      (∀ n ∈ g'.nodes, degreeSpec g' n ≠ 1) ∧ removeLeaves g' = (g', .ok ()) ∧
      ∀ x ∈ g'.nodes, ∀ y ∈ g'.nodes, Linked g'.edges x y ↔ Linked g.edges x y := by
  induction k generalizing g with
  | zero =>
    have h0 : g.nodes = [] := List.length_eq_zero_iff.1 (by omega)
    have hl : ∀ n ∈ g.nodes, degreeSpec g n ≠ 1 := by rw [h0]; simp
    have hnone := removeLeaves_none h hl
    refine ⟨g, rfl, h, rfl, rfl, rfl, List.Sublist.refl _, fun n hn => inCore_mem h hn, fun n => ?_, List.Sublist.refl _, ?_, hl,
      hnone, fun _ _ _ _ => Iff.rfl⟩
    · by_cases hn : 1 ≤ degreeSpec g n
      · exact .inl (inCore_of_two h hl hn)
      · exact .inr (by omega)
    · intro e
      refine ⟨fun he => ?_, fun he => he.1⟩
      have := (edges_ends h (e := (e.1, e.2.1)) (List.mem_map.2 ⟨e, he, rfl⟩)).1
      rw [h0] at this
      simp at this
  | succ k ih =>
    by_cases hl : ∀ n ∈ g.nodes, degreeSpec g n ≠ 1
    · have hnone := removeLeaves_none h hl
      refine ⟨g, removeLeavesTimes_none hnone _, h, rfl, rfl, rfl, List.Sublist.refl _, fun n hn => inCore_mem h hn, fun n => ?_,
        List.Sublist.refl _, ?_, hl, hnone, fun _ _ _ _ => Iff.rfl⟩
      · by_cases hn : 1 ≤ degreeSpec g n
        · exact .inl (inCore_of_two h hl hn)
        · exact .inr (by omega)
      · intro e
        refine ⟨fun he => ⟨he, ?_⟩, fun he => he.1⟩
        have he' : (e.1, e.2.1) ∈ g.edges := List.mem_map.2 ⟨e, he, rfl⟩
        have h1 : endsAtNode e.1 (e.1, e.2.1) ≤ degreeSpec g e.1 := sum_ge_of_mem (endsAtNode e.1) he'
        have h2 : endsAtNode e.2.1 (e.1, e.2.1) ≤ degreeSpec g e.2.1 := sum_ge_of_mem (endsAtNode e.2.1) he'
        simp only [endsAtNode, if_true] at h1 h2
        exact ⟨inCore_of_two h hl (by omega), inCore_of_two h hl (by omega)⟩
    · push Not at hl
      obtain ⟨leaf, hleaf, hleaf1⟩ := hl
      obtain ⟨g₁, a1, a2, a3, a4, a5, a6, a7, a8⟩ := removeLeaves_step h
      have hlen : g₁.nodes.length ≤ k := by
        have hsub : g₁.nodes <+ g.nodes := a6.map _
        have : g₁.nodes.length < g.nodes.length := by
          refine lt_of_le_of_ne hsub.length_le (fun hc => ?_)
          have := hsub.eq_of_length hc
          rw [← this] at hleaf
          exact ((a7 leaf).1 hleaf).2 hleaf1
        omega
      have hcore := inCore_step h a7 a8
      obtain ⟨g', b1, b2, b3, b4, b5, b6, b7, b8, b9, b10, b11, b12, b13⟩ := ih a2 hlen
      have hsub : g₁.edgesKeys <+ g.edgesKeys := by rw [a8]; exact List.filter_sublist
      refine ⟨g', by simp only [removeLeavesTimes, a1, b1], b2, b3.trans a3, b4.trans a4, b5.trans a5, b6.trans a6,
        fun n hn => b7 n ((hcore n).2 hn), fun n => (b8 n).imp_left (hcore n).1, b9.trans hsub, ?_, b11, b12, ?_⟩
      · intro e
        rw [b10, hcore, hcore]
        constructor
        · rintro ⟨h1, h2⟩; exact ⟨hsub.subset h1, h2⟩
        · rintro ⟨h1, h2, h3⟩
          refine ⟨?_, h2, h3⟩
          rw [a8, List.mem_filter]
          simp [h1, inCore_mem a2 ((hcore _).2 h2), inCore_mem a2 ((hcore _).2 h3)]
      · intro x hx y hy
        have hm : ∀ z ∈ g'.nodes, z ∈ g₁.nodes := fun z hz => (b6.map _).subset hz
        exact (b13 x hx y hy).trans (linked_step a7 h a8 (hm x hx) (hm y hy))

/-- A node of a triangle is in the core. -/
theorem inCore_triangle {g : Graph V A} {a b c : V} (hab : a ≠ b) (hbc : b ≠ c) (hac : a ≠ c)
    (e1 : (a, b) ∈ g.edges ∨ (b, a) ∈ g.edges) (e2 : (b, c) ∈ g.edges ∨ (c, b) ∈ g.edges)
    (e3 : (a, c) ∈ g.edges ∨ (c, a) ∈ g.edges) : g.InCore a := by
  classical
  have two : ∀ (S : Set V) (n p q : V), n ∈ S → p ∈ S → q ∈ S → n ≠ p → n ≠ q → p ≠ q →
      ((n, p) ∈ g.edges ∨ (p, n) ∈ g.edges) → ((n, q) ∈ g.edges ∨ (q, n) ∈ g.edges) → 2 ≤ g.degreeWithin S n := by
    intro S n p q hn hp hq hnp hnq hpq h1 h2
    have key : ∀ e e' : V × V, e ∈ g.edges → e' ∈ g.edges → (e.1 ∈ S ∧ e.2 ∈ S) → (e'.1 ∈ S ∧ e'.2 ∈ S) → e ≠ e' →
        1 ≤ endsAtNode n e → 1 ≤ endsAtNode n e' → 2 ≤ g.degreeWithin S n := by
      intro e e' he he' hs hs' hne k1 k2
      have := sum_ge_two (endsAtNode n) (l := g.edges.filter (fun e => decide (e.1 ∈ S ∧ e.2 ∈ S)))
        (List.mem_filter.2 ⟨he, decide_eq_true hs⟩) (List.mem_filter.2 ⟨he', decide_eq_true hs'⟩) hne
      have h3 : ((g.edges.filter (fun e => decide (e.1 ∈ S ∧ e.2 ∈ S))).map (endsAtNode n)).sum = g.degreeWithin S n := rfl
      omega
    rcases h1 with h1 | h1 <;> rcases h2 with h2 | h2
    · exact key _ _ h1 h2 ⟨hn, hp⟩ ⟨hn, hq⟩ (by simp [hpq]) (by simp [endsAtNode]) (by simp [endsAtNode])
    · exact key _ _ h1 h2 ⟨hn, hp⟩ ⟨hq, hn⟩ (by simp [hnq]) (by simp [endsAtNode]) (by simp [endsAtNode])
    · exact key _ _ h1 h2 ⟨hp, hn⟩ ⟨hn, hq⟩ (by simp [hnq]) (by simp [endsAtNode]) (by simp [endsAtNode])
    · exact key _ _ h1 h2 ⟨hp, hn⟩ ⟨hq, hn⟩ (by simp [hpq]) (by simp [endsAtNode]) (by simp [endsAtNode])
  refine ⟨{a, b, c}, by simp, ?_⟩
  rintro m (rfl | rfl | rfl)
  · exact two _ m b c (by simp) (by simp) (by simp) hab hac hbc e1 e3
  · exact two _ m a c (by simp) (by simp) (by simp) hab.symm hbc hac e1.symm e2
  · exact two _ m a b (by simp) (by simp) (by simp) hac.symm hbc.symm hab e3.symm e2.symm

/-- C91.  However few the calls, none takes away an edge of the original lying between nodes of the core. -/
theorem removeLeavesTimes_keeps {g : Graph V A} (h : g.WF) (k : Nat) :
    ∃ g', removeLeavesTimes k g = (g', .ok ()) ∧ g'.WF ∧ (∀ n, g.InCore n → n ∈ g'.nodes) ∧
      ∀ e ∈ g.edgesKeys, g.InCore e.1 → g.InCore e.2.1 → e ∈ g'.edgesKeys := by
  induction k generalizing g with
  | zero => exact ⟨g, rfl, h, fun n hn => inCore_mem h hn, fun e he _ _ => he⟩
  | succ k ih =>
    obtain ⟨g₁, a1, a2, -, -, -, -, a7, a8⟩ := removeLeaves_step h
    have hcore := inCore_step h a7 a8
    obtain ⟨g', b1, b2, b3, b4⟩ := ih a2
    refine ⟨g', by simp only [removeLeavesTimes, a1, b1], b2, fun n hn => b3 n ((hcore n).2 hn), fun e he h1 h2 => ?_⟩
    refine b4 e ?_ ((hcore _).2 h1) ((hcore _).2 h2)
    rw [a8, List.mem_filter]
    simp [he, inCore_mem a2 ((hcore _).2 h1), inCore_mem a2 ((hcore _).2 h2)]

/-- C91.  No triangle is lost, whatever the number of calls. -/
theorem removeLeavesTimes_keeps_triangles {g : Graph V A} (h : g.WF) {a b c : V} (hab : a ≠ b) (hbc : b ≠ c) (hac : a ≠ c)
    (e1 : (a, b) ∈ g.edges ∨ (b, a) ∈ g.edges) (e2 : (b, c) ∈ g.edges ∨ (c, b) ∈ g.edges)
    (e3 : (a, c) ∈ g.edges ∨ (c, a) ∈ g.edges) (k : Nat) :
    ∃ g', removeLeavesTimes k g = (g', .ok ()) ∧ ((a, b) ∈ g'.edges ∨ (b, a) ∈ g'.edges) ∧
      ((b, c) ∈ g'.edges ∨ (c, b) ∈ g'.edges) ∧ ((a, c) ∈ g'.edges ∨ (c, a) ∈ g'.edges) := by
  obtain ⟨g', a1, -, -, a4⟩ := removeLeavesTimes_keeps h k
  have ha := inCore_triangle hab hbc hac e1 e2 e3
  have hb := inCore_triangle hab.symm hac hbc e1.symm e3 e2
  have hc := inCore_triangle hac.symm hab hbc.symm e3.symm e1 e2.symm
  have keep : ∀ x y, g.InCore x → g.InCore y → (x, y) ∈ g.edges → (x, y) ∈ g'.edges := by
    intro x y hx hy hxy
    obtain ⟨e, he, hxe⟩ := List.mem_map.1 hxy
    obtain ⟨rfl, rfl⟩ := Prod.mk.inj hxe
    exact List.mem_map.2 ⟨e, a4 e he hx hy, rfl⟩
  exact ⟨g', a1, e1.imp (keep _ _ ha hb) (keep _ _ hb ha), e2.imp (keep _ _ hb hc) (keep _ _ hc hb),
    e3.imp (keep _ _ ha hc) (keep _ _ hc ha)⟩

/-- A triangle `1 2 3` with a tail `3 - 4 - 5`, a path `6 - 7 - 8`, and an edge `9 - 10`. -/
def tailedTriangle : Graph Int Int where
  directed := false
  multi := false
  attrs := []
  node := [(1, []), (2, []), (3, []), (4, []), (5, []), (6, []), (7, []), (8, []), (9, []), (10, [])]
  links := [⟨1, 2, [(.int 0, [])]⟩, ⟨2, 3, [(.int 0, [])]⟩, ⟨1, 3, [(.int 0, [])]⟩, ⟨3, 4, [(.int 0, [])]⟩,
    ⟨4, 5, [(.int 0, [])]⟩, ⟨6, 7, [(.int 0, [])]⟩, ⟨7, 8, [(.int 0, [])]⟩, ⟨9, 10, [(.int 0, [])]⟩]

/-- The hypothesis of `removeLeaves_core` is met; the first call leaves a tail, the second none; the middle of the path stays
as an isolated node, both ends of the single edge go. -/
theorem tailedTriangle_sample : tailedTriangle.WF ∧ (removeLeavesTimes 1 tailedTriangle).1.nodes = [1, 2, 3, 4, 7] ∧
    (removeLeavesTimes 10 tailedTriangle).1.nodes = [1, 2, 3, 7] ∧
    (removeLeavesTimes 10 tailedTriangle).1.edges = [(1, 2), (1, 3), (2, 3)] := by
  refine ⟨by constructor <;> decide, by decide +kernel, by decide +kernel, by decide +kernel⟩

end Pelote
