import Verif.Props.Leaves
import Verif.Props.AddEdge
import Verif.Props.HeavyPaths

/-! C122: triangles and maximum spanning trees of a graph without its leaves. -/
set_option linter.unusedSectionVars false
namespace Pelote
open Graph
open scoped List

section
variable {V A : Type} [DecidableEq V] {g g' : Graph V A}

/-- The links made by some of the edges, without the leaves. -/
theorem linked_step_sub (hn : ∀ n, n ∈ g'.nodes ↔ n ∈ g.nodes ∧ degreeSpec g n ≠ 1) (h : g.WF) {L L' : List (V × V)}
    (hL : ∀ p ∈ L, p ∈ g.edges) (hL' : ∀ p, p ∈ L' ↔ p ∈ L ∧ p.1 ∈ g'.nodes ∧ p.2 ∈ g'.nodes)
    {x y : V} (hx : x ∈ g'.nodes) (hy : y ∈ g'.nodes) : Linked L' x y ↔ Linked L x y := by
  constructor
  · apply Relation.EqvGen.mono
    intro a b hab
    exact ((hL' (a, b)).1 hab).1
  · intro hl
    -- leaves share the fate of the node they hang from
    let P : V → Prop := fun z => (degreeSpec g z ≠ 1 ∧ Linked L' x z) ∨
      (degreeSpec g z = 1 ∧ ∃ m, degreeSpec g m ≠ 1 ∧ ((z, m) ∈ L ∨ (m, z) ∈ L) ∧ Linked L' x m)
    have hedge : ∀ a b, (a, b) ∈ L → (P a ↔ P b) := by
      intro a b hab
      have hends := edges_ends h (hL _ hab)
      simp only at hends
      by_cases ha : degreeSpec g a = 1
      · by_cases hb : degreeSpec g b = 1
        · have no : ∀ z w, (a, b) ∈ L → degreeSpec g z = 1 → (z = a ∧ w = b ∨ z = b ∧ w = a) → ¬ P z := by
            rintro z w _ hz hzw (⟨h1, -⟩ | ⟨-, m, hm, hzm, -⟩)
            · exact h1 hz
            · have hm' : m = a ∨ m = b := by
                rcases hzm with hzm | hzm
                · have := (leaf_edge hz (hL _ hab) (hL _ hzm) (by rcases hzw with ⟨rfl, -⟩ | ⟨rfl, -⟩ <;> simp) (.inl rfl)).1
                  simp only [Prod.mk.injEq] at this
                  exact .inr this.2.symm
                · have := (leaf_edge hz (hL _ hab) (hL _ hzm) (by rcases hzw with ⟨rfl, -⟩ | ⟨rfl, -⟩ <;> simp) (.inr rfl)).1
                  simp only [Prod.mk.injEq] at this
                  exact .inl this.1.symm
              rcases hm' with rfl | rfl
              · exact hm ha
              · exact hm hb
          exact iff_of_false (no a b hab ha (.inl ⟨rfl, rfl⟩)) (no b a hab hb (.inr ⟨rfl, rfl⟩))
        · constructor
          · rintro (⟨h1, -⟩ | ⟨-, m, hm, hzm, hl⟩)
            · exact absurd ha h1
            · have hmb : m = b := by
                rcases hzm with hzm | hzm
                · have := (leaf_edge ha (hL _ hab) (hL _ hzm) (.inl rfl) (.inl rfl)).1
                  simp only [Prod.mk.injEq] at this
                  exact this.2.symm
                · have := leaf_edge ha (hL _ hab) (hL _ hzm) (.inl rfl) (.inr rfl)
                  simp only [Prod.mk.injEq] at this
                  exact absurd this.1.2.symm this.2
              exact .inl ⟨hb, hmb ▸ hl⟩
          · rintro (⟨-, hl⟩ | ⟨h1, -⟩)
            · exact .inr ⟨ha, b, hb, .inl hab, hl⟩
            · exact absurd h1 hb
      · by_cases hb : degreeSpec g b = 1
        · constructor
          · rintro (⟨-, hl⟩ | ⟨h1, -⟩)
            · exact .inr ⟨hb, a, ha, .inr hab, hl⟩
            · exact absurd h1 ha
          · rintro (⟨h1, -⟩ | ⟨-, m, hm, hzm, hl⟩)
            · exact absurd hb h1
            · have hma : m = a := by
                rcases hzm with hzm | hzm
                · have := leaf_edge hb (hL _ hab) (hL _ hzm) (.inr rfl) (.inl rfl)
                  simp only [Prod.mk.injEq] at this
                  exact absurd this.1.1 this.2
                · have := (leaf_edge hb (hL _ hab) (hL _ hzm) (.inr rfl) (.inr rfl)).1
                  simp only [Prod.mk.injEq] at this
                  exact this.1.symm
              exact .inl ⟨ha, hma ▸ hl⟩
        · have hab' : (a, b) ∈ L' := by
            rw [hL']
            simp [hn, hends.1, hends.2, ha, hb, hab]
          constructor
          · rintro (⟨-, hl⟩ | ⟨h1, -⟩)
            · exact .inl ⟨hb, hl.trans (.of_mem hab')⟩
            · exact absurd h1 ha
          · rintro (⟨-, hl⟩ | ⟨h1, -⟩)
            · exact .inl ⟨ha, hl.trans (Linked.of_mem hab').symm⟩
            · exact absurd h1 hb
    have hinv : ∀ a b, Linked L a b → (P a ↔ P b) := by
      intro a b hab
      induction hab with
      | rel a b hab => exact hedge a b hab
      | refl a => exact Iff.rfl
      | symm a b _ ih => exact ih.symm
      | trans a b c _ _ h1 h2 => exact h1.trans h2
    have hPx : P x := .inl ⟨((hn x).1 hx).2, .refl _ _⟩
    rcases (hinv x y hl).1 hPx with ⟨-, h1⟩ | ⟨h1, -⟩
    · exact h1
    · exact absurd h1 ((hn y).1 hy).2


theorem listed_adjacent (h : g.WF) {x y : V} : (x, y) ∈ g.edges ∨ (y, x) ∈ g.edges ↔ g.Adjacent x y := by
  unfold Graph.Adjacent
  rw [hasEdge_listed h, hasEdge_listed h]
  tauto

/-- The triangles of a graph are left by one call. -/
theorem isTriangle_step (h : g.WF) (h' : g'.WF) (hn : ∀ n, n ∈ g'.nodes ↔ n ∈ g.nodes ∧ degreeSpec g n ≠ 1)
    (he : g'.edgesKeys = g.edgesKeys.filter (fun e => decide (e.1 ∈ g'.nodes) && decide (e.2.1 ∈ g'.nodes))) (s : Finset V) :
    g'.IsTriangle s ↔ g.IsTriangle s := by
  have hed := edges_of_keys (p := fun n => n ∈ g'.nodes) he
  have hadj : ∀ x y, g'.Adjacent x y ↔ g.Adjacent x y ∧ x ∈ g'.nodes ∧ y ∈ g'.nodes := by
    intro x y
    rw [← listed_adjacent h, ← listed_adjacent h', hed]
    simp only [List.mem_filter, Bool.and_eq_true, decide_eq_true_eq]
    tauto
  constructor
  · rintro ⟨a, b, c, h1, h2, h3, h4, h5, h6, rfl⟩
    exact ⟨a, b, c, h1, h2, h3, ((hadj _ _).1 h4).1, ((hadj _ _).1 h5).1, ((hadj _ _).1 h6).1, rfl⟩
  · rintro ⟨a, b, c, h1, h2, h3, h4, h5, h6, rfl⟩
    have e1 := (listed_adjacent h).2 h4
    have e2 := (listed_adjacent h).2 h5
    have e3 := (listed_adjacent h).2 h6
    have core := inCore_step h hn he
    have ha := inCore_mem h' ((core a).2 (inCore_triangle h1 h2 h3 e1 e2 e3))
    have hb := inCore_mem h' ((core b).2 (inCore_triangle h1.symm h3 h2 e1.symm e3 e2))
    have hc := inCore_mem h' ((core c).2 (inCore_triangle h2.symm h1.symm h3.symm e2.symm e1.symm e3.symm))
    exact ⟨a, b, c, h1, h2, h3, (hadj _ _).2 ⟨h4, ha, hb⟩, (hadj _ _).2 ⟨h5, hb, hc⟩, (hadj _ _).2 ⟨h6, ha, hc⟩, rfl⟩

/-- C122.  However many times leaves are removed, the triangles are the same. -/
theorem removeLeavesTimes_triangles (h : g.WF) (k : Nat) :
    ∃ g', removeLeavesTimes k g = (g', .ok ()) ∧ g'.WF ∧ (∀ n ∈ g'.nodes, n ∈ g.nodes) ∧
      (∀ x y, g'.Adjacent x y ↔ g.Adjacent x y ∧ x ∈ g'.nodes ∧ y ∈ g'.nodes) ∧ ∀ s, g'.IsTriangle s ↔ g.IsTriangle s := by
  induction k generalizing g with
  | zero =>
    refine ⟨g, rfl, h, fun _ hn => hn, fun x y => ⟨fun ha => ⟨ha, ?_⟩, fun ha => ha.1⟩, fun _ => Iff.rfl⟩
    rcases (listed_adjacent h).2 ha with he | he
    · exact edges_ends h he
    · exact (edges_ends h he).symm
  | succ k ih =>
    obtain ⟨g₁, a1, a2, -, -, -, -, a7, a8⟩ := removeLeaves_step h
    obtain ⟨g', b1, b2, b3, b4, b5⟩ := ih a2
    refine ⟨g', by simp only [removeLeavesTimes, a1, b1], b2, fun n hn => ((a7 n).1 (b3 n hn)).1, fun x y => ?_,
      fun s => (b5 s).trans (isTriangle_step h a2 a7 a8 s)⟩
    rw [b4, ← listed_adjacent h, ← listed_adjacent a2, edges_of_keys (p := fun n => n ∈ g₁.nodes) a8]
    simp only [List.mem_filter, Bool.and_eq_true, decide_eq_true_eq]
    constructor
    · tauto
    · rintro ⟨h1, h2, h3⟩
      have := b3 x h2
      have := b3 y h3
      tauto

end

section
variable {V A : Type} [LinearOrder V] [PyOrd V] {g : Graph V A}

/-- C122.  However many times leaves are removed, `triangular_strength` is the same without `full`; with `full`, only the entries of the
edges of the nodes that are removed go, which are all 0. -/
theorem removeLeavesTimes_strength (ho : OrderedKeys V) (h : g.WF) (k : Nat) :
    ∃ g', removeLeavesTimes k g = (g', .ok ()) ∧
      (∃ d d', triangularStrength g false = .ok d ∧ triangularStrength g' false = .ok d' ∧ ∀ p, d'.get? p = d.get? p) ∧
      ∃ d d', triangularStrength g true = .ok d ∧ triangularStrength g' true = .ok d' ∧
        (∀ p, p.1 ∈ g'.nodes → p.2 ∈ g'.nodes → d'.get? p = d.get? p) ∧
        ∀ p, ¬ (p.1 ∈ g'.nodes ∧ p.2 ∈ g'.nodes) → d'.get? p = none ∧ (d.get? p = none ∨ d.get? p = some 0) := by
  obtain ⟨g', a1, a2, -, a4, a5⟩ := removeLeavesTimes_triangles h k
  have hs : ∀ x y, g'.strength x y = g.strength x y := by
    intro x y
    unfold Graph.strength
    simp only [a5]
  obtain ⟨d, h1, -, h2⟩ := triangularStrength_exact ho h false
  obtain ⟨d', h1', -, h2'⟩ := triangularStrength_exact ho a2 false
  obtain ⟨f, k1, -, k2⟩ := triangularStrength_exact ho h true
  obtain ⟨f', k1', -, k2'⟩ := triangularStrength_exact ho a2 true
  have hpos : ∀ {x y}, 0 < g.strength x y → x ∈ g'.nodes ∧ y ∈ g'.nodes := by
    intro x y hp
    rw [← hs] at hp
    exact ((a4 x y).1 (strength_pos_adjacent hp).2).2
  refine ⟨g', a1, ⟨d, d', h1, h1', ?_⟩, f, f', k1, k1', ?_, ?_⟩
  · rintro ⟨x, y⟩
    refine Option.ext fun n => ?_
    rw [h2, h2', hs]
    simp
  · rintro ⟨x, y⟩ hx hy
    refine Option.ext fun n => ?_
    rw [k2, k2', hs, a4]
    simp only at hx hy
    tauto
  · rintro ⟨x, y⟩ hxy
    simp only at hxy
    have hz : g.strength x y = 0 := by
      by_contra hc
      exact hxy (hpos (Nat.pos_of_ne_zero hc))
    constructor
    · rw [Option.eq_none_iff_forall_ne_some]
      intro n hn
      obtain ⟨-, ⟨-, hc⟩ | hc, -⟩ := (k2' x y n).1 hn
      · exact hxy ((a4 x y).1 hc).2
      · rw [hs, hz] at hc
        omega
    · cases hf : f.get? (x, y) with
      | none => exact .inl rfl
      | some n =>
        right
        rw [((k2 x y n).1 hf).2.2, hz]

end

section
variable {V K : Type} [DecidableEq V] [Field K] [LinearOrder K] [IsStrictOrderedRing K] {g : Graph V (Val K)}

/-- The edges that touch a leaf are one edge. -/
theorem leaf_edge_data {n : V} (hn : degreeSpec g n = 1) {e e' : V × V × Attrs (Val K)} (he : e ∈ g.edgesData) (he' : e' ∈ g.edgesData)
    (h1 : e.1 = n ∨ e.2.1 = n) (h2 : e'.1 = n ∨ e'.2.1 = n) : e = e' := by
  by_contra hc
  have f1 : 1 ≤ endsAtNode n (e.1, e.2.1) := by unfold endsAtNode; rcases h1 with h | h <;> simp [h]
  have f2 : 1 ≤ endsAtNode n (e'.1, e'.2.1) := by unfold endsAtNode; rcases h2 with h | h <;> simp [h]
  have h3 := sum_ge_two (fun e : V × V × Attrs (Val K) => endsAtNode n (e.1, e.2.1)) he he' hc
  have h4 : (g.edgesData.map (fun e => endsAtNode n (e.1, e.2.1))).sum = degreeSpec g n := by
    unfold degreeSpec Graph.edges Graph.edgesData
    rw [List.map_map, List.map_map]
    rfl
  omega

open Classical in
/-- C122.  On graphs of any kind whose weights are equal or more than `1e-8` apart, the edges of the maximum spanning trees are those of
the graph without its leaves, and all the edges of the leaves. -/
theorem removeLeaves_umst {ulongMax : Nat} (hu : 2^32 - 1 ≤ ulongMax) (h : g.WF) {attr : String}
    (hw : ∀ e ∈ g.edgesData, ∃ w, HasWeight attr e.2.2 w)
    (hsep : ∀ e ∈ g.edgesData, ∀ e' ∈ g.edgesData, ∀ w w', HasWeight attr e.2.2 w → HasWeight attr e'.2.2 w' →
      w = w' ∨ 1 / 10 ^ 8 < |w - w'|) (hord : SafeOrder ulongMax g.order) :
    ∃ g', removeLeaves g = (g', .ok ()) ∧ (SafeOrder ulongMax g'.order → ∀ x y,
      (∃ c, (x, y, c) ∈ (unionOfMaximumSpanningTrees ulongMax g attr).yields) ↔
        (∃ c, (x, y, c) ∈ (unionOfMaximumSpanningTrees ulongMax g' attr).yields) ∨
          (x, y) ∈ g.edges ∧ (degreeSpec g x = 1 ∨ degreeSpec g y = 1)) := by
  obtain ⟨g', a1, a2, -, -, -, -, a7, a8⟩ := removeLeaves_step h
  refine ⟨g', a1, fun hord' x y => ?_⟩
  have hdata : ∀ x y c, (x, y, c) ∈ g'.edgesData ↔ (x, y, c) ∈ g.edgesData ∧ x ∈ g'.nodes ∧ y ∈ g'.nodes := by
    intro x y c
    unfold Graph.edgesData
    rw [a8]
    simp only [List.mem_map, List.mem_filter, Bool.and_eq_true, decide_eq_true_eq, Prod.mk.injEq]
    constructor
    · rintro ⟨e, ⟨e1, e2, e3⟩, rfl, rfl, rfl⟩
      exact ⟨⟨e, e1, rfl, rfl, rfl⟩, e2, e3⟩
    · rintro ⟨⟨e, e1, rfl, rfl, rfl⟩, e2, e3⟩
      exact ⟨e, ⟨e1, e2, e3⟩, rfl, rfl, rfl⟩
  have hsub : ∀ e ∈ g'.edgesData, e ∈ g.edgesData := fun e he => ((hdata e.1 e.2.1 e.2.2).1 he).1
  obtain ⟨w, hw1⟩ := numeric_weights hw
  obtain ⟨w', hw2⟩ := numeric_weights (g := g') (attr := attr) (fun e he => hw e (hsub e he))
  have s1 : NoNearTies w := fun i j => hsep _ (List.getElem_mem _) _ (List.getElem_mem _) _ _ (hw1 i) (hw1 j)
  have s2 : NoNearTies w' := fun i j =>
    hsep _ (hsub _ (List.getElem_mem _)) _ (hsub _ (List.getElem_mem _)) _ _ (hw2 i) (hw2 j)
  rw [umst_pair_above hu h hw1 s1 hord, umst_pair_above hu a2 hw2 s2 hord']
  have hlink : ∀ t, ∀ x ∈ g'.nodes, ∀ y ∈ g'.nodes, Linked (g'.pairsAbove attr t) x y ↔ Linked (g.pairsAbove attr t) x y := by
    intro t x hx y hy
    refine linked_step_sub a7 h ?_ ?_ hx hy
    · rintro ⟨u, v⟩ huv
      obtain ⟨c, w, h1, -, -⟩ := mem_pairsAbove.1 huv
      rw [edges_eq_data]
      exact List.mem_map.2 ⟨_, h1, rfl⟩
    · rintro ⟨u, v⟩
      rw [mem_pairsAbove, mem_pairsAbove]
      simp only [hdata]
      constructor
      · rintro ⟨c, w, ⟨h1, h2⟩, h3⟩
        exact ⟨⟨c, w, h1, h3⟩, h2⟩
      · rintro ⟨⟨c, w, h1, h3⟩, h2⟩
        exact ⟨c, w, ⟨h1, h2⟩, h3⟩
  have hleaf : ∀ x y c t n, (x, y, c) ∈ g.edgesData → HasWeight attr c t → degreeSpec g n = 1 → (n = x ∨ n = y) →
      ¬ Linked (g.pairsAbove attr t) x y := by
    intro x y c t n hm ht hd hxy hl
    have hno : ∀ u v, (u, v) ∈ g.pairsAbove attr t → u ≠ n ∧ v ≠ n := by
      intro u v huv
      obtain ⟨c', t', h1, h2, h3⟩ := mem_pairsAbove.1 huv
      by_contra hc
      have hc : u = n ∨ v = n := by tauto
      have := leaf_edge_data hd hm h1 (by rcases hxy with rfl | rfl <;> simp) hc
      simp only [Prod.mk.injEq] at this
      obtain ⟨-, -, rfl⟩ := this
      exact absurd (ht.unique h2) h3.ne
    have key : ∀ u v, Linked (g.pairsAbove attr t) u v → (u = n ↔ v = n) := by
      intro u v hl
      induction hl with
      | rel u v huv => exact ⟨fun e => absurd e (hno u v huv).1, fun e => absurd e (hno u v huv).2⟩
      | refl => exact Iff.rfl
      | symm _ _ _ ih => exact ih.symm
      | trans _ _ _ _ _ ih1 ih2 => exact ih1.trans ih2
    have hne : x ≠ y := by
      have he : (x, y) ∈ g.edges := by
        rw [edges_eq_data]
        exact List.mem_map.2 ⟨_, hm, rfl⟩
      exact (leaf_edge hd he he (by rcases hxy with rfl | rfl <;> simp) (by rcases hxy with rfl | rfl <;> simp)).2
    have := key x y hl
    rcases hxy with rfl | rfl
    · exact hne (this.1 rfl).symm
    · exact hne (this.2 rfl)
  constructor
  · rintro ⟨c, t, h1, h2, h3⟩
    have he : (x, y) ∈ g.edges := by
      rw [edges_eq_data]
      exact List.mem_map.2 ⟨_, h1, rfl⟩
    have hends := edges_ends h he
    by_cases hx : degreeSpec g x = 1
    · exact .inr ⟨he, .inl hx⟩
    by_cases hy : degreeSpec g y = 1
    · exact .inr ⟨he, .inr hy⟩
    have hx' := (a7 x).2 ⟨hends.1, hx⟩
    have hy' := (a7 y).2 ⟨hends.2, hy⟩
    exact .inl ⟨c, t, (hdata x y c).2 ⟨h1, hx', hy'⟩, h2, fun hl => h3 ((hlink t x hx' y hy').1 hl)⟩
  · rintro (⟨c, t, h1, h2, h3⟩ | ⟨he, hd⟩)
    · obtain ⟨h1, hx', hy'⟩ := (hdata x y c).1 h1
      exact ⟨c, t, h1, h2, fun hl => h3 ((hlink t x hx' y hy').2 hl)⟩
    · rw [edges_eq_data] at he
      obtain ⟨⟨x', y', c⟩, hm, hxy⟩ := List.mem_map.1 he
      cases hxy
      obtain ⟨t, ht⟩ := hw _ hm
      refine ⟨c, t, hm, ht, ?_⟩
      rcases hd with hd | hd
      · exact hleaf _ _ c t _ hm ht hd (.inl rfl)
      · exact hleaf _ _ c t _ hm ht hd (.inr rfl)

end

/-- C122, a case: a triangle and a leaf.  The hypotheses are met, the leaf goes, and the edges of the maximum spanning trees are those of
the triangle and the edge of the leaf; the latter has strength 0. -/
theorem removeLeaves_measures_sample :
    kiteGraph.WF ∧ (∀ e ∈ kiteGraph.edgesData, ∃ w, HasWeight "weight" e.2.2 w) ∧
    (∀ e ∈ kiteGraph.edgesData, ∀ e' ∈ kiteGraph.edgesData, ∀ w w', HasWeight "weight" e.2.2 w → HasWeight "weight" e'.2.2 w' →
      w = w' ∨ 1 / 10 ^ 8 < |w - w'|) ∧
    SafeOrder (2^64 - 1) kiteGraph.order ∧ SafeOrder (2^64 - 1) (removeLeaves kiteGraph).1.order ∧
    (removeLeaves kiteGraph).1.nodes = [0, 1, 2] ∧
    (unionOfMaximumSpanningTrees (2^64 - 1) kiteGraph "weight").yields.map (fun e => (e.1, e.2.1)) = [(0, 1), (1, 2), (2, 3)] ∧
    (unionOfMaximumSpanningTrees (2^64 - 1) (removeLeaves kiteGraph).1 "weight").yields.map (fun e => (e.1, e.2.1)) =
      [(0, 1), (1, 2)] ∧
    (match triangularStrength kiteGraph true with | .ok d => some (d.get? (2, 3), d.get? (1, 2)) | .error _ => none) =
      some (some 0, some 1) ∧
    (match triangularStrength (removeLeaves kiteGraph).1 true with | .ok d => some (d.get? (2, 3), d.get? (1, 2)) | .error _ => none) =
      some (none, some 1) := by
  have hv : ∀ e ∈ kiteGraph.edgesData, numWeight "weight" e.2.2 = some 1 ∨ numWeight "weight" e.2.2 = some 2 ∨
      numWeight "weight" e.2.2 = some 3 := by decide +kernel
  have hW : ∀ e ∈ kiteGraph.edgesData, ∀ w, HasWeight "weight" e.2.2 w → w = 1 ∨ w = 2 ∨ w = 3 := by
    intro e he w hw
    rcases hv e he with a | a | a
    · exact .inl (hw.unique (numWeight_hasWeight a))
    · exact .inr (.inl (hw.unique (numWeight_hasWeight a)))
    · exact .inr (.inr (hw.unique (numWeight_hasWeight a)))
  have ho : (removeLeaves kiteGraph).1.order = 3 := by decide +kernel
  have ho' : kiteGraph.order = 4 := rfl
  refine ⟨by constructor <;> decide, ?_, ?_, ?_, ?_, by decide +kernel, by decide +kernel, by decide +kernel, by decide +kernel,
    by decide +kernel⟩
  · intro e he
    rcases hv e he with a | a | a <;> exact ⟨_, numWeight_hasWeight a⟩
  · intro e he e' he' w w' h1 h2
    rcases hW e he w h1 with rfl | rfl | rfl <;> rcases hW e' he' w' h2 with rfl | rfl | rfl <;> norm_num
  · rw [ho']; refine ⟨by norm_num, by norm_num, by norm_num, by norm_num⟩
  · rw [ho]; refine ⟨by norm_num, by norm_num, by norm_num, by norm_num⟩

end Pelote
