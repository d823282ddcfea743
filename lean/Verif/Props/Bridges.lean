import Verif.Props.TrianglesKept
import Verif.Props.AddEdge

/-! C132: an edge that is part of a triangle can be removed without breaking any component. -/
set_option linter.unusedSectionVars false
namespace Pelote
open Graph
open scoped List

/-- The pairs made of the nodes `u` and `v`, in any order. -/
def Between {V : Type} (u v a b : V) : Prop := (a = u ∧ b = v) ∨ (a = v ∧ b = u)

instance {V : Type} [DecidableEq V] (u v a b : V) : Decidable (Between u v a b) := by unfold Between; infer_instance

section
variable {V A : Type}

/-- A triangle around an edge gives a way around it. -/
theorem strength_pos_third [DecidableEq V] {g : Graph V A} {u v : V} (hs : 0 < g.strength u v) :
    u ≠ v ∧ ∃ t, t ≠ u ∧ t ≠ v ∧ g.Adjacent u t ∧ g.Adjacent t v := by
  refine ⟨(strength_pos_adjacent hs).1, ?_⟩
  unfold Graph.strength at hs
  rw [Set.ncard_pos (Set.finite_of_ncard_pos hs)] at hs
  obtain ⟨s, ⟨a, b, c, hab, hbc, hac, k1, k2, k3, rfl⟩, hne, hu, hv⟩ := hs
  simp only [Finset.mem_insert, Finset.mem_singleton] at hu hv
  have sw : ∀ {x y}, g.Adjacent x y → g.Adjacent y x := fun hxy => Or.symm hxy
  rcases hu with rfl | rfl | rfl <;> rcases hv with rfl | rfl | rfl
  · exact absurd rfl hne
  · exact ⟨c, hac.symm, hbc.symm, k3, sw k2⟩
  · exact ⟨b, hab.symm, hbc, k1, k2⟩
  · exact ⟨c, hbc.symm, hac.symm, k2, sw k3⟩
  · exact absurd rfl hne
  · exact ⟨a, hab, hac, sw k1, k3⟩
  · exact ⟨b, hbc, hab.symm, sw k2, sw k1⟩
  · exact ⟨a, hac, hab, sw k3, k1⟩
  · exact absurd rfl hne

variable [DecidableEq V] {g : Graph V A}

/-- Removing all that joins two nodes. -/
theorem removeEdges_between (h : g.WF) (hm : g.multi = false) (u v : V) :
    ∃ g', removeEdges g (fun a b _ => .ok (decide (¬ Between u v a b))) = (g', .ok ()) ∧ g'.WF ∧ g'.directed = g.directed ∧
      g'.nodes = g.nodes ∧ ∀ a b, (a, b) ∈ g'.edges ↔ (a, b) ∈ g.edges ∧ ¬ Between u v a b := by
  obtain ⟨g', h1, h2, h3, -, -, h4, h5⟩ := removeEdges_simple h hm (pred := fun a b _ => .ok (decide (¬ Between u v a b)))
    (p := fun a b _ => decide (¬ Between u v a b)) (fun _ _ => rfl)
  refine ⟨g', h1, h2, h3, by unfold Graph.nodes; rw [h4], ?_⟩
  intro a b
  unfold Graph.edges
  rw [h5]
  simp only [List.mem_map, List.mem_filter, decide_eq_true_eq]
  constructor
  · rintro ⟨⟨x, y, k, c⟩, ⟨h6, h7⟩, e⟩
    cases e
    exact ⟨⟨_, h6, rfl⟩, h7⟩
  · rintro ⟨⟨⟨x, y, k, c⟩, h6, e⟩, h7⟩
    cases e
    exact ⟨_, ⟨h6, h7⟩, rfl⟩

/-- C132, without the strengths: when `u` and `v` have a common neighbor, what joins them can go. -/
theorem between_linked (h : g.WF) {g' : Graph V A} {u v t : V}
    (he : ∀ a b, (a, b) ∈ g'.edges ↔ (a, b) ∈ g.edges ∧ ¬ Between u v a b) (huv : u ≠ v) (hu : t ≠ u) (hv : t ≠ v)
    (h1 : g.Adjacent u t) (h2 : g.Adjacent t v) (x y : V) : Linked g'.edges x y ↔ Linked g.edges x y := by
  have step : ∀ a b, g.Adjacent a b → ¬ Between u v a b → Linked g'.edges a b := by
    intro a b hab hn
    rcases (listed_adjacent h).2 hab with h3 | h3
    · exact Relation.EqvGen.rel _ _ ((he a b).2 ⟨h3, hn⟩)
    · exact Linked.symm (Relation.EqvGen.rel _ _ ((he b a).2 ⟨h3, fun hb => hn (hb.elim (fun p => .inr ⟨p.2, p.1⟩) (fun p => .inl ⟨p.2, p.1⟩))⟩))
  have huv' : Linked g'.edges u v := Linked.trans
    (step u t h1 (by rintro (⟨-, h3⟩ | ⟨h3, -⟩); exacts [hv h3, huv h3]))
    (step t v h2 (by rintro (⟨h3, -⟩ | ⟨h3, -⟩); exacts [hu h3, hv h3]))
  constructor
  · intro hl
    exact Relation.EqvGen.mono (fun a b hab => ((he a b).1 hab).1) _ _ hl
  · intro hl
    induction hl with
    | rel a b hab =>
      by_cases hb : Between u v a b
      · rcases hb with ⟨rfl, rfl⟩ | ⟨rfl, rfl⟩
        · exact huv'
        · exact Linked.symm huv'
      · exact Relation.EqvGen.rel _ _ ((he a b).2 ⟨hab, hb⟩)
    | refl a => exact Linked.refl _ a
    | symm a b _ ih => exact Linked.symm ih
    | trans a b c _ _ i1 i2 => exact Linked.trans i1 i2
end

section
variable {V A : Type} [LinearOrder V] [PyOrd V] {g : Graph V A}

/-- C132.  An edge that `triangular_strength` counts in a triangle can be removed: the nodes linked to each other remain so. -/
theorem strong_edge_removed (ho : OrderedKeys V) (h : g.WF) (hm : g.multi = false) {full : Bool} {d : Dict (V × V) Nat}
    (hd : triangularStrength g full = .ok d) {u v : V} {n : Nat} (hn : d.get? (u, v) = some n) (hpos : 0 < n) :
    ∃ g', removeEdges g (fun a b _ => .ok (decide (¬ Between u v a b))) = (g', .ok ()) ∧ g'.nodes = g.nodes ∧
      g.Adjacent u v ∧ ¬ g'.Adjacent u v ∧ ∀ x y, Linked g'.edges x y ↔ Linked g.edges x y := by
  obtain ⟨d', h1, -, h2⟩ := triangularStrength_exact ho h full
  rw [hd] at h1
  cases h1
  obtain ⟨-, -, rfl⟩ := (h2 u v n).1 hn
  obtain ⟨huv, t, h3, h4, h5, h6⟩ := strength_pos_third hpos
  obtain ⟨g', e1, e2, -, e3, e4⟩ := removeEdges_between h hm u v
  refine ⟨g', e1, e3, (strength_pos_adjacent hpos).2, ?_, between_linked h e4 huv h3 h4 h5 h6⟩
  rw [← listed_adjacent e2, e4, e4]
  rintro (⟨-, h7⟩ | ⟨-, h7⟩)
  · exact h7 (.inl ⟨rfl, rfl⟩)
  · exact h7 (.inr ⟨rfl, rfl⟩)

/-- C132.  So `connected_component_orders` yields the same orders as before. -/
theorem strong_edge_orders (ho : OrderedKeys V) (h : g.WF) (hu : g.directed = false) (hm : g.multi = false) {full : Bool}
    {d : Dict (V × V) Nat} (hd : triangularStrength g full = .ok d) {u v : V} {n : Nat} (hn : d.get? (u, v) = some n)
    (hpos : 0 < n) :
    ∃ g', removeEdges g (fun a b _ => .ok (decide (¬ Between u v a b))) = (g', .ok ()) ∧
      connectedComponentOrders g' none = connectedComponentOrders g none := by
  obtain ⟨g', e1, e2, -, -, e3⟩ := strong_edge_removed ho h hm hd hn hpos
  obtain ⟨g'', f1, f2, f3, -, -⟩ := removeEdges_between h hm u v
  rw [e1] at f1
  cases f1
  refine ⟨g', e1, ?_⟩
  rw [connectedComponentOrders_exact f2 (f3.trans hu), connectedComponentOrders_exact h hu, e2, componentOrders_congr _ e3]

/-- C132, the other way around.  An edge whose removal separates nodes is in no triangle: with `full` it is listed with 0, and it is
not listed without. -/
theorem bridge_strength (ho : OrderedKeys V) (h : g.WF) (hm : g.multi = false) {u v x y : V} (huv : u ≤ v) (hadj : g.Adjacent u v)
    {g' : Graph V A} (hr : removeEdges g (fun a b _ => .ok (decide (¬ Between u v a b))) = (g', .ok ()))
    (hl : Linked g.edges x y) (hl' : ¬ Linked g'.edges x y) (full : Bool) :
    ∃ d, triangularStrength g full = .ok d ∧ d.get? (u, v) = if full then some 0 else none := by
  obtain ⟨d, h1, -, h2⟩ := triangularStrength_exact ho h full
  refine ⟨d, h1, ?_⟩
  have h0 : g.strength u v = 0 := by
    by_contra hc
    have hpos : 0 < g.strength u v := Nat.pos_of_ne_zero hc
    obtain ⟨g'', e1, -, -, -, e2⟩ := strong_edge_removed ho h hm h1 ((h2 u v _).2 ⟨huv, .inr hpos, rfl⟩) hpos
    rw [hr] at e1
    cases e1
    exact hl' ((e2 x y).2 hl)
  cases full with
  | true => exact (h2 u v 0).2 ⟨huv, .inl ⟨rfl, hadj⟩, h0.symm⟩
  | false =>
    cases hg : d.get? (u, v) with
    | none => rfl
    | some n =>
      obtain ⟨-, h3, -⟩ := (h2 u v n).1 hg
      rcases h3 with ⟨h3, -⟩ | h3
      · cases h3
      · omega
end

section
variable {V A : Type} [LinearOrder V] {g : Graph V A}

/-- When no more pairs are missing than there are triangles around an edge, its ends remain linked: by the edge or around one of its
triangles. -/
theorem few_missing_linked (h : g.WF) {g' : Graph V A} (R : List (V × V)) (hR : ∀ e ∈ g.edges, e ∈ g'.edges ∨ e ∈ R) {u v : V}
    (huv : u ≠ v) (hadj : g.Adjacent u v) (hlen : R.length ≤ g.strength u v) : Linked g'.edges u v := by
  by_contra hc
  have miss : ∀ a b, g.Adjacent a b → ¬ Linked g'.edges a b → (a, b) ∈ R ∨ (b, a) ∈ R := by
    intro a b hab hn
    rcases (listed_adjacent h).2 hab with h1 | h1 <;> rcases hR _ h1 with h2 | h2
    · exact absurd (Relation.EqvGen.rel _ _ h2) hn
    · exact .inl h2
    · exact absurd (Linked.symm (Relation.EqvGen.rel _ _ h2)) hn
    · exact .inr h2
  let f : V × V → V := fun e => if e.1 = u ∨ e.1 = v then e.2 else e.1
  have hT : g.commonNeighbors u v ⊆ (R.map f).toFinset := by
    intro t ht
    obtain ⟨⟨t1, t2⟩, t3, t4⟩ := (mem_commonNeighbors h).1 ht
    rw [List.mem_toFinset, List.mem_map]
    by_cases h1 : Linked g'.edges u t
    · have h2 : ¬ Linked g'.edges v t := fun h2 => hc (Linked.trans h1 (Linked.symm h2))
      rcases miss v t t4 h2 with h3 | h3
      · exact ⟨_, h3, by simp [f]⟩
      · exact ⟨_, h3, by simp [f, t1, t3]⟩
    · rcases miss u t t2 h1 with h3 | h3
      · exact ⟨_, h3, by simp [f]⟩
      · exact ⟨_, h3, by simp [f, t1, t3]⟩
  have hend : ∃ z, z ∉ g.commonNeighbors u v ∧ z ∈ (R.map f).toFinset := by
    rcases miss u v hadj hc with h1 | h1
    · refine ⟨v, fun hz => ((mem_commonNeighbors h).1 hz).2.1 rfl, ?_⟩
      rw [List.mem_toFinset, List.mem_map]
      exact ⟨_, h1, by simp [f]⟩
    · refine ⟨u, fun hz => ((mem_commonNeighbors h).1 hz).1.1 rfl, ?_⟩
      rw [List.mem_toFinset, List.mem_map]
      exact ⟨_, h1, by simp [f]⟩
  obtain ⟨z, hz, hz'⟩ := hend
  have hcard := Finset.card_le_card (Finset.insert_subset hz' hT)
  rw [Finset.card_insert_of_notMem hz, ← strength_card h huv hadj] at hcard
  have := List.toFinset_card_le (R.map f)
  rw [List.length_map] at this
  omega

/-- C132.  The ends of an edge listed with `n` remain linked whenever `remove_edges` removes no more than `n` edges, whichever
they are. -/
theorem strong_edge_robust [PyOrd V] (ho : OrderedKeys V) (h : g.WF) (hm : g.multi = false) {full : Bool} {d : Dict (V × V) Nat}
    (hd : triangularStrength g full = .ok d) {u v : V} {n : Nat} (hn : d.get? (u, v) = some n) {pred : EdgePred V A}
    {p : V → V → Attrs A → Bool} (hp : EdgeAnswers g pred p) :
    ∃ g', removeEdges g pred = (g', .ok ()) ∧ (g.edges.length ≤ g'.edges.length + n → Linked g'.edges u v) := by
  obtain ⟨g', e1, -, -, -, -, -, e2⟩ := removeEdges_simple h hm hp
  refine ⟨g', e1, fun hlen => ?_⟩
  by_cases huv : u = v
  · subst huv
    exact Linked.refl _ u
  obtain ⟨d', h1, -, h2⟩ := triangularStrength_exact ho h full
  rw [hd] at h1
  cases h1
  obtain ⟨-, h3, rfl⟩ := (h2 u v n).1 hn
  have hadj : g.Adjacent u v := h3.elim (fun h => h.2) (fun h => (strength_pos_adjacent h).2)
  refine few_missing_linked h ((g.edgesKeys.filter (fun e => !p e.1 e.2.1 e.2.2.2)).map (fun e => (e.1, e.2.1))) ?_ huv hadj ?_
  · intro e he
    unfold Graph.edges at he ⊢
    obtain ⟨q, hq, rfl⟩ := List.mem_map.1 he
    rw [e2]
    cases hpq : p q.1 q.2.1 q.2.2.2 with
    | true => exact .inl (List.mem_map.2 ⟨q, List.mem_filter.2 ⟨hq, hpq⟩, rfl⟩)
    | false => exact .inr (List.mem_map.2 ⟨q, List.mem_filter.2 ⟨hq, by simp [hpq]⟩, rfl⟩)
  · have hsplit := List.length_eq_length_filter_add (l := g.edgesKeys) (fun e => p e.1 e.2.1 e.2.2.2)
    unfold Graph.edges at hlen
    rw [e2, List.length_map, List.length_map] at hlen
    rw [List.length_map]
    omega
end

/-- A triangle 1, 2, 3 with a tail from 3 to 4. -/
def tailed : Graph Int Int :=
  ⟨false, false, [], [(1, []), (2, []), (3, []), (4, [])],
    [⟨1, 2, [(.int 0, [])]⟩, ⟨2, 3, [(.int 0, [])]⟩, ⟨1, 3, [(.int 0, [])]⟩, ⟨3, 4, [(.int 0, [])]⟩]⟩

/-- C132, a case: the edge between 1 and 2 is listed with 1 and its removal leaves one component, the one between 3 and 4 with 0 and
its removal leaves two.  The number of edges removed cannot be more: with the two edges of 1, the nodes 1 and 2 are separated. -/
theorem bridge_sample : tailed.WF ∧ tailed.directed = false ∧ tailed.multi = false ∧
    (triangularStrength tailed true).map (fun d => (d.get? (1, 2), d.get? (3, 4))) = .ok (some 1, some 0) ∧
    (connectedComponentOrders tailed none).yields = [4] ∧
    (connectedComponentOrders (removeEdges tailed (fun a b _ => .ok (decide (¬ Between 1 2 a b)))).1 none).yields = [4] ∧
    (connectedComponentOrders (removeEdges tailed (fun a b _ => .ok (decide (¬ Between 3 4 a b)))).1 none).yields = [3, 1] ∧
    (connectedComponentOrders (removeEdges tailed (fun a _ _ => .ok (decide (a ≠ 1)))).1 none).yields = [1, 3] := by
  refine ⟨by constructor <;> decide, rfl, rfl, ?_, ?_, ?_, ?_, ?_⟩ <;> decide +kernel

end Pelote
