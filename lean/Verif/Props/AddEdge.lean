import Verif.Props.Nested
import Verif.Props.Local
import Verif.Props.Triangles

/-! C98: what adding one edge changes. -/
set_option linter.unusedSectionVars false
namespace Pelote
open Graph
open scoped List

section
variable {V A : Type} [DecidableEq V] {g g' : Graph V A} {u v : V} {a : Attrs A}

/-- `g.add_edge(u, v, **a)` between two nodes of the graph that were not joined. -/
structure Added [AttrVal A] (g g' : Graph V A) (u v : V) (a : Attrs A) : Prop where
  wf : g.WF
  kw : EdgeKwSafe g.multi a
  left : u ∈ g.nodes
  right : v ∈ g.nodes
  new : ¬ g.Adjacent u v
  result : g.addEdge u v a = .ok g'

namespace Added
variable [AttrVal A] (s : Added g g' u v a)
include s

theorem eq : g' = { g with links := g.links ++ [⟨u, v, addToData g.multi [] none a⟩] } := by
  have h := s.result
  have hne : g.hasEdge u v ≠ true := fun he => s.new (.inl he)
  rw [addEdge_ok s.kw, addEdgeCore_present s.left s.right, addLink_fresh] at h
  · cases h; rfl
  · intro l hl
    by_contra hc
    exact hne (hasEdge_iff.2 ⟨l, hl, by simpa using hc⟩)

theorem wf' : g'.WF := by
  have h := s.result
  rw [addEdge_ok s.kw] at h
  cases h
  exact s.wf.addEdgeCore u v none a

theorem directed : g'.directed = g.directed := by rw [s.eq]
theorem multi : g'.multi = g.multi := by rw [s.eq]
theorem node : g'.node = g.node := by rw [s.eq]
theorem nodes : g'.nodes = g.nodes := by unfold Graph.nodes; rw [s.node]
theorem order : g'.order = g.order := by unfold Graph.order; rw [s.node]

theorem hasEdge (x y : V) : g'.hasEdge x y = true ↔ g.hasEdge x y = true ∨ samePair g.directed x y u v = true := by
  rw [hasEdge_iff, hasEdge_iff, s.directed, s.eq]
  simp only [List.mem_append, List.mem_singleton]
  constructor
  · rintro ⟨l, hl | rfl, hs⟩
    · exact .inl ⟨l, hl, hs⟩
    · exact .inr hs
  · rintro (⟨l, hl, hs⟩ | hs)
    · exact ⟨l, .inl hl, hs⟩
    · exact ⟨_, .inr rfl, hs⟩

theorem adjacent (x y : V) : g'.Adjacent x y ↔ g.Adjacent x y ∨ (x = u ∧ y = v) ∨ (x = v ∧ y = u) := by
  unfold Graph.Adjacent
  rw [s.hasEdge, s.hasEdge, samePair_iff, samePair_iff]
  constructor
  · rintro ((h | h | ⟨_, h⟩) | (h | h | ⟨_, h⟩))
    · exact .inl (.inl h)
    · exact .inr (.inl h)
    · exact .inr (.inr h)
    · exact .inl (.inr h)
    · exact .inr (.inr h.symm)
    · exact .inr (.inl h.symm)
  · rintro ((h | h) | h | h)
    · exact .inl (.inl h)
    · exact .inr (.inl h)
    · exact .inl (.inr (.inl h))
    · exact .inr (.inr (.inl h.symm))

theorem orient (l : Link V A) : g'.orient l = g.orient l := by
  unfold Graph.orient
  rw [s.directed, s.nodes]

theorem mem_edges (p : V × V) : p ∈ g'.edges ↔ p ∈ g.edges ∨ p = ((g.orient ⟨u, v, []⟩).u, (g.orient ⟨u, v, []⟩).v) := by
  obtain ⟨x, y⟩ := p
  have ho : ∀ d : Dict PyKey (Attrs A), (g.orient ⟨u, v, d⟩).u = (g.orient ⟨u, v, []⟩).u ∧
      (g.orient ⟨u, v, d⟩).v = (g.orient ⟨u, v, []⟩).v := by
    intro d; unfold Graph.orient; split <;> exact ⟨rfl, rfl⟩
  have hd : addToData g.multi [] none a ≠ [] := by
    intro hc
    have := s.wf'.nonempty ⟨u, v, addToData g.multi [] none a⟩ (by rw [s.eq]; simp)
    exact this hc
  rw [Pelote.mem_edges, Pelote.mem_edges]
  simp only [mem_edgesData s.wf, mem_edgesData s.wf', s.orient]
  constructor
  · rintro ⟨b, l, hl, h1, h2, hk⟩
    rw [s.eq] at hl
    rcases List.mem_append.1 hl with hl | hl
    · exact .inl ⟨b, l, hl, h1, h2, hk⟩
    · rw [List.mem_singleton] at hl
      subst hl
      right
      rw [← h1, ← h2, (ho _).1, (ho _).2]
  · rintro (⟨b, l, hl, h1, h2, hk⟩ | h)
    · exact ⟨b, l, by rw [s.eq]; exact List.mem_append_left _ hl, h1, h2, hk⟩
    · cases h
      obtain ⟨⟨k, b⟩, t, hk⟩ := List.exists_cons_of_ne_nil hd
      exact ⟨b, ⟨u, v, addToData g.multi [] none a⟩, by rw [s.eq]; simp, (ho _).1, (ho _).2, k, by rw [hk]; simp⟩

theorem linked (x y : V) : Linked g'.edges x y ↔ Linked ((u, v) :: g.edges) x y := by
  have hlast : Linked ((u, v) :: g.edges) (g.orient ⟨u, v, []⟩).u (g.orient ⟨u, v, []⟩).v := by
    rcases g.orient_cases ⟨u, v, []⟩ with h | ⟨-, h⟩ <;> rw [h]
    · exact .of_mem List.mem_cons_self
    · exact (Linked.of_mem List.mem_cons_self).symm
  have hlast' : Linked g'.edges u v := by
    have hm := Linked.of_mem ((s.mem_edges _).2 (.inr rfl))
    rcases g.orient_cases ⟨u, v, []⟩ with h | ⟨-, h⟩ <;> rw [h] at hm
    · exact hm
    · exact hm.symm
  constructor
  · refine Linked.bind (fun a b hab => ?_)
    rcases (s.mem_edges _).1 hab with h | h
    · exact .of_mem (List.mem_cons_of_mem _ h)
    · cases h; exact hlast
  · refine Linked.bind (fun a b hab => ?_)
    rcases List.mem_cons.1 hab with h | h
    · cases h; exact hlast'
    · exact .of_mem ((s.mem_edges _).2 (.inl h))

end Added

/-! ### Components -/

/-- The connected components, as sets. -/
theorem components_spec {nodes : List V} (pairs : List (V × V)) (hn : nodes.Nodup) :
    ∃ L : List (Set V), L.Nodup ∧ (∀ S, S ∈ L ↔ ∃ n ∈ nodes, componentOf nodes pairs n = S) ∧
      componentOrders nodes pairs = L.map Set.ncard := by
  have hmem : ∀ {r : V}, r ∈ firstNodes nodes pairs → r ∈ nodes := fun hr => List.mem_of_mem_filter hr
  refine ⟨(firstNodes nodes pairs).map (componentOf nodes pairs), ?_, ?_, ?_⟩
  · refine List.Nodup.map_on ?_ (hn.filter _)
    intro x hx y hy hxy
    have hy' : y ∈ componentOf nodes pairs x := by rw [hxy]; exact ⟨hmem hy, .refl _ _⟩
    obtain ⟨r, _, hu⟩ := firstNodes_partition pairs y (hmem hy)
    rw [hu x ⟨hx, hy'.2⟩, hu y ⟨hy, .refl _ _⟩]
  · intro S
    rw [List.mem_map]
    constructor
    · rintro ⟨r, hr, rfl⟩; exact ⟨r, hmem hr, rfl⟩
    · rintro ⟨n, hn, rfl⟩
      obtain ⟨r, ⟨hr, hrn⟩, _⟩ := firstNodes_partition pairs n hn
      refine ⟨r, hr, ?_⟩
      ext x
      simp only [componentOf, Set.mem_ofPred_eq]
      exact and_congr_right fun _ => ⟨fun h => hrn.symm.trans h, fun h => hrn.trans h⟩
  · rw [List.map_map]; rfl

/-- One more pair between unlinked nodes merges their two components. -/
theorem componentOrders_merge {nodes : List V} {pairs pairs' : List (V × V)} (hn : nodes.Nodup) (hu : u ∈ nodes) (hv : v ∈ nodes)
    (hp : ∀ x y, Linked pairs' x y ↔ Linked ((u, v) :: pairs) x y) (hl : ¬ Linked pairs u v) :
    ∃ rest, (componentOrders nodes pairs).Perm
        ((componentOf nodes pairs u).ncard :: (componentOf nodes pairs v).ncard :: rest) ∧
      (componentOrders nodes pairs').Perm
        (((componentOf nodes pairs u).ncard + (componentOf nodes pairs v).ncard) :: rest) := by
  classical
  obtain ⟨L, h1, h2, h3⟩ := components_spec pairs hn
  obtain ⟨L', h1', h2', h3'⟩ := components_spec pairs' hn
  have hself : ∀ {P : List (V × V)} {n : V}, n ∈ nodes → n ∈ componentOf nodes P n := fun hn => ⟨hn, .refl _ _⟩
  -- components are equal as soon as they meet
  have hmeet : ∀ {n m x : V}, x ∈ componentOf nodes pairs n → x ∈ componentOf nodes pairs m →
      componentOf nodes pairs n = componentOf nodes pairs m := by
    intro n m x hx hy
    ext z
    exact and_congr_right fun _ => ⟨fun h => (hy.2.trans hx.2.symm).trans h, fun h => (hx.2.trans hy.2.symm).trans h⟩
  have hne : componentOf nodes pairs u ≠ componentOf nodes pairs v := by
    intro he
    have := hself (P := pairs) hv
    rw [← he] at this
    exact hl this.2
  have hdisj : Disjoint (componentOf nodes pairs u) (componentOf nodes pairs v) := by
    rw [Set.disjoint_left]
    intro x hx hy
    exact hne (hmeet hx hy)
  have hfin : ∀ n, (componentOf nodes pairs n).Finite := fun n =>
    (List.finite_toSet nodes).subset (fun x hx => hx.1)
  have hmu : componentOf nodes pairs u ∈ L := (h2 _).2 ⟨u, hu, rfl⟩
  have hmv : componentOf nodes pairs v ∈ L.erase (componentOf nodes pairs u) :=
    (List.mem_erase_of_ne hne.symm).2 ((h2 _).2 ⟨v, hv, rfl⟩)
  let R := (L.erase (componentOf nodes pairs u)).erase (componentOf nodes pairs v)
  have hL : L.Perm (componentOf nodes pairs u :: componentOf nodes pairs v :: R) :=
    (List.perm_cons_erase hmu).trans ((List.perm_cons_erase hmv).cons _)
  have hR : ∀ S, S ∈ R ↔ S ≠ componentOf nodes pairs v ∧ S ≠ componentOf nodes pairs u ∧ S ∈ L := by
    intro S
    rw [(h1.erase _).mem_erase_iff, h1.mem_erase_iff]
  -- the components afterwards
  have hbig : ∀ n, (Linked pairs u n ∨ Linked pairs v n) →
      componentOf nodes pairs' n = componentOf nodes pairs u ∪ componentOf nodes pairs v := by
    intro n hn'
    ext x
    simp only [componentOf, Set.mem_ofPred_eq, Set.mem_union, hp, linked_cons]
    constructor
    · rintro ⟨hx, h⟩
      rcases h with h | ⟨_, h⟩ | ⟨_, h⟩
      · exact hn'.imp (fun k => ⟨hx, k.trans h⟩) (fun k => ⟨hx, k.trans h⟩)
      · exact .inr ⟨hx, h⟩
      · exact .inl ⟨hx, h⟩
    · rintro (⟨hx, h⟩ | ⟨hx, h⟩)
      · refine ⟨hx, ?_⟩
        rcases hn' with k | k
        · exact .inl (k.symm.trans h)
        · exact .inr (.inr ⟨k.symm, h⟩)
      · refine ⟨hx, ?_⟩
        rcases hn' with k | k
        · exact .inr (.inl ⟨k.symm, h⟩)
        · exact .inl (k.symm.trans h)
  have hsmall : ∀ n, ¬ Linked pairs u n → ¬ Linked pairs v n → componentOf nodes pairs' n = componentOf nodes pairs n := by
    intro n k1 k2
    ext x
    simp only [componentOf, Set.mem_ofPred_eq, hp, linked_cons]
    refine and_congr_right fun _ => ⟨?_, .inl⟩
    rintro (h | ⟨h, _⟩ | ⟨h, _⟩)
    · exact h
    · exact absurd h.symm k1
    · exact absurd h.symm k2
  have hL' : L'.Perm ((componentOf nodes pairs u ∪ componentOf nodes pairs v) :: R) := by
    rw [List.perm_ext_iff_of_nodup h1']
    · intro S
      rw [h2', List.mem_cons, hR, h2]
      constructor
      · rintro ⟨n, hn', rfl⟩
        by_cases k1 : Linked pairs u n
        · exact .inl (hbig n (.inl k1))
        · by_cases k2 : Linked pairs v n
          · exact .inl (hbig n (.inr k2))
          · right
            rw [hsmall n k1 k2]
            have hs := hself (P := pairs) hn'
            refine ⟨fun he => ?_, fun he => ?_, n, hn', rfl⟩
            · rw [he] at hs; exact k2 hs.2
            · rw [he] at hs; exact k1 hs.2
      · rintro (rfl | ⟨k2, k1, n, hn', rfl⟩)
        · exact ⟨u, hu, hbig u (.inl (.refl _ _))⟩
        · refine ⟨n, hn', hsmall n (fun hc => k1 ?_) (fun hc => k2 ?_)⟩
          · exact hmeet (x := n) (hself hn') ⟨hn', hc⟩
          · exact hmeet (x := n) (hself hn') ⟨hn', hc⟩
    · rw [List.nodup_cons]
      refine ⟨fun hc => ?_, (h1.erase _).erase _⟩
      obtain ⟨k2, -, hS⟩ := (hR _).1 hc
      obtain ⟨n, hn', he⟩ := (h2 _).1 hS
      have hvn : v ∈ componentOf nodes pairs n := by rw [he]; exact Or.inr (hself hv)
      exact k2 (he ▸ hmeet hvn (hself hv))
  refine ⟨R.map Set.ncard, ?_, ?_⟩
  · rw [h3]; exact hL.map _
  · rw [h3']
    have := hL'.map Set.ncard
    rwa [List.map_cons, Set.ncard_union_eq hdisj (hfin _) (hfin _)] at this

/-- C98.  `connected_component_orders`, on undirected graphs: an edge inside a component changes nothing, an edge between two
components replaces their orders by their sum. -/
theorem connectedComponentOrders_addEdge [AttrVal A] (s : Added g g' u v a) (hd : g.directed = false) :
    (connectedComponentOrders g none).err = none ∧ (connectedComponentOrders g' none).err = none ∧
    (Linked g.edges u v → connectedComponentOrders g' none = connectedComponentOrders g none) ∧
    (¬ Linked g.edges u v → ∃ rest, (connectedComponentOrders g none).yields.Perm
        ((componentOf g.nodes g.edges u).ncard :: (componentOf g.nodes g.edges v).ncard :: rest) ∧
      (connectedComponentOrders g' none).yields.Perm
        (((componentOf g.nodes g.edges u).ncard + (componentOf g.nodes g.edges v).ncard) :: rest)) := by
  rw [connectedComponentOrders_exact s.wf hd, connectedComponentOrders_exact s.wf' (s.directed.trans hd), s.nodes]
  refine ⟨rfl, rfl, fun hl => ?_, fun hl => ?_⟩
  · rw [componentOrders_congr g.nodes (fun x y => (s.linked x y).trans (linked_cons_of_linked hl))]
  · exact componentOrders_merge s.wf.nodup s.left s.right s.linked hl

/-- C98.  `largest_component_order` is the larger of the former one and of the order of the component the edge is in: it never
decreases. -/
theorem largestComponentOrder_addEdge [AttrVal A] (s : Added g g' u v a) (hd : g.directed = false) :
    ∃ m, largestComponentOrder g = .ok (some m) ∧
      largestComponentOrder g' = .ok (some (max m (componentOf g'.nodes g'.edges u).ncard)) := by
  obtain ⟨r, h1, h2, h3⟩ := largestComponentOrder_exact s.wf hd
  obtain ⟨r', h1', h2', h3'⟩ := largestComponentOrder_exact s.wf' (s.directed.trans hd)
  have hne : g.nodes ≠ [] := List.ne_nil_of_mem s.left
  rw [s.nodes] at h2' h3' ⊢
  cases r with
  | none => exact absurd (h2.1 rfl) hne
  | some m =>
    cases r' with
    | none => exact absurd (h2'.1 rfl) hne
    | some m' =>
      obtain ⟨k1, k2⟩ := h3 m rfl
      obtain ⟨k1', k2'⟩ := h3' m' rfl
      refine ⟨m, h1, ?_⟩
      rw [h1']
      have hin : ∀ {P : List (V × V)} {n : V}, n ∈ g.nodes → (componentOf g.nodes P n).ncard ∈ componentOrders g.nodes P := by
        intro P n hn
        obtain ⟨L, -, l2, l3⟩ := components_spec P s.wf.nodup
        rw [l3]
        exact List.mem_map_of_mem ((l2 _).2 ⟨n, hn, rfl⟩)
      have hfin : ∀ n, (componentOf g.nodes g'.edges n).Finite := fun n =>
        (List.finite_toSet g.nodes).subset (fun x hx => hx.1)
      congr 2
      apply le_antisymm
      · obtain ⟨L, -, l2, l3⟩ := components_spec g'.edges s.wf.nodup
        rw [l3] at k1'
        obtain ⟨S, hS, rfl⟩ := List.mem_map.1 k1'
        obtain ⟨n, hn, rfl⟩ := (l2 S).1 hS
        by_cases hc : Linked g'.edges u n
        · refine le_max_of_le_right (Set.ncard_le_ncard ?_ (hfin _))
          intro x hx
          exact ⟨hx.1, hc.trans hx.2⟩
        · refine le_max_of_le_left ?_
          have : componentOf g.nodes g'.edges n = componentOf g.nodes g.edges n := by
            ext x
            refine and_congr_right fun _ => ⟨fun h => ?_, fun h => (s.linked _ _).2 (h.mono (fun p hp => List.mem_cons_of_mem _ hp))⟩
            have hmono : ∀ {x y}, Linked g.edges x y → Linked g'.edges x y := fun h =>
              (s.linked _ _).2 (h.mono (fun p hp => List.mem_cons_of_mem _ hp))
            have huv : Linked g'.edges u v := (s.linked _ _).2 (.of_mem List.mem_cons_self)
            rcases linked_cons.1 ((s.linked _ _).1 h) with h | ⟨h, _⟩ | ⟨h, _⟩
            · exact h
            · exact absurd (hmono h).symm hc
            · exact absurd (huv.trans (hmono h).symm) hc
          rw [this]
          exact k2 _ (hin hn)
      · refine max_le ?_ (k2' _ (hin s.left))
        obtain ⟨L, -, l2, l3⟩ := components_spec g.edges s.wf.nodup
        rw [l3] at k1
        obtain ⟨S, hS, rfl⟩ := List.mem_map.1 k1
        obtain ⟨n, hn, rfl⟩ := (l2 S).1 hS
        refine le_trans (Set.ncard_le_ncard ?_ (hfin n)) (k2' _ (hin hn))
        intro x hx
        exact ⟨hx.1, (s.linked _ _).2 (hx.2.mono (fun p hp => List.mem_cons_of_mem _ hp))⟩

/-! ### Triangles -/

end

section
variable {V A : Type} [LinearOrder V] {g g' : Graph V A} {u v : V} {a : Attrs A}

theorem three_rotate (p q r : V) : ({q, r, p} : Finset V) = {p, q, r} := by
  rw [Finset.insert_comm p q, Finset.pair_comm p r]

theorem three_swap (p q r : V) : ({p, r, q} : Finset V) = {p, q, r} := by rw [Finset.pair_comm r q]

/-- The nodes adjacent to both ends of a pair, other than these. -/
noncomputable def Graph.commonNeighbors (g : Graph V A) (x y : V) : Finset V :=
  g.nodes.toFinset.filter (fun n => (n ≠ x ∧ g.Adjacent x n) ∧ n ≠ y ∧ g.Adjacent y n)

theorem mem_commonNeighbors {g : Graph V A} (h : g.WF) {x y n : V} :
    n ∈ g.commonNeighbors x y ↔ (n ≠ x ∧ g.Adjacent x n) ∧ n ≠ y ∧ g.Adjacent y n := by
  unfold Graph.commonNeighbors
  rw [Finset.mem_filter, List.mem_toFinset]
  refine ⟨fun h => h.2, fun hn => ⟨?_, hn⟩⟩
  rcases hn.1.2 with he | he
  · exact (hasEdge_mem h he).2
  · exact (hasEdge_mem h he).1

theorem strength_card {g : Graph V A} (h : g.WF) {x y : V} (hne : x ≠ y) (ha : g.Adjacent x y) :
    g.strength x y = (g.commonNeighbors x y).card :=
  strength_common hne ha _ (fun _ => mem_commonNeighbors h)

theorem strength_symm (g : Graph V A) (x y : V) : g.strength x y = g.strength y x := by
  unfold Graph.strength
  congr 1
  ext t
  simp only [Set.mem_ofPred_eq]
  constructor <;> rintro ⟨h1, h2, h3, h4⟩ <;> exact ⟨h1, h2.symm, h4, h3⟩

theorem strength_zero {g : Graph V A} {x y : V} (h : ¬ g.Adjacent x y) : g.strength x y = 0 := by
  by_contra hc
  exact h (strength_pos_adjacent (Nat.pos_of_ne_zero hc)).2

section
variable [AttrVal A] (s : Added g g' u v a)
include s

/-- The strength of the new edge: the nodes its two ends had in common. -/
theorem Added.strength_new (hne : u ≠ v) : g'.strength u v = (g.commonNeighbors u v).card := by
  refine strength_common hne ((s.adjacent u v).2 (.inr (.inl ⟨rfl, rfl⟩))) _ (fun w => ?_)
  rw [mem_commonNeighbors s.wf, s.adjacent, s.adjacent]
  constructor
  · rintro ⟨⟨h1, h2⟩, h3, h4⟩
    exact ⟨⟨h1, .inl h2⟩, h3, .inl h4⟩
  · rintro ⟨⟨h1, h2⟩, h3, h4⟩
    refine ⟨⟨h1, ?_⟩, h3, ?_⟩
    · rcases h2 with h2 | ⟨_, h2⟩ | ⟨h2, _⟩
      · exact h2
      · exact absurd h2 h3
      · exact absurd h2 hne
    · rcases h4 with h4 | ⟨h4, _⟩ | ⟨_, h4⟩
      · exact h4
      · exact absurd h4.symm hne
      · exact absurd h4 h1

omit s in
theorem strength_gain (wf : g.WF) (wf' : g'.WF) (new : ¬ g.Adjacent u v)
    (adj : ∀ x y, g'.Adjacent x y ↔ g.Adjacent x y ∨ (x = u ∧ y = v) ∨ (x = v ∧ y = u))
    (hne : u ≠ v) {x : V} (hx : x ≠ v) (ha : g.Adjacent u x) :
    g'.strength u x = g.strength u x + if x ≠ u ∧ g.Adjacent v x then 1 else 0 := by
  by_cases hxu : x = u
  · subst hxu
    rw [if_neg (by simp)]
    exact (Graph.strength_self g' x).trans (Graph.strength_self g x).symm
  have ha' : g'.Adjacent u x := (adj u x).2 (.inl ha)
  rw [strength_card wf (Ne.symm hxu) ha, strength_card wf' (Ne.symm hxu) ha']
  have hnot : v ∉ g.commonNeighbors u x := fun hc => new ((mem_commonNeighbors wf).1 hc).1.2
  split
  · rename_i hv
    have : g'.commonNeighbors u x = insert v (g.commonNeighbors u x) := by
      ext w
      rw [Finset.mem_insert, mem_commonNeighbors wf, mem_commonNeighbors wf', adj, adj]
      constructor
      · rintro ⟨⟨h1, h2⟩, h3, h4⟩
        rcases h2 with h2 | ⟨_, rfl⟩ | ⟨h2, _⟩
        · rcases h4 with h4 | ⟨h4, _⟩ | ⟨h4, _⟩
          · exact .inr ⟨⟨h1, h2⟩, h3, h4⟩
          · exact absurd h4 hxu
          · exact absurd h4 hx
        · exact .inl rfl
        · exact absurd h2 hne
      · rintro (rfl | ⟨⟨h1, h2⟩, h3, h4⟩)
        · exact ⟨⟨hne.symm, .inr (.inl ⟨rfl, rfl⟩)⟩, hx.symm, .inl (Graph.adjacent_comm.1 hv.2)⟩
        · exact ⟨⟨h1, .inl h2⟩, h3, .inl h4⟩
    rw [this, Finset.card_insert_of_notMem hnot]
  · rename_i hv
    have hv : ¬ g.Adjacent v x := fun hc => hv ⟨hxu, hc⟩
    rw [Nat.add_zero]
    congr 1
    ext w
    rw [mem_commonNeighbors wf, mem_commonNeighbors wf', adj, adj]
    constructor
    · rintro ⟨⟨h1, h2⟩, h3, h4⟩
      have h4 : g.Adjacent x w := by
        rcases h4 with h4 | ⟨h4, _⟩ | ⟨h4, _⟩
        · exact h4
        · exact absurd h4 hxu
        · exact absurd h4 hx
      rcases h2 with h2 | ⟨_, h2⟩ | ⟨h2, _⟩
      · exact ⟨⟨h1, h2⟩, h3, h4⟩
      · exact absurd (h2 ▸ Graph.adjacent_comm.1 h4) hv
      · exact absurd h2 hne
    · rintro ⟨⟨h1, h2⟩, h3, h4⟩
      exact ⟨⟨h1, .inl h2⟩, h3, .inl h4⟩

/-- The edges of one end get one more triangle when the other end completes it. -/
theorem Added.strength_left (hne : u ≠ v) {x : V} (hx : x ≠ v) (ha : g.Adjacent u x) :
    g'.strength u x = g.strength u x + if x ≠ u ∧ g.Adjacent v x then 1 else 0 :=
  strength_gain s.wf s.wf' s.new s.adjacent hne hx ha

theorem Added.strength_right (hne : u ≠ v) {x : V} (hx : x ≠ u) (ha : g.Adjacent v x) :
    g'.strength v x = g.strength v x + if x ≠ v ∧ g.Adjacent u x then 1 else 0 :=
  strength_gain s.wf s.wf' (fun hc => s.new (Graph.adjacent_comm.1 hc)) (fun x y => by rw [s.adjacent, or_comm (a := x = u ∧ _)])
    hne.symm hx ha

/-- The other edges are in the same triangles as before; and a self loop changes nothing. -/
theorem Added.strength_other {x y : V} (h : u = v ∨ (x ≠ u ∧ x ≠ v ∧ y ≠ u ∧ y ≠ v)) : g'.strength x y = g.strength x y := by
  unfold Graph.strength
  congr 1
  ext t
  simp only [Set.mem_ofPred_eq]
  constructor
  · rintro ⟨⟨p, q, r, h1, h2, h3, k1, k2, k3, rfl⟩, hxy, hx, hy⟩
    refine ⟨?_, hxy, hx, hy⟩
    rw [s.adjacent] at k1 k2 k3
    have hcase : ∀ {p q : V}, p ≠ q → (g.Adjacent p q ∨ (p = u ∧ q = v) ∨ (p = v ∧ q = u)) →
        g.Adjacent p q ∨ (u ≠ v ∧ ((p = u ∧ q = v) ∨ (p = v ∧ q = u))) := by
      rintro p q hpq (k | ⟨rfl, rfl⟩ | ⟨rfl, rfl⟩)
      · exact .inl k
      · exact .inr ⟨hpq, .inl ⟨rfl, rfl⟩⟩
      · exact .inr ⟨hpq.symm, .inr ⟨rfl, rfl⟩⟩
    -- a triangle through the new edge has at most one node outside of its ends
    have hout : ∀ {p q r : V}, x ≠ y → x ∈ ({p, q, r} : Finset V) → y ∈ ({p, q, r} : Finset V) → u ≠ v →
        ((p = u ∧ q = v) ∨ (p = v ∧ q = u)) → False := by
      intro p q r hxy hx hy hne hpq
      rcases h with h | ⟨a1, a2, a3, a4⟩
      · exact hne h
      · simp only [Finset.mem_insert, Finset.mem_singleton] at hx hy
        have hr : ∀ {z : V}, z ≠ u → z ≠ v → (z = p ∨ z = q ∨ z = r) → z = r := by
          rintro z z1 z2 (rfl | rfl | rfl)
          · rcases hpq with hc | hc
            · exact absurd hc.1 z1
            · exact absurd hc.1 z2
          · rcases hpq with hc | hc
            · exact absurd hc.2 z2
            · exact absurd hc.2 z1
          · rfl
        exact hxy ((hr a1 a2 hx).trans (hr a3 a4 hy).symm)
    have e1 := three_rotate p q r
    have e2 := three_swap p q r
    refine ⟨p, q, r, h1, h2, h3, ?_, ?_, ?_, rfl⟩
    · exact (hcase h1 k1).resolve_right (fun hc => hout hxy hx hy hc.1 hc.2)
    · exact (hcase h2 k2).resolve_right (fun hc => hout (r := p) hxy (e1 ▸ hx) (e1 ▸ hy) hc.1 hc.2)
    · exact (hcase h3 k3).resolve_right (fun hc => hout (r := q) hxy (e2 ▸ hx) (e2 ▸ hy) hc.1 hc.2)
  · rintro ⟨⟨p, q, r, h1, h2, h3, k1, k2, k3, rfl⟩, hxy, hx, hy⟩
    exact ⟨⟨p, q, r, h1, h2, h3, (s.adjacent _ _).2 (.inl k1), (s.adjacent _ _).2 (.inl k2), (s.adjacent _ _).2 (.inl k3), rfl⟩,
      hxy, hx, hy⟩

end

end

section
variable {V A : Type} [LinearOrder V] [PyOrd V] [AttrVal A] {g g' : Graph V A} {u v : V} {a : Attrs A}

/-- C98.  Triangular strengths, on graphs of any kind: the new edge has one for each neighbor common to its ends; the edge from
an end to such a neighbor gets one more; the others keep theirs. -/
theorem triangularStrength_addEdge (s : Added g g' u v a) (hne : u ≠ v) (ho : OrderedKeys V) :
    ∃ d d', triangularStrength g true = .ok d ∧ triangularStrength g' true = .ok d' ∧
      d'.get? (ordPair u v) = some (g.commonNeighbors u v).card ∧
      (∀ x, x ≠ u → x ≠ v →
        d'.get? (ordPair u x) = (d.get? (ordPair u x)).map (· + if g.Adjacent v x then 1 else 0) ∧
        d'.get? (ordPair v x) = (d.get? (ordPair v x)).map (· + if g.Adjacent u x then 1 else 0)) ∧
      ∀ x y, x ≠ u → x ≠ v → y ≠ u → y ≠ v → d'.get? (ordPair x y) = d.get? (ordPair x y) := by
  obtain ⟨d, h1, -, h2⟩ := triangularStrength_exact ho s.wf true
  obtain ⟨d', h1', -, h2'⟩ := triangularStrength_exact ho s.wf' true
  have hget : ∀ {g : Graph V A} {d : Dict (V × V) Nat}, (∀ u v n, d.get? (u, v) = some n ↔
      u ≤ v ∧ ((true = true ∧ g.Adjacent u v) ∨ 0 < g.strength u v) ∧ n = g.strength u v) → ∀ x y,
      d.get? (ordPair x y) = if g.Adjacent x y then some (g.strength x y) else none := by
    intro g d h2 x y
    have key : ∀ {x y : V}, x ≤ y → d.get? (x, y) = if g.Adjacent x y then some (g.strength x y) else none := by
      intro x y hle
      split
      · rename_i ha
        exact (h2 x y _).2 ⟨hle, .inl ⟨rfl, ha⟩, rfl⟩
      · rename_i ha
        rw [Option.eq_none_iff_forall_ne_some]
        intro n hn
        obtain ⟨-, ⟨-, hc⟩ | hc, -⟩ := (h2 x y n).1 hn
        · exact ha hc
        · rw [strength_zero ha] at hc; omega
    rcases le_total x y with hle | hle
    · rw [ordPair_eq.2 ⟨hle, .inl ⟨rfl, rfl⟩⟩, key hle]
    · rw [ordPair_eq.2 ⟨hle, .inr ⟨rfl, rfl⟩⟩, key hle, strength_symm]
      simp only [Graph.adjacent_comm (u := y)]
  have hg := hget h2
  have hg' := hget h2'
  refine ⟨d, d', h1, h1', ?_, ?_, ?_⟩
  · rw [hg', if_pos ((s.adjacent u v).2 (.inr (.inl ⟨rfl, rfl⟩))), s.strength_new hne]
  · intro x hxu hxv
    have side : ∀ {p q : V}, (∀ y, g'.Adjacent p y ↔ g.Adjacent p y ∨ (p = u ∧ y = v) ∨ (p = v ∧ y = u)) →
        (g.Adjacent p x → g'.strength p x = g.strength p x + if x ≠ p ∧ g.Adjacent q x then 1 else 0) → x ≠ p →
        d'.get? (ordPair p x) = (d.get? (ordPair p x)).map (· + if g.Adjacent q x then 1 else 0) := by
      intro p q hadj hstr hxp
      have : g'.Adjacent p x ↔ g.Adjacent p x := by
        rw [hadj]
        refine ⟨?_, .inl⟩
        rintro (h | ⟨_, h⟩ | ⟨_, h⟩)
        · exact h
        · exact absurd h hxv
        · exact absurd h hxu
      rw [hg, hg']
      by_cases ha : g.Adjacent p x
      · rw [if_pos ha, if_pos (this.2 ha), hstr ha]
        simp [hxp]
      · rw [if_neg ha, if_neg (fun hc => ha (this.1 hc))]
        rfl
    exact ⟨side (s.adjacent u) (s.strength_left hne hxv) hxu, side (s.adjacent v) (s.strength_right hne hxu) hxv⟩
  · intro x y a1 a2 a3 a4
    rw [hg, hg', s.strength_other (.inr ⟨a1, a2, a3, a4⟩)]
    have : g'.Adjacent x y ↔ g.Adjacent x y := by
      rw [s.adjacent]
      refine ⟨?_, .inl⟩
      rintro (h | ⟨h, _⟩ | ⟨h, _⟩)
      · exact h
      · exact absurd h a1
      · exact absurd h a2
    simp only [this]

end

/-! ### Maximum spanning trees -/

section
variable {V K : Type} [DecidableEq V] [Field K] [LinearOrder K] [IsStrictOrderedRing K] [AttrVal (Val K)]
  {g g' : Graph V (Val K)} {u v : V} {a : Attrs (Val K)}

open Classical in
/-- The pairs joined by an edge of weight above `t`. -/
noncomputable def Graph.pairsAbove (g : Graph V (Val K)) (attr : String) (t : K) : List (V × V) :=
  (g.edgesData.filter (fun e => decide (∃ w, HasWeight attr e.2.2 w ∧ t < w))).map (fun e => (e.1, e.2.1))

omit [AttrVal (Val K)] [IsStrictOrderedRing K] in
theorem mem_pairsAbove {g : Graph V (Val K)} {attr : String} {t : K} {x y : V} :
    (x, y) ∈ g.pairsAbove attr t ↔ ∃ c w, (x, y, c) ∈ g.edgesData ∧ HasWeight attr c w ∧ t < w := by
  classical
  unfold Graph.pairsAbove
  simp only [List.mem_map, List.mem_filter, decide_eq_true_eq, Prod.mk.injEq, Prod.exists]
  constructor
  · rintro ⟨x, y, c, ⟨hm, w, h1, h2⟩, rfl, rfl⟩
    exact ⟨c, w, hm, h1, h2⟩
  · rintro ⟨c, w, hm, h1, h2⟩
    exact ⟨x, y, c, ⟨hm, w, h1, h2⟩, rfl, rfl⟩

omit [AttrVal (Val K)] in
/-- The edges yielded, in terms of pairs and weights. -/
theorem umst_pair_above {ulongMax : Nat} (hu : 2^32 - 1 ≤ ulongMax) {g : Graph V (Val K)} (h : g.WF) {attr : String}
    {w : Fin g.edgesData.length → K} (hw : g.Weights attr w) (hsep : NoNearTies w) (hord : SafeOrder ulongMax g.order) (x y : V) :
    (∃ c, (x, y, c) ∈ (unionOfMaximumSpanningTrees ulongMax g attr).yields) ↔
      ∃ c t, (x, y, c) ∈ g.edgesData ∧ HasWeight attr c t ∧ ¬ Linked (g.pairsAbove attr t) x y := by
  rw [umst_pair_iff hu h hw hsep hord]
  have hlink : ∀ (t : K) (x y : V), LinkedBy g.endsAt {j | t < w j} x y ↔ Linked (g.pairsAbove attr t) x y := by
    intro t x y
    unfold LinkedBy Linked
    have : (fun a b => ∃ i ∈ {j | t < w j}, g.endsAt i = (a, b)) = fun a b => (a, b) ∈ g.pairsAbove attr t := by
      funext a b
      rw [mem_pairsAbove]
      apply propext
      constructor
      · rintro ⟨i, hi, he⟩
        cases he
        exact ⟨g.edgesData[i].2.2, w i, List.getElem_mem _, hw i, hi⟩
      · rintro ⟨c, w', hm, h1, h2⟩
        obtain ⟨i, hi, he⟩ := List.mem_iff_getElem.1 hm
        have e1 := hw ⟨i, hi⟩
        have e2 : g.edgesData[(⟨i, hi⟩ : Fin _)] = (a, b, c) := he
        rw [e2] at e1
        refine ⟨⟨i, hi⟩, ?_, ?_⟩
        · show t < w ⟨i, hi⟩
          rw [HasWeight.unique e1 h1]; exact h2
        · simp only [Graph.endsAt, e2]
    rw [this]
  constructor
  · rintro ⟨i, he, hi⟩
    have e2 : g.edgesData[i] = (x, y, g.edgesData[i].2.2) := by
      have : g.endsAt i = (g.edgesData[i].1, g.edgesData[i].2.1) := rfl
      rw [he] at this
      obtain ⟨e1, e2⟩ := Prod.mk.inj this
      rw [e1, e2]
    exact ⟨g.edgesData[i].2.2, w i, e2 ▸ List.getElem_mem _, hw i, fun hc => hi ((hlink _ _ _).2 hc)⟩
  · rintro ⟨c, t, hm, h1, h2⟩
    obtain ⟨i, hi, he⟩ := List.mem_iff_getElem.1 hm
    have e1 := hw ⟨i, hi⟩
    have e2 : g.edgesData[(⟨i, hi⟩ : Fin _)] = (x, y, c) := he
    rw [e2] at e1
    refine ⟨⟨i, hi⟩, by simp only [Graph.endsAt, e2], fun hc => h2 ?_⟩
    rw [HasWeight.unique h1 e1]
    exact (hlink _ _ _).1 hc

section
variable (s : Added g g' u v a)
include s

/-- The pair under which the new edge is listed. -/
def Added.pair (_ : Added g g' u v a) : V × V := ((g.orient ⟨u, v, []⟩).u, (g.orient ⟨u, v, []⟩).v)

theorem Added.pair_cases : s.pair = (u, v) ∨ (g.directed = false ∧ s.pair = (v, u)) := by
  unfold Added.pair
  rcases g.orient_cases ⟨u, v, []⟩ with h | ⟨hd, h⟩ <;> rw [h]
  · exact .inl rfl
  · exact .inr ⟨hd, rfl⟩

theorem Added.mem_edgesData (x y : V) (c : Attrs (Val K)) :
    (x, y, c) ∈ g'.edgesData ↔ (x, y, c) ∈ g.edgesData ∨ ((x, y) = s.pair ∧ c = Dict.update [] a) := by
  have ho : ∀ d : Dict PyKey (Attrs (Val K)), (g.orient ⟨u, v, d⟩).u = (g.orient ⟨u, v, []⟩).u ∧
      (g.orient ⟨u, v, d⟩).v = (g.orient ⟨u, v, []⟩).v := by
    intro d; unfold Graph.orient; split <;> exact ⟨rfl, rfl⟩
  have hdata : ∀ k c, (k, c) ∈ addToData g.multi [] none a ↔
      k = (if g.multi then newEdgeKey ([] : Dict PyKey (Attrs (Val K))) else .int 0) ∧ c = Dict.update [] a := by
    intro k c
    unfold addToData
    simp [Dict.set, Dict.get?]
  rw [Graph.mem_edgesData s.wf, Graph.mem_edgesData s.wf']
  simp only [s.orient]
  constructor
  · rintro ⟨l, hl, h1, h2, k, hk⟩
    rw [s.eq] at hl
    rcases List.mem_append.1 hl with hl | hl
    · exact .inl ⟨l, hl, h1, h2, k, hk⟩
    · rw [List.mem_singleton] at hl
      subst hl
      right
      refine ⟨?_, ((hdata _ _).1 hk).2⟩
      rw [← h1, ← h2, (ho _).1, (ho _).2]
      rfl
  · rintro (⟨l, hl, h1, h2, hk⟩ | ⟨h, rfl⟩)
    · exact ⟨l, by rw [s.eq]; exact List.mem_append_left _ hl, h1, h2, hk⟩
    · obtain ⟨rfl, rfl⟩ := Prod.mk.inj h
      exact ⟨⟨u, v, addToData g.multi [] none a⟩, by rw [s.eq]; simp, (ho _).1, (ho _).2, _, (hdata _ _).2 ⟨rfl, rfl⟩⟩

theorem Added.pair_new (c : Attrs (Val K)) {x y : V} (hxy : (x, y) = s.pair) : (x, y, c) ∉ g.edgesData := by
  intro hc
  have : g.hasEdge x y = true := (hasEdge_listed s.wf).2 (.inl (Pelote.mem_edges.2 ⟨c, hc⟩))
  rcases s.pair_cases with h | ⟨-, h⟩ <;> rw [h] at hxy <;> cases hxy
  · exact s.new (.inl this)
  · exact s.new (.inr this)

theorem Added.weights {attr : String} {w' : Fin g'.edgesData.length → K} (hw' : g'.Weights attr w') (hsep' : NoNearTies w') :
    ∃ w : Fin g.edgesData.length → K, g.Weights attr w ∧ NoNearTies w := by
  have hf : ∀ i : Fin g.edgesData.length, ∃ j : Fin g'.edgesData.length, g'.edgesData[j] = g.edgesData[i] := by
    intro i
    have hm : g.edgesData[i] ∈ g'.edgesData := (s.mem_edgesData _ _ _).2 (.inl (List.getElem_mem _))
    obtain ⟨j, hj, he⟩ := List.mem_iff_getElem.1 hm
    exact ⟨⟨j, hj⟩, he⟩
  choose f hf using hf
  exact ⟨fun i => w' (f i), fun i => hf i ▸ hw' (f i), fun i j => hsep' (f i) (f j)⟩

/-- Which pairs get linked by edges above a given weight. -/
theorem Added.linkedAbove {attr : String} {wn : K} (hwn : HasWeight attr (Dict.update [] a) wn) (t : K) (x y : V) :
    Linked (g'.pairsAbove attr t) x y ↔ Linked (g.pairsAbove attr t) x y ∨
      (t < wn ∧ ((Linked (g.pairsAbove attr t) x u ∧ Linked (g.pairsAbove attr t) v y) ∨
        (Linked (g.pairsAbove attr t) x v ∧ Linked (g.pairsAbove attr t) u y))) := by
  have hmem : ∀ p q, (p, q) ∈ g'.pairsAbove attr t ↔ (p, q) ∈ g.pairsAbove attr t ∨ ((p, q) = s.pair ∧ t < wn) := by
    intro p q
    simp only [mem_pairsAbove, s.mem_edgesData]
    constructor
    · rintro ⟨c, w, hm | ⟨hp, rfl⟩, h1, h2⟩
      · exact .inl ⟨c, w, hm, h1, h2⟩
      · exact .inr ⟨hp, HasWeight.unique hwn h1 ▸ h2⟩
    · rintro (⟨c, w, hm, h1, h2⟩ | ⟨hp, h2⟩)
      · exact ⟨c, w, .inl hm, h1, h2⟩
      · exact ⟨_, wn, .inr ⟨hp, rfl⟩, hwn, h2⟩
  by_cases ht : t < wn
  · simp only [ht, true_and]
    rw [← linked_cons]
    constructor
    · refine Linked.bind (fun p q hpq => ?_)
      rcases (hmem p q).1 hpq with h | ⟨h, -⟩
      · exact .of_mem (List.mem_cons_of_mem _ h)
      · rcases s.pair_cases with hp | ⟨-, hp⟩ <;> rw [hp] at h <;> cases h
        · exact .of_mem List.mem_cons_self
        · exact (Linked.of_mem List.mem_cons_self).symm
    · refine Linked.bind (fun p q hpq => ?_)
      rcases List.mem_cons.1 hpq with h | h
      · cases h
        have hm := Linked.of_mem ((hmem s.pair.1 s.pair.2).2 (.inr ⟨rfl, ht⟩))
        rcases s.pair_cases with hp | ⟨-, hp⟩ <;> rw [hp] at hm
        · exact hm
        · exact hm.symm
      · exact .of_mem ((hmem _ _).2 (.inl h))
  · simp only [ht, false_and, or_false]
    constructor <;> refine Linked.bind (fun p q hpq => .of_mem ?_)
    · exact ((hmem p q).1 hpq).resolve_right (fun hc => ht hc.2)
    · exact (hmem p q).2 (.inl hpq)

/-- C98.  The union of maximum spanning trees, on graphs of any kind: the new edge is kept when no path of heavier edges joins its
ends; an edge kept before still is, unless the new edge completes a path of heavier ones between its ends; no other edge is
kept. -/
theorem unionOfMaximumSpanningTrees_addEdge {ulongMax : Nat} (hu : 2^32 - 1 ≤ ulongMax) {attr : String}
    {w' : Fin g'.edgesData.length → K}
    (hw' : g'.Weights attr w') (hsep' : NoNearTies w') (hord : SafeOrder ulongMax g.order) (hk : a.keys.Nodup) {wn : K}
    (hwn : HasWeight attr a wn) (x y : V) :
    (∃ c, (x, y, c) ∈ (unionOfMaximumSpanningTrees ulongMax g' attr).yields) ↔
      ((x, y) = s.pair ∧ ¬ Linked (g.pairsAbove attr wn) u v) ∨
      ∃ c t, (x, y, c) ∈ g.edgesData ∧ HasWeight attr c t ∧ ¬ Linked (g.pairsAbove attr t) x y ∧
        ¬ (t < wn ∧ ((Linked (g.pairsAbove attr t) x u ∧ Linked (g.pairsAbove attr t) v y) ∨
          (Linked (g.pairsAbove attr t) x v ∧ Linked (g.pairsAbove attr t) u y))) := by
  have hwn' : HasWeight attr (Dict.update [] a) wn := by
    unfold HasWeight
    rw [Dict.get?_update _ _ hk]
    simpa [Dict.get?, HasWeight] using hwn
  have hord' : SafeOrder ulongMax g'.order := by rw [s.order]; exact hord
  rw [umst_pair_above hu s.wf' hw' hsep' hord']
  have hnewlink : ∀ {x y : V}, (x, y) = s.pair → (Linked (g.pairsAbove attr wn) x y ↔ Linked (g.pairsAbove attr wn) u v) := by
    intro x y hp
    rcases s.pair_cases with h | ⟨-, h⟩ <;> rw [h] at hp <;> cases hp
    · exact Iff.rfl
    · exact ⟨Linked.symm, Linked.symm⟩
  constructor
  · rintro ⟨c, t, hm, h1, h2⟩
    rw [s.linkedAbove hwn', not_or] at h2
    rcases (s.mem_edgesData _ _ _).1 hm with hm | ⟨hp, rfl⟩
    · exact .inr ⟨c, t, hm, h1, h2.1, h2.2⟩
    · have ht : t = wn := HasWeight.unique h1 hwn'
      subst ht
      exact .inl ⟨hp, fun hc => h2.1 ((hnewlink hp).2 hc)⟩
  · rintro (⟨hp, h⟩ | ⟨c, t, hm, h1, h2, h3⟩)
    · refine ⟨_, wn, (s.mem_edgesData _ _ _).2 (.inr ⟨hp, rfl⟩), hwn', ?_⟩
      rw [s.linkedAbove hwn']
      rintro (hc | hc)
      · exact h ((hnewlink hp).1 hc)
      · exact lt_irrefl _ hc.1
    · refine ⟨c, t, (s.mem_edgesData _ _ _).2 (.inl hm), h1, ?_⟩
      rw [s.linkedAbove hwn']
      rintro (hc | hc)
      · exact h2 hc
      · exact h3 hc

/-- C98.  In particular: nothing else appears; nothing is dropped when the edge joins two components; and nothing changes when it
is not kept itself. -/
theorem unionOfMaximumSpanningTrees_addEdge' {ulongMax : Nat} (hu : 2^32 - 1 ≤ ulongMax) {attr : String}
    {w' : Fin g'.edgesData.length → K}
    (hw' : g'.Weights attr w') (hsep' : NoNearTies w') (hord : SafeOrder ulongMax g.order) (hk : a.keys.Nodup) {wn : K}
    (hwn : HasWeight attr a wn) :
    let kept (g : Graph V (Val K)) (p : V × V) := ∃ c, (p.1, p.2, c) ∈ (unionOfMaximumSpanningTrees ulongMax g attr).yields
    (∀ p, kept g' p → kept g p ∨ p = s.pair) ∧
    (¬ Linked g.edges u v → ∀ p, kept g' p ↔ kept g p ∨ p = s.pair) ∧
    (¬ kept g' s.pair → ∀ p, kept g' p ↔ kept g p) := by
  intro kept
  obtain ⟨w, hw, hsep⟩ := s.weights hw' hsep'
  have key := unionOfMaximumSpanningTrees_addEdge s hu hw' hsep' hord hk hwn
  have old := umst_pair_above hu s.wf hw hsep hord
  have hsub : ∀ {t x y}, Linked (g.pairsAbove attr t) x y → Linked g.edges x y := by
    intro t x y
    refine Linked.bind (fun p q hpq => .of_mem ?_)
    obtain ⟨c, _, hm, -⟩ := mem_pairsAbove.1 hpq
    exact Pelote.mem_edges.2 ⟨c, hm⟩
  have h1 : ∀ p, kept g' p → kept g p ∨ p = s.pair := by
    rintro ⟨x, y⟩ h
    rcases (key x y).1 h with ⟨hp, -⟩ | ⟨c, t, hm, a1, a2, -⟩
    · exact .inr hp
    · exact .inl ((old x y).2 ⟨c, t, hm, a1, a2⟩)
  refine ⟨h1, ?_, ?_⟩
  · intro hl p
    refine ⟨h1 p, ?_⟩
    obtain ⟨x, y⟩ := p
    rintro (h | h)
    · obtain ⟨c, t, hm, a1, a2⟩ := (old x y).1 h
      refine (key x y).2 (.inr ⟨c, t, hm, a1, a2, ?_⟩)
      have hxy : Linked g.edges x y := .of_mem (Pelote.mem_edges.2 ⟨c, hm⟩)
      rintro ⟨-, ⟨b1, b2⟩ | ⟨b1, b2⟩⟩
      · exact hl (((hsub b1).symm.trans hxy).trans (hsub b2).symm)
      · exact hl (((hsub b2).trans hxy.symm).trans (hsub b1))
    · exact (key x y).2 (.inl ⟨h, fun hc => hl (hsub hc)⟩)
  · intro hn p
    have hlink : Linked (g.pairsAbove attr wn) u v := by
      by_contra hc
      exact hn ((key _ _).2 (.inl ⟨rfl, hc⟩))
    constructor
    · intro h
      rcases h1 p h with h' | h'
      · exact h'
      · exact absurd (h' ▸ h) hn
    · obtain ⟨x, y⟩ := p
      intro h
      obtain ⟨c, t, hm, a1, a2⟩ := (old x y).1 h
      refine (key x y).2 (.inr ⟨c, t, hm, a1, a2, ?_⟩)
      rintro ⟨ht, hb⟩
      have hmono : ∀ {p q}, Linked (g.pairsAbove attr wn) p q → Linked (g.pairsAbove attr t) p q := by
        intro p q
        refine Linked.bind (fun p q hpq => .of_mem ?_)
        obtain ⟨c, w, hm, c1, c2⟩ := mem_pairsAbove.1 hpq
        exact mem_pairsAbove.2 ⟨c, w, hm, c1, ht.trans c2⟩
      rcases hb with ⟨b1, b2⟩ | ⟨b1, b2⟩
      · exact a2 ((b1.trans (hmono hlink)).trans b2)
      · exact a2 ((b1.trans (hmono hlink).symm).trans b2)

end

end

/-! ### Disparity -/

section
variable {V K : Type} [LinearOrder V] [Field K] [LinearOrder K] [IsStrictOrderedRing K] [AttrVal (Val K)] {g g' : Graph V (Val K)} {u v : V}
  {a : Attrs (Val K)} (s : Added g g' u v a)
include s

theorem Added.adj {n : V} (hu : n ≠ u) (hv : n ≠ v) : g'.adj n = g.adj n := by
  have hl : Link.from? g.directed n ⟨u, v, addToData g.multi [] none a⟩ = none := by
    unfold Link.from?
    simp [hu.symm, hv.symm]
  unfold Graph.adj
  rw [s.directed, s.eq, List.filterMap_append]
  simp [hl]

theorem Added.pred {n : V} (hu : n ≠ u) (hv : n ≠ v) : g'.pred n = g.pred n := by
  have hl : Link.to? g.directed n ⟨u, v, addToData g.multi [] none a⟩ = none := by
    unfold Link.to? Link.from?
    simp [hu.symm, hv.symm]
  unfold Graph.pred
  rw [s.directed, s.eq, List.filterMap_append]
  simp [hl]

theorem Added.degree {n : V} (hu : n ≠ u) (hv : n ≠ v) : g'.degree n = g.degree n := by
  unfold Graph.degree
  rw [s.directed, s.adj hu hv, s.pred hu hv]

theorem Added.weighted {attr : String} {w : V → V → K} (hw : g'.Weighted attr w) : g.Weighted attr w := fun e he =>
  hw e ((s.mem_edgesData _ _ _).2 (.inl he))

theorem Added.roundedDisparity (rnd : K → K) (pow : K → Nat → K) (reverse : Bool) (w : V → V → K) {x y : V} (h1 : x ≠ u)
    (h2 : x ≠ v) (h3 : y ≠ u) (h4 : y ≠ v) :
    g'.roundedDisparity rnd pow reverse w x y = g.roundedDisparity rnd pow reverse w x y := by
  have hs : ∀ {n : V}, n ≠ u → n ≠ v → g'.roundedStrength rnd w n = g.roundedStrength rnd w n := by
    intro n hu hv
    unfold Graph.roundedStrength Graph.edgesOf
    rw [s.adj hu hv]
  unfold Graph.roundedDisparity
  rw [hs h1 h2, hs h3 h4, s.degree h1 h2, s.degree h3 h4]

/-- C98.  The disparity of the edges that do not touch the new one does not change, whatever the rounding. -/
theorem edgeDisparity_addEdge [PyOrd V] (ar : Arith K) (ho : OrderedKeys V) (hd : g.directed = false) (hm : g.multi = false)
    {attr : String} {w : V → V → K} (hsym : ∀ u v, w u v = w v u) (hw : g'.Weighted attr w)
    (hS : ∀ x y, g.hasEdge x y = true → g.roundedStrength ar.rnd w x ≠ 0)
    (hS' : ∀ x y, g'.hasEdge x y = true → g'.roundedStrength ar.rnd w x ≠ 0) (reverse : Bool) :
    ∃ d d', edgeDisparityA ar g attr reverse = .ok d ∧ edgeDisparityA ar g' attr reverse = .ok d' ∧
      (∀ p, p ∈ d'.keys ↔ p ∈ d.keys ∨ p = ordPair u v) ∧
      ∀ x y, x ≠ u → x ≠ v → y ≠ u → y ≠ v → d'.get? (x, y) = d.get? (x, y) := by
  obtain ⟨d, h1, -, h2⟩ := edgeDisparityA_exact ar ho s.wf hd hm hsym (s.weighted hw) hS reverse
  obtain ⟨d', h1', -, h2'⟩ := edgeDisparityA_exact ar ho s.wf' (s.directed.trans hd) (s.multi.trans hm) hsym hw hS' reverse
  have hkey : ∀ {d : Dict (V × V) K} {p : V × V}, p ∈ d.keys ↔ ∃ x, d.get? p = some x := by
    intro d p
    refine ⟨Dict.exists_get?_of_mem_keys, ?_⟩
    rintro ⟨x, hx⟩
    by_contra hc
    rw [Dict.get?_eq_none_iff.2 hc] at hx
    cases hx
  refine ⟨d, d', h1, h1', ?_, ?_⟩
  · rintro ⟨x, y⟩
    rw [hkey, hkey]
    simp only [h2, h2', s.hasEdge, hd, samePair_iff]
    have hop : (x, y) = ordPair u v ↔ x ≤ y ∧ ((x = u ∧ y = v) ∨ (x = v ∧ y = u)) := by
      rw [eq_comm, ordPair_eq]
      simp only [eq_comm, and_comm]
    rw [hop]
    constructor
    · rintro ⟨_, hle, h | h, -⟩
      · exact .inl ⟨_, hle, h, rfl⟩
      · exact .inr ⟨hle, by simpa using h⟩
    · rintro (⟨_, hle, h, -⟩ | ⟨hle, h⟩)
      · exact ⟨_, hle, .inl h, rfl⟩
      · exact ⟨_, hle, .inr (by simpa using h), rfl⟩
  · intro x y a1 a2 a3 a4
    apply Option.ext
    intro n
    have : g'.hasEdge x y = true ↔ g.hasEdge x y = true := by
      rw [s.hasEdge, samePair_iff]
      refine ⟨?_, .inl⟩
      rintro (h | ⟨h, _⟩ | ⟨_, h, _⟩)
      · exact h
      · exact absurd h a1
      · exact absurd h a2
    rw [h2, h2', this, s.roundedDisparity _ _ _ _ a1 a2 a3 a4]

end

/-! ### Non-triviality -/

/-- A path of four nodes, before its ends get joined. -/
def pathSample : Graph Int (Val ℚ) :=
  ⟨false, false, [], [(1, []), (2, []), (3, []), (4, [])],
    [⟨1, 2, [(.int 0, [(.str "weight", .num 3)])]⟩, ⟨2, 3, [(.int 0, [(.str "weight", .num 1)])]⟩,
     ⟨3, 4, [(.int 0, [(.str "weight", .num 2)])]⟩]⟩

/-- The same with the edge between nodes 1 and 3. -/
def pathSample' : Graph Int (Val ℚ) :=
  { pathSample with links := pathSample.links ++ [⟨1, 3, [(.int 0, [(.str "weight", .num 2)])]⟩] }

set_option synthInstance.maxSize 2000 in
theorem pathSample_added : Added pathSample pathSample' 1 3 [(.str "weight", .num 2)] where
  wf := by constructor <;> decide +kernel
  kw := by
    intro k hk
    simp [Dict.keys] at hk
    subst hk
    exact ⟨_, rfl, by decide +kernel⟩
  left := by decide +kernel
  right := by decide +kernel
  new := by decide +kernel
  result := by rfl

set_option synthInstance.maxSize 2000 in
/-- Joining nodes 1 and 3 makes a triangle; the edge of weight 1 leaves the spanning tree, which the new one enters. -/
example : triangularStrength pathSample true = .ok [((1, 2), 0), ((2, 3), 0), ((3, 4), 0)] ∧
    (triangularStrength pathSample' true).map (fun d => (d.get? (1, 2), d.get? (1, 3), d.get? (3, 4))) =
      .ok (some 1, some 1, some 0) ∧
    (unionOfMaximumSpanningTrees (2^64 - 1) pathSample "weight").yields.map (fun e => (e.1, e.2.1)) =
      [(1, 2), (3, 4), (2, 3)] ∧
    (unionOfMaximumSpanningTrees (2^64 - 1) pathSample' "weight").yields.map (fun e => (e.1, e.2.1)) =
      [(1, 2), (1, 3), (3, 4)] := by decide +kernel

end Pelote
