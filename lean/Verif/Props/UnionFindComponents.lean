import Verif.Props.UnionFind
import Verif.Props.Components

/-! C131: the components of a graph by union-find and by traversal. -/
set_option linter.unusedSectionVars false
namespace Pelote
open Graph

section
variable {V A : Type} [DecidableEq V] {g : Graph V A}

theorem mem_seenOps (ops : List (UFOp V)) (hc : ∀ op ∈ ops, op ≠ .clear) (seen : List V) (x : V) :
    x ∈ ops.foldl UFOp.seenNext seen ↔ x ∈ seen ∨ ∃ op ∈ ops, x ∈ op.items := by
  induction ops generalizing seen with
  | nil => simp
  | cons op ops ih =>
    rw [List.foldl_cons, ih (fun o ho => hc o (List.mem_cons_of_mem _ ho))]
    have h1 : x ∈ op.seenNext seen ↔ x ∈ seen ∨ x ∈ op.items := by
      have := hc op List.mem_cons_self
      cases op <;> first | exact absurd rfl this | exact mem_foldl_showKey
    rw [h1]
    simp only [List.mem_cons, exists_eq_or_imp, or_assoc]

theorem seenOps_nodup (ops : List (UFOp V)) {seen : List V} (h : seen.Nodup) : (ops.foldl UFOp.seenNext seen).Nodup := by
  induction ops generalizing seen with
  | nil => exact h
  | cons op ops ih =>
    rw [List.foldl_cons]
    refine ih ?_
    cases op <;> first | exact List.nodup_nil | exact nodup_foldl_showKey h _

theorem conforms_append {cap : Nat} (a b : List (UFOp V)) {seen : List V} {pairs : List (V × V)} {outs : List UFOut}
    (h : DSConforms cap seen pairs (a ++ b) outs) :
    ∃ o1 o2, outs = o1 ++ o2 ∧ o1.length = a.length ∧
      DSConforms cap (a.foldl UFOp.seenNext seen) (a.foldl UFOp.next pairs) b o2 := by
  induction a generalizing seen pairs outs with
  | nil => exact ⟨[], outs, rfl, rfl, h⟩
  | cons op a ih =>
    cases outs with
    | nil => exact absurd h (by simp [DSConforms])
    | cons o outs =>
      obtain ⟨-, h2⟩ := h
      obtain ⟨o1, o2, rfl, hl, h3⟩ := ih h2
      exact ⟨o :: o1, o2, rfl, by simp [hl], h3⟩

theorem conforms_card {cap : Nat} (ns : List V) {seen : List V} {pairs : List (V × V)} {b : List (UFOp V)} {outs : List UFOut}
    (h : DSConforms cap seen pairs (ns.map .card ++ b) outs) :
    ∃ o2, outs = ns.map (fun n => .nat (Set.ncard {y | Linked pairs n y})) ++ o2 ∧
      DSConforms cap ((ns.map UFOp.card).foldl UFOp.seenNext seen) pairs b o2 := by
  induction ns generalizing seen outs with
  | nil => exact ⟨outs, rfl, h⟩
  | cons n ns ih =>
    cases outs with
    | nil => exact absurd h (by simp [DSConforms])
    | cons o outs =>
      obtain ⟨h1, h2⟩ := h
      obtain ⟨o2, rfl, h3⟩ := ih h2
      cases o with
      | nat k => exact ⟨o2, by rw [show k = _ from h1]; rfl, h3⟩
      | bool => exact absurd h1 (by simp [DSExpected])
      | int => exact absurd h1 (by simp [DSExpected])
      | unit => exact absurd h1 (by simp [DSExpected])

theorem foldl_unions (es : List (V × V)) (pairs : List (V × V)) :
    (es.map fun e => UFOp.union e.1 e.2).foldl UFOp.next pairs = es.reverse ++ pairs := by
  induction es generalizing pairs with
  | nil => rfl
  | cons e es ih => rw [List.map_cons, List.foldl_cons, ih]; simp [UFOp.next]

theorem linked_iff_of_mem {ps qs : List (V × V)} (h : ∀ p, p ∈ ps ↔ p ∈ qs) (x y : V) : Linked ps x y ↔ Linked qs x y :=
  ⟨.mono fun p hp => (h p).1 hp, .mono fun p hp => (h p).2 hp⟩

/-- The number of classes is that of the first nodes. -/
theorem card_classes {seen nodes : List V} (hn : nodes.Nodup) (hs : ∀ x, x ∈ seen ↔ x ∈ nodes) (pairs : List (V × V)) :
    Nat.card (Quotient (linkedSetoidOn seen pairs)) = (firstNodes nodes pairs).length := by
  classical
  have hfn : (firstNodes nodes pairs).Nodup := hn.filter _
  have hsub : ∀ r ∈ firstNodes nodes pairs, r ∈ seen := fun r hr => (hs r).2 (List.mem_of_mem_filter hr)
  rw [← List.toFinset_card_of_nodup hfn, ← Nat.card_eq_finsetCard]
  refine (Nat.card_congr (Equiv.ofBijective
    (fun r : (firstNodes nodes pairs).toFinset => (Quotient.mk (linkedSetoidOn seen pairs) ⟨r.1, hsub r.1 (List.mem_toFinset.1 r.2)⟩))
    ⟨?_, ?_⟩)).symm
  · intro r r' he
    have hl : Linked pairs r.1 r'.1 := Quotient.exact he
    have hr' := List.mem_toFinset.1 r'.2
    obtain ⟨q, -, hu⟩ := firstNodes_partition pairs r'.1 ((hs _).1 (hsub _ hr'))
    exact Subtype.ext ((hu r.1 ⟨List.mem_toFinset.1 r.2, hl⟩).trans (hu r'.1 ⟨hr', .refl _ _⟩).symm)
  · intro q
    induction q using Quotient.ind with
    | _ x =>
      obtain ⟨r, ⟨hr, hl⟩, -⟩ := firstNodes_partition pairs x.1 ((hs _).1 x.2)
      exact ⟨⟨r, List.mem_toFinset.2 hr⟩, Quotient.sound hl⟩

/-- The calls: the ends of each edge are united, then the cardinality of each node is asked for, then the length. -/
def componentCalls (es : List (V × V)) (nodes : List V) : List (UFOp V) :=
  (es.map fun e => .union e.1 e.2) ++ (nodes.map .card ++ [.len])

theorem componentCalls_items (h : g.WF) {es : List (V × V)} (hes : es.Perm g.edges) :
    ∀ op ∈ componentCalls es g.nodes, op ≠ .clear ∧ ∀ x ∈ op.items, x ∈ g.nodes := by
  have hends : ∀ e ∈ es, e.1 ∈ g.nodes ∧ e.2 ∈ g.nodes := by
    intro e he
    exact hasEdge_mem h ((hasEdge_listed h).2 (.inl (hes.mem_iff.1 he)))
  intro op hop
  unfold componentCalls at hop
  simp only [List.mem_append, List.mem_map, List.mem_singleton] at hop
  rcases hop with ⟨e, he, rfl⟩ | ⟨n, hn, rfl⟩ | rfl
  · refine ⟨by simp, fun x hx => ?_⟩
    simp only [UFOp.items, List.mem_cons, List.not_mem_nil, or_false] at hx
    rcases hx with rfl | rfl
    · exact (hends e he).1
    · exact (hends e he).2
  · exact ⟨by simp, fun x hx => by simp only [UFOp.items, List.mem_singleton] at hx; rwa [hx]⟩
  · exact ⟨by simp, fun x hx => by simp [UFOp.items] at hx⟩

/-- C131.  These calls raise nothing, but at the capacities at which the structure may overflow (C04). -/
theorem disjointSet_components_runs {ulongMax : Nat} (hu : 2^32 - 1 ≤ ulongMax) (h8 : g.order ≠ 2^8) (h16 : g.order ≠ 2^16)
    (h32 : g.order = 2^32 → ulongMax ≠ 2^32 - 1) (h64 : g.order ≠ 2^64) {s : DisjointSet V}
    (hinit : DisjointSet.init ulongMax g.order = .ok s) (h : g.WF) {es : List (V × V)} (hes : es.Perm g.edges) :
    ∃ s' outs, s.run (componentCalls es g.nodes) = .ok (s', outs) := by
  have hops := componentCalls_items h hes
  have horder : g.nodes.length = g.order := by
    unfold Graph.nodes Graph.order Dict.keys
    rw [List.length_map]
  have hfit : ∀ pre suf, componentCalls es g.nodes = pre ++ suf →
      (pre.foldl UFOp.seenNext []).length ≤ g.order := by
    intro pre suf he
    rw [← horder]
    have hpre : ∀ op ∈ pre, op ≠ .clear ∧ ∀ x ∈ op.items, x ∈ g.nodes := fun op ho => hops op (by rw [he]; exact List.mem_append_left _ ho)
    refine ((seenOps_nodup pre List.nodup_nil).subperm fun x hx => ?_).length_le
    rcases (mem_seenOps pre (fun op ho => (hpre op ho).1) [] x).1 hx with hx | ⟨op, ho, hx⟩
    · cases hx
    · exact (hpre op ho).2 x hx
  exact disjointSet_never_raises hu h8 h16 h32 h64 hinit _ hfit

/-- C131.  A `DisjointSet` of as many items as an undirected graph has nodes, in which the ends of each edge are united, in any order:
when nothing is raised, the cardinality of each node is then the order of its component, and the length is the number of orders that
`connected_component_orders` yields; the first node of each component has the order yielded for it. -/
theorem disjointSet_components {ulongMax : Nat} (hu : 2^32 - 1 ≤ ulongMax) {s s' : DisjointSet V} {outs : List UFOut}
    (hinit : DisjointSet.init ulongMax g.order = .ok s) (h : g.WF) (hd : g.directed = false) {es : List (V × V)} (hes : es.Perm g.edges)
    (hrun : s.run (componentCalls es g.nodes) = .ok (s', outs)) :
    ∃ bs, outs = bs ++ (g.nodes.map (fun n => .nat (componentOf g.nodes g.edges n).ncard) ++
          [.int (connectedComponentOrders g none).yields.length]) ∧ bs.length = g.edges.length ∧
      (connectedComponentOrders g none).yields = (firstNodes g.nodes g.edges).map (fun n => (componentOf g.nodes g.edges n).ncard) := by
  have hends : ∀ e ∈ es, e.1 ∈ g.nodes ∧ e.2 ∈ g.nodes := by
    intro e he
    exact hasEdge_mem h ((hasEdge_listed h).2 (.inl (hes.mem_iff.1 he)))
  have hops := componentCalls_items h hes
  unfold componentCalls at hops hrun
  have horder : g.nodes.length = g.order := by
    unfold Graph.nodes Graph.order Dict.keys
    rw [List.length_map]
  have hconf := disjointSet_history hu hinit hrun
  obtain ⟨o1, o2, rfl, hl1, h2⟩ := conforms_append _ _ hconf
  rw [foldl_unions, List.append_nil] at h2
  obtain ⟨o3, rfl, h3⟩ := conforms_card _ h2
  rw [← List.foldl_append] at h3
  have hl : ∀ x y, Linked es.reverse x y ↔ Linked g.edges x y :=
    linked_iff_of_mem fun p => by rw [List.mem_reverse, hes.mem_iff]
  have hlin : ∀ n ∈ g.nodes, ∀ y, Linked g.edges n y → y ∈ g.nodes := by
    intro n hn y hy
    rcases hy.eq_or_mem with rfl | hm
    · exact hn
    · obtain ⟨-, p, hp, hy⟩ := hm
      have := hends p (hes.mem_iff.2 hp)
      rcases hy with rfl | rfl
      · exact this.1
      · exact this.2
  have hcard : (g.nodes.map fun n => UFOut.nat (Set.ncard {y | Linked es.reverse n y})) =
      g.nodes.map (fun n => .nat (componentOf g.nodes g.edges n).ncard) := by
    refine List.map_congr_left fun n hn => ?_
    congr 2
    ext y
    unfold componentOf
    simp only [Set.mem_ofPred_eq, hl]
    exact ⟨fun hy => ⟨hlin n hn y hy, hy⟩, fun hy => hy.2⟩
  have hyields : (connectedComponentOrders g none).yields =
      (firstNodes g.nodes g.edges).map (fun n => (componentOf g.nodes g.edges n).ncard) := by
    rw [connectedComponentOrders_exact h hd]
    rfl
  refine ⟨o1, ?_, by rw [hl1, List.length_map, hes.length_eq], hyields⟩
  rw [hcard]
  have hlen : o3 = [.int (connectedComponentOrders g none).yields.length] := by
    cases o3 with
    | nil => exact absurd h3 (by simp [DSConforms])
    | cons o o3 =>
      obtain ⟨k1, k2⟩ := h3
      cases o3 with
      | cons => exact absurd k2 (by simp [DSConforms])
      | nil =>
        cases o with
        | int k =>
          have hseen : ∀ x, x ∈ ((es.map fun e => UFOp.union e.1 e.2) ++ g.nodes.map UFOp.card).foldl UFOp.seenNext [] ↔ x ∈ g.nodes := by
            intro x
            have hsub : ∀ op ∈ (es.map fun e => UFOp.union e.1 e.2) ++ g.nodes.map UFOp.card,
                op ∈ (es.map fun e => UFOp.union e.1 e.2) ++ (g.nodes.map UFOp.card ++ [.len]) := by
              intro op ho
              rw [← List.append_assoc]
              exact List.mem_append_left _ ho
            rw [mem_seenOps _ (fun op ho => (hops op (hsub op ho)).1)]
            constructor
            · rintro (hx | ⟨op, ho, hx⟩)
              · cases hx
              · exact (hops op (hsub op ho)).2 x hx
            · exact fun hx => .inr ⟨.card x, List.mem_append_right _ (List.mem_map_of_mem hx), by simp [UFOp.items]⟩
          have hnd : g.nodes.Nodup := h.nodup
          have hsl : (((es.map fun e => UFOp.union e.1 e.2) ++ g.nodes.map UFOp.card).foldl UFOp.seenNext []).length = g.order := by
            rw [← horder]
            exact ((List.perm_ext_iff_of_nodup (seenOps_nodup _ List.nodup_nil) hnd).2 hseen).length_eq
          have hq := card_classes hnd hseen es.reverse
          have hfirst : firstNodes g.nodes es.reverse = firstNodes g.nodes g.edges := by
            unfold firstNodes
            refine List.filter_congr fun n _ => ?_
            rw [decide_eq_decide]
            exact forall_congr' fun m => forall_congr' fun _ => forall_congr' fun _ => not_congr (hl m n)
          have k3 : k = (g.order - (((es.map fun e => UFOp.union e.1 e.2) ++ g.nodes.map UFOp.card).foldl UFOp.seenNext []).length : Int) +
              Nat.card (Quotient (linkedSetoidOn (((es.map fun e => UFOp.union e.1 e.2) ++ g.nodes.map UFOp.card).foldl UFOp.seenNext [])
                es.reverse)) := k1
          rw [hsl, hq, hfirst] at k3
          rw [hyields, List.length_map, k3]
          simp
        | nat => exact absurd k1 (by simp [DSExpected])
        | bool => exact absurd k1 (by simp [DSExpected])
        | unit => exact absurd k1 (by simp [DSExpected])
  rw [hlen]

end

/-- Two components: 1, 2 and 3 are linked, 4 is alone. -/
def pathAndNode : Graph Nat Nat :=
  ⟨false, false, [], [(1, []), (2, []), (3, []), (4, [])], [⟨1, 2, [(.int 0, [])]⟩, ⟨3, 2, [(.int 0, [])]⟩]⟩

/-- C131, a case: the hypotheses are met, and both ways find components of 3 and 1 nodes. -/
theorem disjointSet_components_sample : pathAndNode.WF ∧ pathAndNode.directed = false ∧
    (connectedComponentOrders pathAndNode none).yields = [3, 1] ∧
    ((DisjointSet.init (2^64-1) pathAndNode.order).toOption.map fun s =>
      ((s.run (componentCalls pathAndNode.edges pathAndNode.nodes)).map Prod.snd).toOption) =
      some (some [.bool true, .bool true, .nat 3, .nat 3, .nat 3, .nat 1, .int 2]) := by
  exact ⟨by constructor <;> decide, rfl, by decide +kernel, by decide +kernel⟩

end Pelote
