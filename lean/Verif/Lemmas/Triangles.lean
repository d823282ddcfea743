import Verif.Model.Triangles
import Verif.Spec.Triangles
import Verif.Lemmas.Dict
import Verif.Lemmas.Graph
import Verif.Lemmas.Degree
import Mathlib.Data.List.Nodup
import Mathlib.Data.Finset.Card

/-! Lemmas about the triangle enumeration. -/
namespace Pelote
variable {V A : Type} [DecidableEq V]

/-- What the triangle functions need of a view: it lists the relation `E` without repetition, and the
degree is at least 2 on nodes that have two neighbors. -/
structure ViewOf (w : View V) (E : V → V → Prop) : Prop where
  nodup : w.nodes.Nodup
  nbrs : ∀ n, (w.neighbors n).Nodup
  mem : ∀ n m, m ∈ w.neighbors n ↔ E n m
  symm : ∀ n m, E n m → E m n
  node : ∀ n m, E n m → n ∈ w.nodes
  degree : ∀ n a b, E n a → E n b → a ≠ b → 2 ≤ w.degree n

/-- Symmetric duplicate-free adjacency lists over the nodes `S`. -/
structure Adjs (S : List V) (N : V → List V) : Prop where
  nodup : S.Nodup
  lists : ∀ n, (N n).Nodup
  irrefl : ∀ n, n ∉ N n
  closed : ∀ n m, n ∈ S → m ∈ N n → m ∈ S
  symm : ∀ n m, n ∈ S → m ∈ N n → n ∈ N m

/-- The adjacency lists without the nodes already done. -/
def live (N : V → List V) (done : List V) (n : V) : List V := (N n).filter (fun x => !decide (x ∈ done))

/-- What one node yields: for each marked node, its live neighbors that are still marked. -/
def found (N : V → List V) (node : V) : List V → List (V × V × V)
  | [] => []
  | nb :: marked =>
    ((N nb).filter (fun x => !decide (x = node) && decide (x ∈ marked))).map (fun x => (node, nb, x)) ++
    found N node marked

theorem live_cons (N : V → List V) (done : List V) (node n : V) (hn : (N n).Nodup) :
    (live N done n).erase node = live N (node :: done) n := by
  unfold live
  rw [List.Nodup.erase_eq_filter (hn.filter _), List.filter_filter]
  apply List.filter_congr
  intro x _
  by_cases h1 : x = node <;> by_cases h2 : x ∈ done <;> simp [h1, h2]

theorem popMarked_spec (N : V → List V) (done : List V) (node : V) (hnode : node ∉ done)
    (hN : ∀ n, (N n).Nodup) (marked : List V) (adjs : Dict V (List V))
    (hget : ∀ x ∈ marked, adjs.get? x = some (live N done x))
    (hmem : ∀ x ∈ marked, node ∈ N x) (hnd : marked.Nodup) :
    ∃ adjs', popMarked node marked adjs = (found (live N done) node marked, adjs', none) ∧
      (∀ x, adjs'.get? x = if x ∈ marked then some (live N (node :: done) x) else adjs.get? x) := by
  induction marked generalizing adjs with
  | nil => exact ⟨adjs, rfl, by simp⟩
  | cons nb marked ih =>
    have hg := hget nb (by simp)
    have hin : node ∈ live N done nb := by
      unfold live
      simp [hmem nb (by simp), hnode]
    rw [List.nodup_cons] at hnd
    obtain ⟨adjs', he, hs⟩ := ih (adjs.set nb ((live N done nb).erase node))
      (fun x hx => by
        have hne : nb ≠ x := fun e => hnd.1 (e ▸ hx)
        rw [Dict.get?_set_ne _ _ hne]
        exact hget x (by simp [hx]))
      (fun x hx => hmem x (by simp [hx])) hnd.2
    refine ⟨adjs', ?_, ?_⟩
    · unfold popMarked
      simp only [Dict.getItem, hg, if_pos hin, he]
      rfl
    · intro x
      rw [hs, Dict.get?_set, live_cons _ _ _ _ (hN nb)]
      by_cases h1 : nb = x
      · subst h1; simp [hnd.1]
      · have h2 : ¬ x = nb := fun e => h1 e.symm
        simp [h1, h2]

/-! ### What one node yields -/

theorem mem_found {N : V → List V} {node : V} {marked : List V} {t : V × V × V}
    (h : t ∈ found N node marked) :
    t.1 = node ∧ t.2.1 ∈ marked ∧ t.2.2 ∈ marked ∧ t.2.2 ∈ N t.2.1 ∧ t.2.2 ≠ node := by
  induction marked with
  | nil => simp [found] at h
  | cons nb marked ih =>
    simp only [found, List.mem_append, List.mem_map, List.mem_filter, Bool.and_eq_true,
      Bool.not_eq_true', decide_eq_false_iff_not, decide_eq_true_eq] at h
    rcases h with ⟨x, ⟨hx, hne, hm⟩, rfl⟩ | h
    · exact ⟨rfl, by simp, by simp [hm], hx, hne⟩
    · obtain ⟨h1, h2, h3, h4, h5⟩ := ih h
      exact ⟨h1, by simp [h2], by simp [h3], h4, h5⟩

theorem found_complete {N : V → List V} {node : V} {marked : List V} (hnode : node ∉ marked)
    {b c : V} (hb : b ∈ marked) (hc : c ∈ marked) (hne : b ≠ c) (h1 : c ∈ N b) (h2 : b ∈ N c) :
    ({node, b, c} : Finset V) ∈ (found N node marked).map tripleSet := by
  induction marked with
  | nil => simp at hb
  | cons nb marked ih =>
    simp only [List.mem_cons, not_or] at hb hc hnode
    have key : ∀ x y : V, x = nb → y ∈ marked → y ∈ N x →
        (node, x, y) ∈ found N node (nb :: marked) := by
      rintro x y rfl hy hxy
      unfold found
      refine List.mem_append_left _ (List.mem_map.2 ⟨y, ?_, rfl⟩)
      have : y ≠ node := fun e => hnode.2 (e ▸ hy)
      simp [hxy, this, hy]
    rcases hb with hb | hb
    · rcases hc with hc | hc
      · exact absurd (hb.trans hc.symm) hne
      · exact List.mem_map.2 ⟨_, key b c hb hc h1, rfl⟩
    · rcases hc with hc | hc
      · refine List.mem_map.2 ⟨_, key c b hc hb h2, ?_⟩
        unfold tripleSet
        rw [Finset.pair_comm]
      · have := ih hnode.2 hb hc
        unfold found
        rw [List.map_append]
        exact List.mem_append_right _ this

theorem found_nodup {N : V → List V} (hN : ∀ n, (N n).Nodup) {node : V} {marked : List V}
    (hnode : node ∉ marked) (hnd : marked.Nodup) : ((found N node marked).map tripleSet).Nodup := by
  induction marked with
  | nil => simp [found]
  | cons nb marked ih =>
    simp only [List.mem_cons, not_or] at hnode
    rw [List.nodup_cons] at hnd
    unfold found
    rw [List.map_append, List.nodup_append]
    refine ⟨?_, ih hnode.2 hnd.2, ?_⟩
    · rw [List.map_map]
      refine List.Nodup.map_on ?_ ((hN nb).filter _)
      intro x hx y hy e
      simp only [List.mem_filter, Bool.and_eq_true, Bool.not_eq_true', decide_eq_false_iff_not,
        decide_eq_true_eq] at hx hy
      have hxm : x ∈ tripleSet (node, nb, x) := by simp [tripleSet]
      simp only [Function.comp_def] at e
      rw [e] at hxm
      simp only [tripleSet, Finset.mem_insert, Finset.mem_singleton] at hxm
      rcases hxm with h | h | h
      · exact absurd h hx.2.1
      · exact absurd (h ▸ hx.2.2) hnd.1
      · exact h
    · intro s hs s' hs' e
      subst e
      simp only [List.mem_map] at hs hs'
      obtain ⟨_, ⟨x, _, rfl⟩, rfl⟩ := hs
      obtain ⟨t, ht, he⟩ := hs'
      obtain ⟨h1, h2, h3, _⟩ := mem_found ht
      have : nb ∈ tripleSet t := by rw [he]; simp [tripleSet]
      simp only [tripleSet, Finset.mem_insert, Finset.mem_singleton] at this
      rcases this with h | h | h
      · exact hnode.1 (h1.symm.trans h.symm)
      · exact hnd.1 (h ▸ h2)
      · exact hnd.1 (h ▸ h3)

theorem keys_marked (l : List V) (d : Dict V Unit) (hnd : l.Nodup) (hd : ∀ x ∈ l, x ∉ d.keys) :
    (l.foldl (fun (m : Dict V Unit) x => m.set x ()) d).keys = d.keys ++ l := by
  induction l generalizing d with
  | nil => simp
  | cons a l ih =>
    rw [List.nodup_cons] at hnd
    have ha := hd a (by simp)
    have hk : (d.set a ()).keys = d.keys ++ [a] := by rw [Dict.set_of_not_mem _ ha]; simp [Dict.keys]
    rw [List.foldl_cons, ih _ hnd.2, hk]
    · simp
    · intro x hx
      rw [hk]
      have : x ≠ a := fun e => hnd.1 (e ▸ hx)
      simp [hd x (by simp [hx]), this]

/-- A set of three mutually adjacent nodes among `S`. -/
def TriangleIn (N : V → List V) (S : List V) (s : Finset V) : Prop :=
  ∃ a b c, a ∈ S ∧ b ∈ S ∧ c ∈ S ∧ b ∈ N a ∧ c ∈ N b ∧ c ∈ N a ∧ s = {a, b, c}

theorem TriangleIn.card {N : V → List V} {S : List V} (h : ∀ n, n ∉ N n) {s : Finset V}
    (ht : TriangleIn N S s) : s.card = 3 := by
  obtain ⟨a, b, c, _, _, _, h1, h2, h3, rfl⟩ := ht
  refine Finset.card_eq_three.2 ⟨a, b, c, ?_, ?_, ?_, rfl⟩
  · rintro rfl; exact h a h1
  · rintro rfl; exact h a h3
  · rintro rfl; exact h b h2

theorem triangleLoop_spec {S : List V} {N : V → List V} (hA : Adjs S N) (rest : List V) :
    ∀ done adjs, S = done ++ rest →
    (∀ x ∈ rest, adjs.get? x = some (live N done x)) →
    let r := triangleLoop (rest.take (rest.length - 2)) adjs
    r.err = none ∧ (r.yields.map tripleSet).Nodup ∧
      ∀ s, s ∈ r.yields.map tripleSet ↔ TriangleIn N rest s := by
  induction rest with
  | nil =>
    intro done adjs _ _
    refine ⟨rfl, by simp [triangleLoop], ?_⟩
    intro s
    simp [triangleLoop, TriangleIn]
  | cons node rest ih =>
    intro done adjs hS hget
    have hSn := hA.nodup
    rw [hS, List.nodup_append] at hSn
    obtain ⟨_, hnd, hdisj⟩ := hSn
    rw [List.nodup_cons] at hnd
    by_cases hlen : rest.length < 2
    · have h0 : (node :: rest).length - 2 = 0 := by simp only [List.length_cons]; omega
      rw [h0]
      refine ⟨rfl, by simp [triangleLoop], ?_⟩
      intro s
      simp only [List.take_zero, triangleLoop, List.map_nil, List.not_mem_nil, false_iff]
      intro ht
      have hc := ht.card hA.irrefl
      obtain ⟨a, b, c, ha, hb, hc', _, _, _, rfl⟩ := ht
      have hsub : ({a, b, c} : Finset V) ⊆ (node :: rest).toFinset := by
        intro x hx
        simp only [Finset.mem_insert, Finset.mem_singleton] at hx
        rw [List.mem_toFinset]
        rcases hx with rfl | rfl | rfl <;> assumption
      have h1 := Finset.card_le_card hsub
      have h2 := List.toFinset_card_le (node :: rest)
      simp only [List.length_cons] at h2
      omega
    · have hl : (node :: rest).length - 2 = rest.length - 2 + 1 := by
        simp only [List.length_cons]; omega
      rw [hl, List.take_succ_cons]
      have hnode : node ∉ done := fun h => (hdisj node h node (by simp)) rfl
      have hnodeS : node ∈ S := by rw [hS]; simp
      have hg := hget node (by simp)
      have hmarked : ∀ x, x ∈ live N done node ↔ x ∈ N node ∧ x ∈ rest := by
        intro x
        unfold live
        simp only [List.mem_filter, Bool.not_eq_true', decide_eq_false_iff_not]
        constructor
        · rintro ⟨h1, h2⟩
          have := hA.closed node x hnodeS h1
          rw [hS] at this
          simp only [List.mem_append, List.mem_cons] at this
          rcases this with h | h | h
          · exact absurd h h2
          · subst h; exact absurd h1 (hA.irrefl x)
          · exact ⟨h1, h⟩
        · rintro ⟨h1, h2⟩
          exact ⟨h1, fun h => hdisj x h x (by simp [h2]) rfl⟩
      have hlnd : (live N done node).Nodup := (hA.lists node).filter _
      have hkeys : ((live N done node).foldl (fun (m : Dict V Unit) x => m.set x ()) []).keys =
          live N done node := by
        rw [keys_marked _ _ hlnd (by simp [Dict.keys])]
        simp [Dict.keys]
      obtain ⟨adjs', he, hs⟩ := popMarked_spec N done node hnode hA.lists (live N done node).reverse adjs
        (fun x hx => by
          rw [List.mem_reverse, hmarked] at hx
          exact hget x (by simp [hx.2]))
        (fun x hx => by
          rw [List.mem_reverse, hmarked] at hx
          exact hA.symm node x hnodeS hx.1)
        (List.nodup_reverse.2 hlnd)
      obtain ⟨hi1, hi2, hi3⟩ := ih (done ++ [node]) adjs' (by simp [hS]) (by
        intro x hx
        have hxn : x ≠ node := fun e => hnd.1 (e ▸ hx)
        have hlive : live N (done ++ [node]) x = live N (node :: done) x := by
          unfold live
          apply List.filter_congr
          intro y _
          simp [or_comm]
        rw [hs, hlive]
        by_cases hm : x ∈ (live N done node).reverse
        · simp only [hm, if_true]
        · simp only [hm, if_false]
          rw [hget x (by simp [hx]), ← live_cons _ _ _ _ (hA.lists x), List.erase_of_not_mem]
          intro h
          apply hm
          rw [List.mem_reverse, hmarked]
          refine ⟨?_, hx⟩
          have hxS : x ∈ S := by rw [hS]; simp [hx]
          exact hA.symm x node hxS (List.mem_filter.1 h).1)
      have hrun : triangleLoop (node :: rest.take (rest.length - 2)) adjs =
          ⟨found (live N done) node (live N done node).reverse ++
            (triangleLoop (rest.take (rest.length - 2)) adjs').yields,
            (triangleLoop (rest.take (rest.length - 2)) adjs').err⟩ := by
        rw [triangleLoop]
        simp only [Dict.getItem, hg, hkeys, he]
      intro r
      have hr : r = _ := hrun
      rw [hr]
      have hnm : node ∉ (live N done node).reverse := by
        rw [List.mem_reverse, hmarked]
        exact fun h => hnd.1 h.2
      have hlv : ∀ x y, x ∈ rest → (y ∈ live N done x ↔ y ∈ N x ∧ y ∈ node :: rest) := by
        intro x y hx
        unfold live
        simp only [List.mem_filter, Bool.not_eq_true', decide_eq_false_iff_not]
        have hxS : x ∈ S := by rw [hS]; simp [hx]
        constructor
        · rintro ⟨h1, h2⟩
          have := hA.closed x y hxS h1
          rw [hS, List.mem_append] at this
          exact ⟨h1, this.resolve_left h2⟩
        · rintro ⟨h1, h2⟩
          exact ⟨h1, fun h => hdisj y h y h2 rfl⟩
      refine ⟨hi1, ?_, ?_⟩
      · rw [List.map_append, List.nodup_append]
        refine ⟨found_nodup (fun n => (hA.lists n).filter _) hnm (List.nodup_reverse.2 hlnd), hi2, ?_⟩
        intro s h1 s' h2 e
        subst e
        obtain ⟨t, ht, rfl⟩ := List.mem_map.1 h1
        obtain ⟨a, b, c, ha, hb, hc, _, _, _, he⟩ := (hi3 _).1 h2
        have hmem : node ∈ tripleSet t := by rw [← (mem_found ht).1]; simp [tripleSet]
        rw [he] at hmem
        simp only [Finset.mem_insert, Finset.mem_singleton] at hmem
        rcases hmem with rfl | rfl | rfl <;> exact hnd.1 (by assumption)
      · intro s
        rw [List.map_append, List.mem_append, hi3]
        constructor
        · rintro (h | ⟨a, b, c, ha, hb, hc, h1, h2, h3, rfl⟩)
          · obtain ⟨⟨a, b, c⟩, ht, rfl⟩ := List.mem_map.1 h
            obtain ⟨e, hb, hc, hbc, _⟩ := mem_found ht
            simp only at e hb hc hbc
            subst e
            rw [List.mem_reverse, hmarked] at hb hc
            exact ⟨a, b, c, by simp, by simp [hb.2], by simp [hc.2], hb.1,
              ((hlv b c hb.2).1 hbc).1, hc.1, rfl⟩
          · exact ⟨a, b, c, by simp [ha], by simp [hb], by simp [hc], h1, h2, h3, rfl⟩
        · rintro ⟨a, b, c, ha, hb, hc, h1, h2, h3, rfl⟩
          have hmS : ∀ x, x ∈ node :: rest → x ∈ S := by
            intro x hx; rw [hS]; exact List.mem_append_right _ hx
          have k1 := hA.symm a b (hmS a ha) h1
          have k2 := hA.symm b c (hmS b hb) h2
          have k3 := hA.symm a c (hmS a ha) h3
          -- a triangle with the current node as first member
          have key : ∀ x y, x ∈ rest → y ∈ rest → x ∈ N node → y ∈ N node → y ∈ N x → x ∈ N y →
              ({node, x, y} : Finset V) ∈
                (found (live N done) node (live N done node).reverse).map tripleSet := by
            intro x y hx hy hx1 hy1 hxy hyx
            refine found_complete hnm (by rw [List.mem_reverse, hmarked]; exact ⟨hx1, hx⟩)
              (by rw [List.mem_reverse, hmarked]; exact ⟨hy1, hy⟩) ?_ ?_ ?_
            · rintro rfl; exact hA.irrefl x hxy
            · exact (hlv x y hx).2 ⟨hxy, by simp [hy]⟩
            · exact (hlv y x hy).2 ⟨hyx, by simp [hx]⟩
          have hab : a ≠ b := by rintro rfl; exact hA.irrefl a h1
          have hbc : b ≠ c := by rintro rfl; exact hA.irrefl b h2
          have hac : a ≠ c := by rintro rfl; exact hA.irrefl a h3
          by_cases ea : a = node
          · subst ea
            exact .inl (key b c ((List.mem_cons.1 hb).resolve_left hab.symm)
              ((List.mem_cons.1 hc).resolve_left hac.symm) h1 h3 h2 k2)
          have ha' := (List.mem_cons.1 ha).resolve_left ea
          by_cases eb : b = node
          · subst eb
            have := key a c ha' ((List.mem_cons.1 hc).resolve_left hbc.symm) k1 h2 h3 k3
            rw [Finset.insert_comm] at this
            exact .inl this
          have hb' := (List.mem_cons.1 hb).resolve_left eb
          by_cases ec : c = node
          · subst ec
            have := key a b ha' hb' k3 k2 h1 k1
            rw [Finset.insert_comm, Finset.pair_comm] at this
            exact .inl this
          · exact .inr ⟨a, b, c, ha', hb', (List.mem_cons.1 hc).resolve_left ec, h1, h2, h3, rfl⟩

theorem get?_adjacencies (w : View V) (ns : List V) (d : Dict V (List V)) (x : V) :
    (ns.foldl (fun d n => d.set n (adjacencyOf w n)) d).get? x =
      if x ∈ ns then some (adjacencyOf w x) else d.get? x := by
  induction ns generalizing d with
  | nil => simp
  | cons n ns ih =>
    rw [List.foldl_cons, ih, Dict.get?_set]
    by_cases h1 : x ∈ ns
    · simp [h1]
    · by_cases h2 : n = x
      · subst h2; simp [h1]
      · have h3 : ¬ x = n := fun e => h2 e.symm
        simp [h1, h2, h3]

/-- The enumeration over any view of `E`, whatever the order of the neighbors and the degrees. -/
theorem trianglesOf_spec {w : View V} {E : V → V → Prop} (h : ViewOf w E) :
    (trianglesOf w).err = none ∧ ((trianglesOf w).yields.map tripleSet).Nodup ∧
    ∀ s, s ∈ (trianglesOf w).yields.map tripleSet ↔
      ∃ a b c, a ≠ b ∧ b ≠ c ∧ a ≠ c ∧ E a b ∧ E b c ∧ E a c ∧ s = {a, b, c} := by
  have hperm := (pySortedRev_spec w.degree (w.nodes.filter (fun n => decide (w.degree n > 1)))).perm
  have hmS : ∀ n, n ∈ sortedNodes w ↔ n ∈ w.nodes ∧ 2 ≤ w.degree n := by
    intro n
    unfold sortedNodes
    rw [hperm.mem_iff]
    simp only [List.mem_filter, decide_eq_true_eq, gt_iff_lt]
    exact Iff.rfl
  have hmN : ∀ n m, m ∈ adjacencyOf w n ↔ E n m ∧ m ≠ n ∧ 2 ≤ w.degree m := by
    intro n m
    unfold adjacencyOf
    simp only [List.mem_filter, Bool.and_eq_true, Bool.not_eq_true', decide_eq_false_iff_not, h.mem,
      Nat.not_lt]
  have hA : Adjs (sortedNodes w) (adjacencyOf w) := by
    refine ⟨?_, fun n => (h.nbrs n).filter _, ?_, ?_, ?_⟩
    · exact hperm.nodup_iff.2 (h.nodup.filter _)
    · intro n hn
      exact ((hmN n n).1 hn).2.1 rfl
    · intro n m _ hm
      obtain ⟨h1, _, h2⟩ := (hmN n m).1 hm
      exact (hmS m).2 ⟨h.node m n (h.symm _ _ h1), h2⟩
    · intro n m hn hm
      obtain ⟨h1, h2, _⟩ := (hmN n m).1 hm
      exact (hmN m n).2 ⟨h.symm _ _ h1, h2.symm, ((hmS n).1 hn).2⟩
  obtain ⟨h1, h2, h3⟩ := triangleLoop_spec hA (sortedNodes w) [] (adjacenciesOf w (sortedNodes w)) rfl
    (by
      intro x hx
      unfold adjacenciesOf
      rw [get?_adjacencies, if_pos hx]
      simp [live])
  refine ⟨h1, h2, ?_⟩
  intro s
  refine (h3 s).trans ?_
  constructor
  · rintro ⟨a, b, c, ha, hb, hc, k1, k2, k3, rfl⟩
    rw [hmN] at k1 k2 k3
    exact ⟨a, b, c, k1.2.1.symm, k2.2.1.symm, k3.2.1.symm, k1.1, k2.1, k3.1, rfl⟩
  · rintro ⟨a, b, c, hab, hbc, hac, k1, k2, k3, rfl⟩
    have da := h.degree a b c k1 k3 hbc
    have db := h.degree b a c (h.symm _ _ k1) k2 hac
    have dc := h.degree c a b (h.symm _ _ k3) (h.symm _ _ k2) hab
    refine ⟨a, b, c, (hmS a).2 ⟨h.node _ _ k1, da⟩, (hmS b).2 ⟨h.node _ _ k2, db⟩,
      (hmS c).2 ⟨h.node _ _ (h.symm _ _ k3), dc⟩, (hmN a b).2 ⟨k1, hab.symm, db⟩,
      (hmN b c).2 ⟨k2, hbc.symm, dc⟩, (hmN a c).2 ⟨k3, hac.symm, dc⟩, rfl⟩

end Pelote
