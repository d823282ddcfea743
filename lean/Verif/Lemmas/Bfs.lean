import Verif.Model.SelfSimilarity
import Verif.Spec.Distance
import Verif.Spec.Graph
import Verif.Lemmas.Graph
import Mathlib.Data.List.Nodup
import Mathlib.Data.List.Perm.Subperm

/-! What the breadth first search of `self_similarity_projection` yields. -/
set_option linter.unusedSectionVars false
namespace Pelote
variable {V A : Type} [DecidableEq V]
open Graph

theorem bfsPush_spec (depth : Nat) (ns : List V) (t : Traversal V (V × Nat)) (hn : t.seen.Nodup) :
    ∃ extra : List V, (bfsPush depth ns t).items = t.items ++ extra.map (fun x => (x, depth + 1)) ∧
      (bfsPush depth ns t).seen = extra.reverse ++ t.seen ∧ (bfsPush depth ns t).seen.Nodup ∧
      (∀ x, x ∈ (bfsPush depth ns t).seen ↔ x ∈ t.seen ∨ x ∈ ns) ∧ ∀ x ∈ extra, x ∈ ns ∧ x ∉ t.seen := by
  induction ns generalizing t with
  | nil => exact ⟨[], by simp [bfsPush], by simp [bfsPush], hn, by simp [bfsPush], by simp⟩
  | cons n ns ih =>
    unfold bfsPush
    by_cases h : n ∈ t.seen
    · have e : (t.append (fun n => (n, 0)) n (some (n, depth + 1))).1 = t := by
        unfold Traversal.append; simp [h]
      rw [e]
      obtain ⟨extra, h1, h2, h3, h4, h5⟩ := ih t hn
      refine ⟨extra, h1, h2, h3, ?_, fun x hx => ⟨List.mem_cons_of_mem _ (h5 x hx).1, (h5 x hx).2⟩⟩
      intro x
      rw [h4, List.mem_cons]
      constructor
      · tauto
      · rintro (hx | rfl | hx)
        · exact .inl hx
        · exact .inl h
        · exact .inr hx
    · have e : (t.append (fun n => (n, 0)) n (some (n, depth + 1))).1 =
          { t with seen := n :: t.seen, items := t.items ++ [(n, depth + 1)] } := by
        unfold Traversal.append; simp [h]
      rw [e]
      obtain ⟨extra, h1, h2, h3, h4, h5⟩ := ih { t with seen := n :: t.seen, items := t.items ++ [(n, depth + 1)] }
        (List.nodup_cons.2 ⟨h, hn⟩)
      refine ⟨n :: extra, by simp [h1], by simp [h2], h3, ?_, ?_⟩
      · intro x
        rw [h4]
        simp only [List.mem_cons]
        tauto
      · intro x hx
        rcases List.mem_cons.1 hx with rfl | hx
        · exact ⟨List.mem_cons_self, h⟩
        · have := h5 x hx
          simp only [List.mem_cons, not_or] at this
          exact ⟨List.mem_cons_of_mem _ this.1, this.2.2⟩

theorem step_mem {g : Graph V A} (h : g.WF) {reverse : Bool} {u v : V} (hs : g.Step reverse u v) :
    u ∈ g.nodes ∧ v ∈ g.nodes := by
  unfold Graph.Step at hs
  cases reverse with
  | true => exact (hasEdge_mem h hs).symm
  | false => exact hasEdge_mem h hs

theorem bfsNeighbors_ok {g : Graph V A} (hd : g.directed = true) {reverse : Bool} {n : V} (hn : n ∈ g.nodes) :
    ∃ ns, bfsNeighbors g reverse n = .ok ns ∧ ∀ x, x ∈ ns ↔ g.Step reverse n x := by
  have : g.hasNode n = true := by
    unfold Graph.hasNode
    rw [Dict.has_iff]
    exact hn
  refine ⟨_, by unfold bfsNeighbors; simp [hd, this]; rfl, ?_⟩
  intro x
  unfold Graph.Step
  cases reverse with
  | true => simp [mem_predecessors]
  | false => simp [mem_neighbors]

/-- Invariant of the search: `D` are the pairs already taken from the queue. -/
structure SearchInv (g : Graph V A) (reverse : Bool) (limit : Int) (source : V) (D : List (V × Nat))
    (t : Traversal V (V × Nat)) : Prop where
  nodup : t.seen.Nodup
  sub : ∀ x ∈ t.seen, x ∈ g.nodes
  seen : ∀ x, x ∈ t.seen ↔ x ∈ (D ++ t.items).map Prod.fst
  distinct : ((D ++ t.items).map Prod.fst).Nodup
  dist : ∀ p ∈ D ++ t.items, IsDist (g.Step reverse) source p.1 p.2
  sorted : (D ++ t.items).Pairwise (fun p q => p.2 ≤ q.2)
  near : ∀ p ∈ t.items, ∀ q ∈ t.items, q.2 ≤ p.2 + 1
  bound : ∀ p ∈ D ++ t.items, p.2 = 0 ∨ (p.2 : Int) ≤ limit
  closed : ∀ p ∈ D, (p.2 : Int) < limit → ∀ y, g.Step reverse p.1 y → y ∈ t.seen
  start : source ∈ t.seen

theorem SearchInv.reached {g : Graph V A} {reverse : Bool} {limit : Int} {source : V} {D : List (V × Nat)}
    {t : Traversal V (V × Nat)} (h : SearchInv g reverse limit source D t) {m : Nat} (hm : (m : Int) ≤ limit)
    (hq : ∀ p ∈ t.items, m ≤ p.2) {x : V} {k : Nat} (hw : Walk (g.Step reverse) source x k) (hk : k ≤ m) :
    x ∈ t.seen := by
  induction hw with
  | nil => exact h.start
  | @snoc z y n hz hs ih =>
    have hzs := ih (by omega)
    obtain ⟨⟨z', d⟩, hp, rfl⟩ := List.mem_map.1 ((h.seen z).1 hzs)
    have hd : d ≤ n := by
      by_contra hc
      exact (h.dist _ hp).2 n (by simpa using hc) hz
    rcases List.mem_append.1 hp with hp | hp
    · exact h.closed _ hp (by simp only; omega) _ hs
    · have := hq _ hp
      simp only at this
      omega

theorem searchLoop_ok {g : Graph V A} (hwf : g.WF) (hdir : g.directed = true) {reverse : Bool} {limit : Int} {source : V}
    (fuel : Nat) (D : List (V × Nat)) (t : Traversal V (V × Nat)) (h : SearchInv g reverse limit source D t)
    (hf : g.nodes.length ≤ fuel + D.length) :
    ∃ E t', searchLoop g reverse limit fuel t = ⟨E.filter (fun p => decide (p.2 > 0)), none⟩ ∧ t'.items = [] ∧
      SearchInv g reverse limit source (D ++ E) t' := by
  induction fuel generalizing t D with
  | zero =>
    have hlen : (D ++ t.items).length ≤ g.nodes.length := by
      have := (h.distinct.subperm (l₂ := g.nodes) (fun x hx => h.sub x ((h.seen x).2 hx))).length_le
      simpa using this
    have h0 : t.items = [] := by
      apply List.eq_nil_of_length_eq_zero
      simp only [List.length_append] at hlen
      omega
    refine ⟨[], t, ?_, h0, by simpa using h⟩
    unfold searchLoop
    rw [if_pos (by simp [Traversal.len, h0])]
    rfl
  | succ fuel ih =>
    cases hi : t.items with
    | nil =>
      refine ⟨[], t, ?_, hi, by simpa using h⟩
      unfold searchLoop
      rw [if_pos (by simp [Traversal.len, hi])]
      rfl
    | cons p rest =>
      obtain ⟨n, d⟩ := p
      have hpop : t.popleft = .ok ({ t with items := rest }, (n, d)) := by
        unfold Traversal.popleft; rw [hi]
      have hmem : (n, d) ∈ D ++ t.items := by rw [hi]; simp
      have hassoc : D ++ t.items = (D ++ [(n, d)]) ++ rest := by rw [hi]; simp
      have hnn : n ∈ g.nodes := h.sub n ((h.seen n).2 (List.mem_map.2 ⟨_, hmem, rfl⟩))
      have hrest : ∀ q ∈ rest, d ≤ q.2 ∧ q.2 ≤ d + 1 := by
        intro q hq
        have hs := h.sorted
        rw [hi] at hs
        have := (List.pairwise_append.1 hs).2.1
        refine ⟨(List.pairwise_cons.1 this).1 q hq, ?_⟩
        exact h.near (n, d) (by rw [hi]; simp) q (by rw [hi]; exact List.mem_cons_of_mem _ hq)
      by_cases hl : (d : Int) ≥ limit
      · have hI : SearchInv g reverse limit source (D ++ [(n, d)]) { t with items := rest } := by
          refine ⟨h.nodup, h.sub, ?_, ?_, ?_, ?_, ?_, ?_, ?_, h.start⟩
          · intro x; rw [h.seen, hassoc]
          · rw [← hassoc]; exact h.distinct
          · rw [← hassoc]; exact h.dist
          · rw [← hassoc]; exact h.sorted
          · intro p hp q hq
            exact h.near p (by rw [hi]; exact List.mem_cons_of_mem _ hp) q (by rw [hi]; exact List.mem_cons_of_mem _ hq)
          · rw [← hassoc]; exact h.bound
          · intro p hp hlt
            rcases List.mem_append.1 hp with hp | hp
            · exact h.closed p hp hlt
            · rw [List.mem_singleton.1 hp] at hlt
              simp only at hlt
              omega
        obtain ⟨E, t', e1, e2, e3⟩ := ih (D ++ [(n, d)]) { t with items := rest } hI (by simp; omega)
        refine ⟨(n, d) :: E, t', ?_, e2, by simpa using e3⟩
        unfold searchLoop
        rw [if_neg (by simp [Traversal.len, hi])]
        simp only [hpop, if_pos hl, e1]
        by_cases hd0 : d > 0 <;> simp [hd0]
      · obtain ⟨ns, hns, hmemns⟩ := bfsNeighbors_ok (reverse := reverse) hdir hnn
        obtain ⟨extra, p1, p2, p3, p4, p5⟩ := bfsPush_spec d ns { t with items := rest } h.nodup
        have hfresh : ∀ x ∈ extra, IsDist (g.Step reverse) source x (d + 1) := by
          intro x hx
          obtain ⟨x1, x2⟩ := p5 x hx
          refine ⟨.snoc (h.dist _ hmem).1 ((hmemns x).1 x1), ?_⟩
          intro k hk hw
          refine x2 (h.reached (m := d) (by omega) ?_ hw (by omega))
          intro p hp
          rw [hi] at hp
          rcases List.mem_cons.1 hp with rfl | hp
          · exact le_rfl
          · exact (hrest p hp).1
        have hI : SearchInv g reverse limit source (D ++ [(n, d)]) (bfsPush d ns { t with items := rest }) := by
          have happ : (D ++ [(n, d)]) ++ (bfsPush d ns { t with items := rest }).items =
              (D ++ t.items) ++ extra.map (fun x => (x, d + 1)) := by
            rw [p1, hi]; simp
          refine ⟨p3, ?_, ?_, ?_, ?_, ?_, ?_, ?_, ?_, ?_⟩
          · intro x hx
            rcases (p4 x).1 hx with hx | hx
            · exact h.sub x hx
            · exact (step_mem hwf ((hmemns x).1 hx)).2
          · intro x
            rw [happ, p2, List.map_append, List.mem_append, List.mem_append, ← h.seen]
            simp [or_comm]
          · rw [happ, List.map_append]
            have he : (extra.map (fun x => (x, d + 1))).map Prod.fst = extra := by simp [Function.comp_def]
            rw [he]
            rw [p2] at p3
            refine List.nodup_append.2 ⟨h.distinct, (List.nodup_reverse.1 (List.nodup_append.1 p3).1), ?_⟩
            rintro x hx y hy rfl
            exact (p5 x hy).2 ((h.seen x).2 hx)
          · rw [happ]
            intro p hp
            rcases List.mem_append.1 hp with hp | hp
            · exact h.dist p hp
            · obtain ⟨x, hx, rfl⟩ := List.mem_map.1 hp
              exact hfresh x hx
          · rw [happ]
            refine List.pairwise_append.2 ⟨h.sorted, ?_, ?_⟩
            · rw [List.pairwise_map]
              exact List.pairwise_of_forall (fun _ _ => le_rfl)
            · intro p hp q hq
              obtain ⟨x, hx, rfl⟩ := List.mem_map.1 hq
              simp only
              rcases List.mem_append.1 hp with hp | hp
              · have hs := (List.pairwise_append.1 h.sorted).2.2 p hp (n, d) (by rw [hi]; simp)
                simp only at hs
                omega
              · rw [hi] at hp
                rcases List.mem_cons.1 hp with rfl | hp
                · simp
                · exact (hrest p hp).2
          · have hbnd : ∀ p ∈ (bfsPush d ns { t with items := rest }).items, d ≤ p.2 ∧ p.2 ≤ d + 1 := by
              rw [p1]
              intro p hp
              rcases List.mem_append.1 hp with hp | hp
              · exact hrest p hp
              · obtain ⟨x, hx, rfl⟩ := List.mem_map.1 hp
                simp
            intro p hp q hq
            have := hbnd p hp
            have := hbnd q hq
            omega
          · rw [happ]
            intro p hp
            rcases List.mem_append.1 hp with hp | hp
            · exact h.bound p hp
            · obtain ⟨x, hx, rfl⟩ := List.mem_map.1 hp
              right
              push_cast
              omega
          · intro p hp hlt y hy
            rw [p4]
            rcases List.mem_append.1 hp with hp | hp
            · exact .inl (h.closed p hp hlt y hy)
            · rw [List.mem_singleton.1 hp] at hy
              exact .inr ((hmemns y).2 hy)
          · exact (p4 _).2 (.inl h.start)
        obtain ⟨E, t', e1, e2, e3⟩ := ih (D ++ [(n, d)]) _ hI (by simp; omega)
        refine ⟨(n, d) :: E, t', ?_, e2, by simpa using e3⟩
        unfold searchLoop
        rw [if_neg (by simp [Traversal.len, hi])]
        simp only [hpop, if_neg hl, hns, e1]
        by_cases hd0 : d > 0 <;> simp [hd0]

/-- The search yields the nodes within the limit, once each, with their distance, nearest first. -/
theorem bfsFromNode_spec {g : Graph V A} (hwf : g.WF) (hdir : g.directed = true) {source : V} (hs : source ∈ g.nodes)
    (reverse : Bool) (limit : Int) :
    (bfsFromNode g source reverse limit).err = none ∧
      (∀ v d, (v, d) ∈ (bfsFromNode g source reverse limit).yields ↔
        1 ≤ d ∧ (d : Int) ≤ limit ∧ IsDist (g.Step reverse) source v d) ∧
      ((bfsFromNode g source reverse limit).yields.map Prod.fst).Nodup ∧
      ((bfsFromNode g source reverse limit).yields.map Prod.snd).Pairwise (· ≤ ·) := by
  have hstart : ((Traversal.init g.nodes).append (fun n => (n, 0)) source (some (source, 0))).1 =
      (⟨g.nodes, [(source, 0)], [source]⟩ : Traversal V (V × Nat)) := by
    simp [Traversal.init, Traversal.append]
  have hI : SearchInv g reverse limit source [] ⟨g.nodes, [(source, 0)], [source]⟩ := by
    refine ⟨by simp, by simpa using hs, by simp, by simp, ?_, by simp, by simp, by simp, by simp, by simp⟩
    intro p hp
    simp only [List.nil_append, List.mem_singleton] at hp
    subst hp
    exact ⟨.nil, by simp⟩
  obtain ⟨E, t', e1, e2, e3⟩ := searchLoop_ok hwf hdir (g.order + 1) [] _ hI (by
    unfold Graph.order Graph.nodes Dict.keys
    simp)
  have hrun : bfsFromNode g source reverse limit = ⟨E.filter (fun p => decide (p.2 > 0)), none⟩ := by
    unfold bfsFromNode; rw [hstart]; exact e1
  rw [hrun]
  simp only [List.nil_append] at e3
  have hall : E ++ t'.items = E := by rw [e2]; simp
  refine ⟨rfl, ?_, ?_, ?_⟩
  · intro v d
    simp only [List.mem_filter, decide_eq_true_eq, gt_iff_lt]
    constructor
    · rintro ⟨hm, hd⟩
      refine ⟨hd, ?_, e3.dist (v, d) (by rw [hall]; exact hm)⟩
      rcases e3.bound (v, d) (by rw [hall]; exact hm) with h0 | h0
      · simp only at h0; omega
      · exact h0
    · rintro ⟨h1, h2, h3⟩
      have hseen := e3.reached (m := d) h2 (by rw [e2]; simp) h3.1 le_rfl
      obtain ⟨⟨v', d'⟩, hp, rfl⟩ := List.mem_map.1 ((e3.seen v).1 hseen)
      have hd' := e3.dist _ hp
      rw [hall] at hp
      have : d' = d := by
        rcases lt_trichotomy d' d with hlt | he | hlt
        · exact absurd hd'.1 (h3.2 _ hlt)
        · exact he
        · exact absurd h3.1 (hd'.2 _ hlt)
      subst this
      exact ⟨hp, h1⟩
  · have := e3.distinct
    rw [hall] at this
    exact this.sublist (List.filter_sublist.map _)
  · have := e3.sorted
    rw [hall] at this
    rw [List.pairwise_map]
    exact this.sublist List.filter_sublist

end Pelote
