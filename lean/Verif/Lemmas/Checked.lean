import Verif.Props.Components

/-! The edge filter of `connected_component_orders` is called on every edge. -/
namespace Pelote
open Graph
variable {V A : Type} [DecidableEq V]

/-- The filter answers on each of these edges of `n`. -/
def Answers (f : EdgePred V A) (n : V) (es : List (V × V × PyKey × Attrs A)) : Prop :=
  ∀ e ∈ es, ∃ b, f n e.2.1 e.2.2.2 = .ok b

/-- The filter raises `x` on some edge. -/
def RaisesOn (g : Graph V A) (f : EdgePred V A) (x : PyErr) : Prop :=
  ∃ n ∈ g.nodes, ∃ e ∈ g.edgesOf n, f n e.2.1 e.2.2.2 = .error x

theorem pushNeighbors_cases (f : EdgePred V A) (n : V) (es : List (V × V × PyKey × Attrs A)) (t : Traversal V V)
    (hn : t.seen.Nodup) :
    (Answers f n es ∧ ∃ t' extra, pushNeighbors (some f) n es t = .ok t' ∧ t'.items = t.items ++ extra ∧
        t'.seen = extra.reverse ++ t.seen ∧ t'.seen.Nodup ∧ t'.graph = t.graph ∧
        ∀ x ∈ extra, ∃ e ∈ es, e.2.1 = x) ∨
      (∃ x, pushNeighbors (some f) n es t = .error x ∧ ∃ e ∈ es, f n e.2.1 e.2.2.2 = .error x) := by
  by_cases h : Answers f n es
  · refine .inl ⟨h, ?_⟩
    let q : V → V → Attrs A → Bool := fun u v a => match f u v a with | .ok b => b | .error _ => false
    have hq : ∀ e ∈ es, follows (some f) n e.2.1 e.2.2.2 =
        .ok (q n e.2.1 e.2.2.2) := by
      intro e he
      obtain ⟨b, hb⟩ := h e he
      simp only [follows, q, hb]
    have := pushNeighbors_ok (p := q) hq t
    obtain ⟨extra, h1, h2, h3, h4, h5⟩ := appendAll_spec t ((es.filter (fun e =>
      q n e.2.1 e.2.2.2)).map (fun e => e.2.1)) hn
    refine ⟨_, extra, this, h1, h2, h3, h5, ?_⟩
    intro x hx
    have hxs : x ∈ t.seen ∨ _ := (h4 x).1 (by rw [h2]; simp [hx])
    rcases hxs with hxs | hxs
    · rw [h2, List.nodup_append] at h3
      exact absurd rfl (h3.2.2 x (by simpa using hx) x hxs)
    · obtain ⟨e, he, rfl⟩ := List.mem_map.1 hxs
      exact ⟨e, List.mem_of_mem_filter he, rfl⟩
  · refine .inr ?_
    clear hn
    induction es generalizing t with
    | nil => exact absurd (fun e he => by cases he) h
    | cons e es ih =>
      obtain ⟨u, v, k, a⟩ := e
      simp only [pushNeighbors, follows]
      cases hf : f n v a with
      | error x => exact ⟨x, rfl, (u, v, k, a), by simp, hf⟩
      | ok b =>
        have hne : ¬ Answers f n es := by
          intro hc
          apply h
          intro e he
          rcases List.mem_cons.1 he with rfl | he
          · exact ⟨b, hf⟩
          · exact hc e he
        obtain ⟨x, hx, e, he, hfe⟩ := ih _ hne
        exact ⟨x, hx, e, List.mem_cons_of_mem _ he, hfe⟩

/-- Invariant: every node seen is held or has had its edges checked. -/
structure CheckInv (g : Graph V A) (f : EdgePred V A) (t : Traversal V V) : Prop where
  nodup : t.seen.Nodup
  sub : ∀ x ∈ t.seen, x ∈ g.nodes
  items : ∀ x ∈ t.items, x ∈ g.nodes
  done : ∀ x ∈ t.seen, x ∈ t.items ∨ Answers f x (g.edgesOf x)
  count : t.items.length ≤ t.seen.length
  graph : t.graph = g.nodes

theorem drainStack_cases {g : Graph V A} (h : g.WF) {f : EdgePred V A} (fuel : Nat) (t : Traversal V V) (size : Nat)
    (hi : CheckInv g f t) (hf : g.nodes.length + t.items.length ≤ fuel + t.seen.length) :
    (∃ size' t', drainStack g (some f) fuel t size = .ok (size', t') ∧ CheckInv g f t' ∧ t'.items = [] ∧
        ∀ x ∈ t.seen, x ∈ t'.seen) ∨
      ∃ x, drainStack g (some f) fuel t size = .error x ∧ RaisesOn g f x := by
  induction fuel generalizing t size with
  | zero =>
    have h0 : t.items.length = 0 := by
      have := (hi.nodup.subperm (fun x hx => hi.sub x hx)).length_le
      omega
    refine .inl ⟨size, t, ?_, hi, List.length_eq_zero_iff.1 h0, fun _ hx => hx⟩
    unfold drainStack
    rw [if_pos (show t.len = 0 from h0)]
  | succ fuel ih =>
    by_cases h0 : t.items = []
    · refine .inl ⟨size, t, ?_, hi, h0, fun _ hx => hx⟩
      unfold drainStack
      rw [if_pos (by simp [Traversal.len, h0])]
    · unfold drainStack
      rw [if_neg (by simpa [Traversal.len] using h0)]
      have hlast := List.getLast?_eq_some_getLast h0
      have hpop : t.pop = .ok ({ t with items := t.items.dropLast }, t.items.getLast h0) := by
        unfold Traversal.pop; rw [hlast]
      simp only [hpop]
      generalize hn : t.items.getLast h0 = n at *
      have hnm : n ∈ g.nodes := hi.items n (by rw [← hn]; exact List.getLast_mem h0)
      have hlen : t.items.dropLast.length + 1 = t.items.length := by
        rw [List.length_dropLast]
        have := List.length_pos_of_ne_nil h0
        omega
      have hsplit : ∀ x ∈ t.items, x ∈ t.items.dropLast ∨ x = n := by
        intro x hx
        rw [← List.dropLast_append_getLast h0, hn] at hx
        simpa using hx
      rcases pushNeighbors_cases f n (g.edgesOf n) { t with items := t.items.dropLast } hi.nodup with
        ⟨hans, t', extra, hp, h1, h2, h3, h4, h5⟩ | ⟨x, hp, e, he, hfe⟩
      · rw [hp]
        simp only
        simp only at h1 h2 h4
        have hinv : CheckInv g f t' := by
          have hnew : ∀ x ∈ extra, x ∈ g.nodes := by
            intro x hx
            obtain ⟨⟨u, m, k, a⟩, he, rfl⟩ := h5 x hx
            exact (edgesOf_nodes h he).2
          refine ⟨h3, ?_, ?_, ?_, ?_, h4.trans hi.graph⟩
          · intro x hx
            rw [h2, List.mem_append, List.mem_reverse] at hx
            rcases hx with hx | hx
            · exact hnew x hx
            · exact hi.sub x hx
          · intro x hx
            rw [h1, List.mem_append] at hx
            rcases hx with hx | hx
            · exact hi.items x (List.mem_of_mem_dropLast hx)
            · exact hnew x hx
          · intro x hx
            rw [h2, List.mem_append, List.mem_reverse] at hx
            rw [h1, List.mem_append]
            rcases hx with hx | hx
            · exact .inl (.inr hx)
            · rcases hi.done x hx with hx | hx
              · rcases hsplit x hx with hx | rfl
                · exact .inl (.inl hx)
                · exact .inr hans
              · exact .inr hx
          · rw [h1, h2, List.length_append, List.length_append, List.length_reverse]
            have := hi.count
            omega
        rcases ih t' (size + 1) hinv (by
          rw [h1, h2, List.length_append, List.length_append, List.length_reverse]
          omega) with ⟨s', t'', ha, hb, hc, hd⟩ | ⟨x, hx, hr⟩
        · exact .inl ⟨s', t'', ha, hb, hc, fun x hx => hd x (by rw [h2]; simp [hx])⟩
        · exact .inr ⟨x, hx, hr⟩
      · refine .inr ⟨x, ?_, n, hnm, e, he, hfe⟩
        rw [hp]

theorem componentOrdersLoop_cases {g : Graph V A} (h : g.WF) {f : EdgePred V A} (ns pre : List V)
    (he : g.nodes = pre ++ ns) (t : Traversal V V) (hi : CheckInv g f t) (h0 : t.items = [])
    (hpre : ∀ x ∈ pre, x ∈ t.seen) :
    ((componentOrdersLoop g (some f) ns t).err = none ∧ ∀ x ∈ g.nodes, Answers f x (g.edgesOf x)) ∨
      ∃ x, (componentOrdersLoop g (some f) ns t).err = some x ∧ RaisesOn g f x := by
  have hdone : ∀ x ∈ t.seen, Answers f x (g.edgesOf x) := by
    intro x hx
    rcases hi.done x hx with hx | hx
    · rw [h0] at hx; cases hx
    · exact hx
  induction ns generalizing pre t with
  | nil =>
    rw [List.append_nil] at he
    exact .inl ⟨rfl, fun x hx => hdone x (hpre x (by rwa [← he]))⟩
  | cons n ns ih =>
    unfold componentOrdersLoop
    by_cases hall : t.seenAll = true
    · rw [if_pos hall]
      refine .inl ⟨rfl, fun x hx => hdone x ?_⟩
      unfold Traversal.seenAll at hall
      rw [beq_iff_eq, hi.graph] at hall
      exact ((hi.nodup.subperm (fun x hx => hi.sub x hx)).perm_of_length_le (by omega)).mem_iff.2 hx
    · rw [if_neg hall]
      by_cases hc : n ∈ t.seen
      · rw [if_pos (by simpa [Traversal.contains] using hc)]
        refine ih (pre ++ [n]) (by rw [he]; simp) t hi h0 ?_ hdone
        intro x hx
        rcases List.mem_append.1 hx with hx | hx
        · exact hpre x hx
        · rw [List.mem_singleton.1 hx]; exact hc
      · rw [if_neg (by simpa [Traversal.contains] using hc)]
        have hnm : n ∈ g.nodes := by rw [he]; simp
        have happ := append_unseen (t := t) hc
        have hinv : CheckInv g f (t.append id n none).1 := by
          rw [happ]
          refine ⟨List.nodup_cons.2 ⟨hc, hi.nodup⟩, ?_, ?_, ?_, ?_, hi.graph⟩
          · intro x hx
            rcases List.mem_cons.1 hx with rfl | hx
            · exact hnm
            · exact hi.sub x hx
          · intro x hx
            simp only [h0, List.nil_append, List.mem_singleton] at hx
            rw [hx]; exact hnm
          · intro x hx
            rcases List.mem_cons.1 hx with rfl | hx
            · exact .inl (by simp)
            · exact .inr (hdone x hx)
          · simp [h0]
        rcases drainStack_cases h g.order (t.append id n none).1 0 hinv (by
          rw [happ]
          simp only [h0, List.nil_append, List.length_cons, List.length_nil]
          have : g.order = g.nodes.length := by unfold Graph.order Graph.nodes Dict.keys; simp
          omega) with ⟨s', t', ha, hb, hcc, hd⟩ | ⟨x, hx, hr⟩
        · rw [ha]
          simp only
          refine ih (pre ++ [n]) (by rw [he]; simp) t' hb hcc ?_ ?_
          · intro x hx
            rcases List.mem_append.1 hx with hx | hx
            · exact hd x (by rw [happ]; exact List.mem_cons_of_mem _ (hpre x hx))
            · rw [List.mem_singleton.1 hx]
              exact hd n (by rw [happ]; exact List.mem_cons_self)
          · intro x hx
            rcases hb.done x hx with hx | hx
            · rw [hcc] at hx; cases hx
            · exact hx
        · rw [hx]
          exact .inr ⟨x, rfl, hr⟩

/-- Either the filter answers on all edges of all nodes, and the sizes are all given, or it raises on some edge and this
exception is given. -/
theorem connectedComponentOrders_cases {g : Graph V A} (h : g.WF) (f : EdgePred V A) :
    ((connectedComponentOrders g (some f)).err = none ∧ ∀ x ∈ g.nodes, Answers f x (g.edgesOf x)) ∨
      ∃ x, (connectedComponentOrders g (some f)).err = some x ∧ RaisesOn g f x := by
  refine componentOrdersLoop_cases h g.nodes [] rfl _ ?_ rfl (by simp)
  exact ⟨List.nodup_nil, by simp [Traversal.init], by simp [Traversal.init], by simp [Traversal.init],
    by simp [Traversal.init], rfl⟩

end Pelote
