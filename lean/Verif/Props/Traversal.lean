import Verif.Spec.Traversal
import Mathlib.Data.List.Nodup
import Mathlib.Data.List.Perm.Subperm

/-! C58: DFS stack and BFS queue. -/
set_option linter.unusedSectionVars false
namespace Pelote
variable {V I : Type} [DecidableEq V]
namespace Traversal

/-- The seen set is the set of appended nodes. -/
structure Agrees (graph : List V) (s : Traversal V I × List V) (p : Past V I) : Prop where
  holds : s.1.graph = graph
  items : s.1.items = p.held
  nodup : s.1.seen.Nodup
  seen : ∀ n, n ∈ s.1.seen ↔ n ∈ p.appended
  sub : ∀ n ∈ p.appended, n ∈ graph
  ahead : s.2 = p.ahead
  aheadSub : ∀ n ∈ p.ahead, n ∈ graph

theorem seenAll_iff {graph : List V} (hg : graph.Nodup) {s : Traversal V I × List V} {p : Past V I}
    (h : Agrees graph s p) : s.1.seenAll = true ↔ ∀ n ∈ graph, n ∈ p.appended := by
  unfold seenAll
  rw [beq_iff_eq, h.holds]
  have hsub : s.1.seen ⊆ graph := fun n hn => h.sub n ((h.seen n).1 hn)
  constructor
  · intro hlen n hn
    exact (h.seen n).1 (((h.nodup.subperm hsub).perm_of_length_le (by omega)).mem_iff.2 hn)
  · intro hall
    exact ((List.perm_ext_iff_of_nodup h.nodup hg).2 (fun n => ⟨fun hn => hsub hn, fun hn => (h.seen n).2 (hall n hn)⟩)).length_eq

theorem nextUnseen_spec {graph : List V} (hg : graph.Nodup) {s : Traversal V I × List V} {p : Past V I}
    (h : Agrees graph s p) (ns : List V) (hns : ∀ n ∈ ns, n ∈ graph) :
    match s.1.nextUnseen ns with
    | none => ns.find? (fun n => decide (n ∉ p.appended)) = none ∧
        (ns.dropWhile (fun n => decide (n ∈ p.appended))).drop 1 = []
    | some (n, rest) => ns.find? (fun n => decide (n ∉ p.appended)) = some n ∧
        (ns.dropWhile (fun n => decide (n ∈ p.appended))).drop 1 = rest := by
  induction ns with
  | nil => exact ⟨rfl, rfl⟩
  | cons n ns ih =>
    have ih := ih (fun x hx => hns x (by simp [hx]))
    unfold nextUnseen
    by_cases hall : s.1.seenAll = true
    · rw [if_pos hall]
      have := (seenAll_iff hg h).1 hall
      constructor
      · rw [List.find?_eq_none]
        intro x hx
        simpa using this x (hns x hx)
      · have hd : ∀ l : List V, (∀ x ∈ l, x ∈ p.appended) → l.dropWhile (fun n => decide (n ∈ p.appended)) = [] := by
          intro l
          induction l with
          | nil => intro _; rfl
          | cons x l ihl =>
            intro hl
            rw [List.dropWhile_cons_of_pos (by simpa using hl x (by simp))]
            exact ihl (fun y hy => hl y (by simp [hy]))
        rw [hd _ (fun x hx => this x (hns x hx))]
        rfl
    · rw [if_neg hall]
      unfold contains
      by_cases hn : n ∈ p.appended
      · rw [if_pos (by simpa using (h.seen n).2 hn), List.find?_cons_of_neg (by simpa using hn),
          List.dropWhile_cons_of_pos (by simpa using hn)]
        exact ih
      · rw [if_neg (by simpa using fun hc => hn ((h.seen n).1 hc)), List.find?_cons_of_pos (by simpa using hn),
          List.dropWhile_cons_of_neg (by simpa using hn)]
        exact ⟨rfl, rfl⟩

theorem step_agrees {lifo : Bool} {asItem : V → I} {graph : List V} (hg : graph.Nodup)
    {s : Traversal V I × List V} {p : Past V I} (h : Agrees graph s p) (op : Op V I)
    (hop : ∀ n ∈ appends [op], n ∈ graph) :
    (step lifo asItem s op).2 = expect lifo graph p op ∧
      Agrees graph (step lifo asItem s op).1 (remember lifo asItem graph p op) := by
  cases op with
  | append n item =>
    have hn : n ∈ graph := hop n (by simp [appends])
    have hsub : ∀ m ∈ p.appended ++ [n], m ∈ graph := by
      intro m hm
      rcases List.mem_append.1 hm with hm | hm
      · exact h.sub m hm
      · rw [List.mem_singleton.1 hm]; exact hn
    by_cases hm : n ∈ p.appended
    · have hs := (h.seen n).2 hm
      simp only [step, append, if_pos hs, beq_self_eq_true, if_true, expect, remember, if_pos hm]
      refine ⟨by simp [hm], h.holds, h.items, h.nodup, ?_, hsub, h.ahead, h.aheadSub⟩
      intro m
      rw [h.seen m]
      simp only [List.mem_append, List.mem_singleton]
      constructor
      · exact .inl
      · rintro (hh | rfl)
        · exact hh
        · exact hm
    · have hs : n ∉ s.1.seen := fun hc => hm ((h.seen n).1 hc)
      have hne : (s.1.seen.length == (n :: s.1.seen).length) = false := by simp
      simp only [step, append, if_neg hs, hne, Bool.false_eq_true, if_false, expect, remember, if_neg hm]
      refine ⟨by simp [hm], h.holds, by simp [h.items], List.nodup_cons.2 ⟨hs, h.nodup⟩, ?_, hsub, h.ahead, h.aheadSub⟩
      intro m
      simp only [List.mem_cons, h.seen m, List.mem_append, List.not_mem_nil, or_false]
      tauto
  | pop =>
    cases lifo with
    | true =>
      simp only [step, if_true, pop, expect, remember, h.items, List.head?_reverse]
      rcases hl : p.held.getLast? with _ | i
      · have : p.held = [] := List.getLast?_eq_none_iff.1 hl
        refine ⟨rfl, h.holds, ?_, h.nodup, h.seen, h.sub, h.ahead, h.aheadSub⟩
        simp only
        rw [h.items, this]; rfl
      · refine ⟨rfl, h.holds, ?_, h.nodup, h.seen, h.sub, h.ahead, h.aheadSub⟩
        simp only
        rw [List.dropLast_eq_take]
    | false =>
      simp only [step, Bool.false_eq_true, if_false, popleft, expect, remember, h.items]
      rcases hl : p.held with _ | ⟨i, rest⟩
      · refine ⟨rfl, h.holds, ?_, h.nodup, h.seen, h.sub, h.ahead, h.aheadSub⟩
        simp only
        rw [h.items, hl]; rfl
      · refine ⟨rfl, h.holds, ?_, h.nodup, h.seen, h.sub, h.ahead, h.aheadSub⟩
        rfl
  | len => exact ⟨by simp [step, len, expect, h.items], h⟩
  | contains n => exact ⟨by simp [step, contains, expect, h.seen], h⟩
  | seenAll =>
    refine ⟨?_, h⟩
    simp only [step, expect]
    congr 1
    rw [Bool.eq_iff_iff, seenAll_iff hg h, decide_eq_true_iff]
  | unseen =>
    refine ⟨rfl, h.holds, h.items, h.nodup, h.seen, h.sub, h.holds, fun n hn => hn⟩
  | next =>
    have := nextUnseen_spec hg h s.2 (by rw [h.ahead]; exact h.aheadSub)
    rw [h.ahead] at this
    have hdrop : ∀ n ∈ (p.ahead.dropWhile (fun n => decide (n ∈ p.appended))).drop 1, n ∈ graph :=
      fun n hn => h.aheadSub n ((List.dropWhile_sublist _).mem ((List.drop_sublist _ _).mem hn))
    simp only [step, expect, remember, h.ahead]
    rcases hx : s.1.nextUnseen p.ahead with _ | ⟨n, rest⟩
    · rw [hx] at this
      simp only at this
      rw [this.1]
      refine ⟨rfl, h.holds, h.items, h.nodup, h.seen, h.sub, this.2.symm, hdrop⟩
    · rw [hx] at this
      simp only at this
      rw [this.1]
      refine ⟨rfl, h.holds, h.items, h.nodup, h.seen, h.sub, this.2.symm, hdrop⟩

/-- C58.  Over any history of calls on a `DFSStack` or a `BFSQueue` in which only nodes of the graph are
appended, every call returns what the specification says: `append` is true exactly the first time a node
is appended, items come out last-in-first-out (stack) or first-in-first-out (queue), and the
`nodes_yet_unseen` generator gives the next node of the graph that has not been appended so far. -/
theorem traversal_history (lifo : Bool) (asItem : V → I) {graph : List V} (hg : graph.Nodup)
    (ops : List (Op V I)) (hops : ∀ n ∈ appends ops, n ∈ graph) :
    run lifo asItem (init graph, []) ops = expects lifo asItem graph ⟨[], [], []⟩ ops := by
  have key : ∀ (ops : List (Op V I)) (s : Traversal V I × List V) (p : Past V I), Agrees graph s p →
      (∀ n ∈ appends ops, n ∈ graph) → run lifo asItem s ops = expects lifo asItem graph p ops := by
    intro ops
    induction ops with
    | nil => intros; rfl
    | cons op ops ih =>
      intro s p h hops
      have hsplit : (∀ n ∈ appends [op], n ∈ graph) ∧ ∀ n ∈ appends ops, n ∈ graph := by
        cases op <;> simp_all [appends]
      obtain ⟨h1, h2⟩ := step_agrees (lifo := lifo) (asItem := asItem) hg h op hsplit.1
      simp only [run, expects]
      rw [h1, ih _ _ h2 hsplit.2]
  exact key ops _ _ ⟨rfl, rfl, List.nodup_nil, by simp [init], by simp, rfl, by simp⟩ hops

/-- The items popped by a history, in order. -/
def popped : List (Out V I) → List I
  | [] => []
  | .item i :: os => i :: popped os
  | _ :: os => popped os

/-- The items accepted by a history, in order: those appended with a node seen for the first time. -/
def accepted (asItem : V → I) : List V → List (Op V I) → List I
  | _, [] => []
  | past, .append n item :: ops =>
    (if n ∈ past then [] else [item.getD (asItem n)]) ++ accepted asItem (n :: past) ops
  | past, _ :: ops => accepted asItem past ops

/-- C58, queue: over any history the popped items are the first accepted items, in acceptance order. -/
theorem queue_fifo (asItem : V → I) {graph : List V} (hg : graph.Nodup)
    (ops : List (Op V I)) (hops : ∀ n ∈ appends ops, n ∈ graph) :
    popped (run false asItem (init graph, []) ops) <+: accepted asItem [] ops := by
  rw [traversal_history false asItem hg ops hops]
  have key : ∀ (ops : List (Op V I)) (p : Past V I) (past : List V), (∀ n, n ∈ past ↔ n ∈ p.appended) →
      popped (expects false asItem graph p ops) <+: p.held ++ accepted asItem past ops := by
    intro ops
    induction ops with
    | nil => intro p past _; exact List.nil_prefix
    | cons op ops ih =>
      intro p past hp
      cases op with
      | append n item =>
        have := ih (remember false asItem graph p (.append n item)) (n :: past) (by
          intro m; simp [remember, hp m]; tauto)
        simp only [expects, expect, popped, accepted]
        have e : (remember false asItem graph p (.append n item)).held ++ accepted asItem (n :: past) ops =
            p.held ++ ((if n ∈ past then [] else [item.getD (asItem n)]) ++ accepted asItem (n :: past) ops) := by
          simp only [remember, hp n]
          split <;> simp
        rw [e] at this
        exact this
      | pop =>
        have := ih (remember false asItem graph p .pop) past hp
        simp only [expects, expect, accepted, Bool.false_eq_true, if_false]
        rcases hh : p.held with _ | ⟨i, rest⟩
        · simp only [remember, hh, Bool.false_eq_true, if_false, List.drop_nil] at this
          simpa [popped, remember, hh] using this
        · simp only [remember, hh, Bool.false_eq_true, if_false, List.drop_succ_cons, List.drop_zero] at this
          simpa [popped, remember, hh] using this
      | len => exact ih p past hp
      | contains n => exact ih p past hp
      | seenAll => exact ih p past hp
      | unseen => exact ih (remember false asItem graph p .unseen) past hp
      | next =>
        have := ih (remember false asItem graph p .next) past hp
        simp only [expects, expect, accepted]
        rcases p.ahead.find? (fun n => decide (n ∉ p.appended)) with _ | n <;> exact this
  exact key ops ⟨[], [], []⟩ [] (by simp)

/-- Two appends, a duplicate, a generator, two pops: the hypotheses hold and the results are not trivial. -/
example : (∀ n ∈ appends ([.append 1 none, .append 2 (some 20), .append 1 none, .unseen, .next, .pop, .pop, .pop] :
    List (Op Nat Nat)), n ∈ [3, 1, 2]) ∧
    popped (run true id (init [3, 1, 2], []) ([.append 1 none, .append 2 (some 20), .append 1 none, .unseen, .next, .pop, .pop, .pop] :
    List (Op Nat Nat))) = [20, 1] ∧
    popped (run false id (init [3, 1, 2], []) ([.append 1 none, .append 2 (some 20), .append 1 none, .unseen, .next, .pop, .pop, .pop] :
    List (Op Nat Nat))) = [1, 20] := by decide

end Traversal
end Pelote
