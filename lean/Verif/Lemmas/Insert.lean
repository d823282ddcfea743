import Verif.Spec.Insert
import Verif.Lemmas.Rebuild
import Verif.Lemmas.GraphOps

/-! Successive insertions of nodes and edges. -/
set_option linter.unusedSectionVars false
namespace Pelote
namespace Graph
variable {V A : Type} [DecidableEq V]

/-- Successive `add_node(n, **a)`, keyword arguments aside. -/
def addNodes (g : Graph V A) (N : List (V × Attrs A)) : Graph V A :=
  N.foldl (fun g p => g.addNodeCore p.1 p.2) g

/-- Successive `add_edge(u, v, key, **a)`, keyword arguments aside. -/
def addKeyed (g : Graph V A) (E : List (V × V × Option PyKey × Attrs A)) : Graph V A :=
  E.foldl (fun g e => g.addEdgeCore e.1 e.2.1 e.2.2.1 e.2.2.2) g

theorem addNodes_frame (N : List (V × Attrs A)) (g : Graph V A) :
    (g.addNodes N).directed = g.directed ∧ (g.addNodes N).multi = g.multi ∧ (g.addNodes N).attrs = g.attrs ∧
      (g.addNodes N).links = g.links := by
  induction N generalizing g with
  | nil => exact ⟨rfl, rfl, rfl, rfl⟩
  | cons p N ih =>
    obtain ⟨h1, h2, h3, h4⟩ := ih (g.addNodeCore p.1 p.2)
    exact ⟨h1, h2, h3, h4⟩

theorem WF.addNodes {g : Graph V A} (h : g.WF) (N : List (V × Attrs A)) : (g.addNodes N).WF := by
  induction N generalizing g with
  | nil => exact h
  | cons p N ih => exact ih (h.addNodeCore p.1 p.2)

theorem addNodes_get? (N : List (V × Attrs A)) (g : Graph V A) (n : V) :
    (g.addNodes N).node.get? n =
      if n ∈ N.map Prod.fst then
        some (merged ((N.filter (fun p => decide (p.1 = n))).map Prod.snd) ((g.node.get? n).getD []))
      else g.node.get? n := by
  induction N generalizing g with
  | nil => rfl
  | cons p N ih =>
    obtain ⟨m, a⟩ := p
    have e : g.addNodes ((m, a) :: N) = (g.addNodeCore m a).addNodes N := rfl
    rw [e, ih]
    have hget : (g.addNodeCore m a).node.get? n =
        if m = n then some (((g.node.get? m).getD []).update a) else g.node.get? n := by
      unfold addNodeCore
      exact Dict.get?_set _ _ _ _
    rw [hget]
    by_cases hm : m = n
    · subst hm
      simp only [if_true, List.map_cons, List.mem_cons, true_or, decide_true, List.filter_cons, Option.getD_some]
      split
      · rfl
      · rename_i hN
        have : N.filter (fun p => decide (p.1 = m)) = [] := by
          rw [List.filter_eq_nil_iff]
          intro p hp hc
          exact hN (List.mem_map.2 ⟨p, hp, by simpa using hc⟩)
        rw [this]; rfl
    · have : (n = m) = False := by simp [Ne.symm hm]
      simp only [if_neg hm, List.map_cons, List.mem_cons, this, false_or, List.filter_cons, decide_eq_true_eq]

theorem addKeyed_frame (E : List (V × V × Option PyKey × Attrs A)) (g : Graph V A) :
    (g.addKeyed E).directed = g.directed ∧ (g.addKeyed E).multi = g.multi ∧ (g.addKeyed E).attrs = g.attrs := by
  induction E generalizing g with
  | nil => exact ⟨rfl, rfl, rfl⟩
  | cons e E ih =>
    obtain ⟨h1, h2, h3⟩ := ih (g.addEdgeCore e.1 e.2.1 e.2.2.1 e.2.2.2)
    refine ⟨?_, ?_, ?_⟩
    · exact h1.trans (addEdgeCore_directed ..)
    · exact h2.trans (addEdgeCore_multi ..)
    · exact h3.trans (addEdgeCore_attrs ..)

theorem WF.addKeyed {g : Graph V A} (h : g.WF) (E : List (V × V × Option PyKey × Attrs A)) : (g.addKeyed E).WF := by
  induction E generalizing g with
  | nil => exact h
  | cons e E ih => exact ih (h.addEdgeCore _ _ _ _)

theorem addKeyed_get? (E : List (V × V × Option PyKey × Attrs A)) (g : Graph V A) (n : V) :
    (g.addKeyed E).node.get? n =
      if ∃ e ∈ E, n = e.1 ∨ n = e.2.1 then some ((g.node.get? n).getD []) else g.node.get? n := by
  induction E generalizing g with
  | nil => simp [addKeyed]
  | cons e E ih =>
    have h : g.addKeyed (e :: E) = (g.addEdgeCore e.1 e.2.1 e.2.2.1 e.2.2.2).addKeyed E := rfl
    rw [h, ih, get?_addEdgeCore]
    by_cases h1 : ∃ e ∈ E, n = e.1 ∨ n = e.2.1
    · have h2 : ∃ x ∈ e :: E, n = x.1 ∨ n = x.2.1 := by
        obtain ⟨x, hx, hn⟩ := h1; exact ⟨x, List.mem_cons_of_mem _ hx, hn⟩
      rw [if_pos h1, if_pos h2]
      split <;> simp
    · rw [if_neg h1]
      by_cases h2 : n = e.1 ∨ n = e.2.1
      · rw [if_pos h2, if_pos ⟨e, List.mem_cons_self, h2⟩]
      · rw [if_neg h2, if_neg]
        rintro ⟨x, hx, hn⟩
        rcases List.mem_cons.1 hx with rfl | hx
        · exact h2 hn
        · exact h1 ⟨x, hx, hn⟩

theorem mem_nodes_addKeyed {E : List (V × V × Option PyKey × Attrs A)} {g : Graph V A} {n : V} :
    n ∈ (g.addKeyed E).nodes ↔ n ∈ g.nodes ∨ ∃ e ∈ E, n = e.1 ∨ n = e.2.1 := by
  induction E generalizing g with
  | nil => simp [addKeyed]
  | cons e E ih =>
    have h : g.addKeyed (e :: E) = (g.addEdgeCore e.1 e.2.1 e.2.2.1 e.2.2.2).addKeyed E := rfl
    rw [h, ih, mem_nodes_addEdgeCore]
    simp [or_assoc]

theorem mem_nodes_addNodes {N : List (V × Attrs A)} {g : Graph V A} {n : V} :
    n ∈ (g.addNodes N).nodes ↔ n ∈ g.nodes ∨ n ∈ N.map Prod.fst := by
  unfold nodes
  constructor
  · intro h
    obtain ⟨a, ha⟩ := Dict.exists_get?_of_mem_keys h
    rw [addNodes_get?] at ha
    split at ha
    · exact .inr (by assumption)
    · exact .inl (Dict.mem_keys_of_mem (Dict.mem_of_get? ha))
  · intro h
    by_contra hc
    rw [← Dict.get?_eq_none_iff, addNodes_get?] at hc
    split at hc
    · cases hc
    · rename_i hN
      rcases h with h | h
      · obtain ⟨a, ha⟩ := Dict.exists_get?_of_mem_keys h
        rw [ha] at hc; cases hc
      · exact hN h

theorem addKeyed_keydict? (E : List (V × V × Option PyKey × Attrs A)) (g : Graph V A) (x y : V) :
    (g.addKeyed E).keydict? x y =
      (between g.directed x y E).foldl (fun o e => some (addToData g.multi (o.getD []) e.2.2.1 e.2.2.2)) (g.keydict? x y) := by
  induction E generalizing g with
  | nil => rfl
  | cons e E ih =>
    have h : g.addKeyed (e :: E) = (g.addEdgeCore e.1 e.2.1 e.2.2.1 e.2.2.2).addKeyed E := rfl
    rw [h, ih, addEdgeCore_directed, addEdgeCore_multi, keydict?_addEdgeCore]
    unfold between
    rw [List.filter_cons]
    by_cases hs : samePair g.directed e.1 e.2.1 x y = true
    · rw [if_pos hs, if_pos hs, List.foldl_cons, keydict?_samePair hs]
    · rw [if_neg hs, if_neg hs]

theorem foldl_some {α β : Type} (f : Option β → α → β) (L : List α) (o : Option β) :
    (L.foldl (fun o e => some (f o e)) o).isSome = (o.isSome || !L.isEmpty) := by
  induction L generalizing o with
  | nil => simp
  | cons e L ih => rw [List.foldl_cons, ih]; simp

theorem addKeyed_hasEdge (E : List (V × V × Option PyKey × Attrs A)) (g : Graph V A) (x y : V) :
    (g.addKeyed E).hasEdge x y = true ↔
      g.hasEdge x y = true ∨ ∃ e ∈ E, samePair g.directed e.1 e.2.1 x y = true := by
  unfold hasEdge
  rw [addKeyed_keydict?, foldl_some (fun (o : Option (Dict PyKey (Attrs A))) (e : V × V × Option PyKey × Attrs A) =>
    addToData g.multi (o.getD []) e.2.2.1 e.2.2.2)]
  simp [between]

/-- Edges added to a simple graph: the attributes are updated. -/
theorem simple_foldl (L : List (V × V × Option PyKey × Attrs A)) (d : Attrs A) :
    L.foldl (fun o e => some (addToData false (o.getD []) e.2.2.1 e.2.2.2)) (some [(PyKey.int 0, d)]) =
      some [(PyKey.int 0, merged (L.map (fun e => e.2.2.2)) d)] := by
  induction L generalizing d with
  | nil => rfl
  | cons e L ih =>
    rw [List.foldl_cons]
    have : addToData false ((some [(PyKey.int 0, d)] : Option (Dict PyKey (Attrs A))).getD []) e.2.2.1 e.2.2.2 =
        [(PyKey.int 0, d.update e.2.2.2)] := by
      simp [addToData, Dict.set, Dict.get?]
    rw [this, ih]
    rfl

theorem addKeyed_simple {E : List (V × V × Option PyKey × Attrs A)} {g : Graph V A} (hm : g.multi = false) {x y : V}
    (hg : g.keydict? x y = none) (a : Attrs A) :
    (g.addKeyed E).edge? x y (.int 0) = some a ↔
      between g.directed x y E ≠ [] ∧ a = merged ((between g.directed x y E).map (fun e => e.2.2.2)) [] := by
  unfold edge?
  rw [addKeyed_keydict?, hg, hm]
  rcases hb : between g.directed x y E with _ | ⟨e, L⟩
  · simp
  · rw [List.foldl_cons]
    have : addToData false ((none : Option (Dict PyKey (Attrs A))).getD []) e.2.2.1 e.2.2.2 =
        [(PyKey.int 0, Dict.update [] e.2.2.2)] := by
      simp [addToData, Dict.set, Dict.get?]
    rw [this, simple_foldl]
    simp only [Option.bind_some, Dict.get?_cons, if_true, Option.some.injEq, ne_eq, reduceCtorEq, not_false_eq_true,
      true_and, List.map_cons]
    rw [eq_comm]
    rfl

/-- Edges with a key added to a multigraph. -/
theorem keyed_foldl (L : List (V × V × Option PyKey × Attrs A)) (hL : ∀ e ∈ L, e.2.2.1 ≠ none)
    (o : Option (Dict PyKey (Attrs A))) (k : PyKey) :
    (L.foldl (fun o e => some (addToData true (o.getD []) e.2.2.1 e.2.2.2)) o).bind (fun d => d.get? k) =
      if (L.filter (fun e => decide (e.2.2.1 = some k))) = [] then o.bind (fun d => d.get? k)
      else some (merged ((L.filter (fun e => decide (e.2.2.1 = some k))).map (fun e => e.2.2.2))
        ((o.bind (fun d => d.get? k)).getD [])) := by
  induction L generalizing o with
  | nil => simp
  | cons e L ih =>
    rw [List.foldl_cons, ih (fun e he => hL e (List.mem_cons_of_mem _ he)), List.filter_cons]
    obtain ⟨u, v, key, a⟩ := e
    cases key with
    | none => exact absurd rfl (hL _ List.mem_cons_self)
    | some k' =>
      have hadd : (some (addToData true (o.getD []) (some k') a) : Option (Dict PyKey (Attrs A))).bind (fun d => d.get? k) =
          if k' = k then some (((o.bind (fun d => d.get? k)).getD []).update a) else o.bind (fun d => d.get? k) := by
        simp only [Option.bind_some, addToData, if_true, Option.getD_some]
        rw [Dict.get?_set]
        split
        · rename_i h; subst h
          cases o with
          | none => rfl
          | some d => rfl
        · cases o with
          | none => rfl
          | some d => rfl
      simp only [hadd, Option.some.injEq]
      by_cases hk : k' = k
      · simp only [hk, if_true, decide_true, Option.getD_some]
        by_cases hn : L.filter (fun e => decide (e.2.2.1 = some k)) = []
        · simp only [hn, if_true]; rfl
        · simp only [hn, if_false]; rfl
      · simp only [hk, if_false, decide_false, Bool.false_eq_true]

theorem addKeyed_keyed {E : List (V × V × Option PyKey × Attrs A)} {g : Graph V A} (hm : g.multi = true)
    (hE : ∀ e ∈ E, e.2.2.1 ≠ none) {x y : V} (hg : g.keydict? x y = none) (k : PyKey) (a : Attrs A) :
    (g.addKeyed E).edge? x y k = some a ↔
      (between g.directed x y E).filter (fun e => decide (e.2.2.1 = some k)) ≠ [] ∧
      a = merged (((between g.directed x y E).filter (fun e => decide (e.2.2.1 = some k))).map (fun e => e.2.2.2)) [] := by
  unfold edge?
  rw [addKeyed_keydict?, hg, hm, keyed_foldl (between g.directed x y E) (fun e he => hE e (List.mem_filter.1 he).1)]
  split
  · rename_i h; simp [h]
  · rename_i h
    simp only [Option.some.injEq, Option.bind_none, Option.getD_none, ne_eq, h, not_false_eq_true, true_and]
    exact eq_comm

/-- Edges without a key added to a multigraph. -/
theorem enumKeys_get? (i : Nat) (as : List (Attrs A)) (k : PyKey) (a : Attrs A) :
    (enumKeys i as).get? k = some a ↔ ∃ j : Nat, as[j]? = some a ∧ k = .int ((i + j : Nat) : Int) := by
  induction as generalizing i with
  | nil => simp [enumKeys]
  | cons b as ih =>
    unfold enumKeys
    rw [Dict.get?_cons]
    by_cases hk : PyKey.int i = k
    · rw [if_pos hk]
      subst hk
      constructor
      · intro h; exact ⟨0, by simpa using h, by simp⟩
      · rintro ⟨j, h1, h2⟩
        have h3 : (i : Int) = ((i + j : Nat) : Int) := by injection h2
        have : j = 0 := by omega
        subst this; simpa using h1
    · rw [if_neg hk, ih]
      constructor
      · rintro ⟨j, h1, h2⟩; exact ⟨j + 1, by simpa using h1, by rw [h2]; congr 2; omega⟩
      · rintro ⟨j, h1, h2⟩
        cases j with
        | zero => exact absurd h2.symm (by simpa using hk)
        | succ j => exact ⟨j, by simpa using h1, by rw [h2]; congr 2; omega⟩

theorem keyless_foldl (L : List (V × V × Option PyKey × Attrs A)) (hL : ∀ e ∈ L, e.2.2.1 = none)
    (hn : ∀ e ∈ L, e.2.2.2.keys.Nodup) (as : List (Attrs A)) :
    L.foldl (fun o e => some (addToData true (o.getD []) e.2.2.1 e.2.2.2)) (some (enumKeys 0 as)) =
      some (enumKeys 0 (as ++ L.map (fun e => e.2.2.2))) := by
  induction L generalizing as with
  | nil => simp
  | cons e L ih =>
    rw [List.foldl_cons, hL e List.mem_cons_self, Option.getD_some,
      addToData_enumKeys as e.2.2.2 (hn e List.mem_cons_self) (by simp),
      ih (fun e he => hL e (List.mem_cons_of_mem _ he)) (fun e he => hn e (List.mem_cons_of_mem _ he))]
    simp

theorem addKeyed_keyless {E : List (V × V × Option PyKey × Attrs A)} {g : Graph V A} (hm : g.multi = true)
    (hE : ∀ e ∈ E, e.2.2.1 = none) (hn : ∀ e ∈ E, e.2.2.2.keys.Nodup) {x y : V} (hg : g.keydict? x y = none) :
    (g.addKeyed E).keydict? x y =
      if between g.directed x y E = [] then none
      else some (enumKeys 0 ((between g.directed x y E).map (fun e => e.2.2.2))) := by
  rw [addKeyed_keydict?, hg, hm]
  have hb : ∀ e ∈ between g.directed x y E, e ∈ E := fun e he => (List.mem_filter.1 he).1
  rcases hbe : between g.directed x y E with _ | ⟨e, L⟩
  · rfl
  · rw [hbe] at hb
    rw [if_neg (by simp), List.foldl_cons, hE e (hb e List.mem_cons_self)]
    have := addToData_enumKeys (m := true) [] e.2.2.2 (hn e (hb e List.mem_cons_self)) (by simp)
    have e0 : (none : Option (Dict PyKey (Attrs A))).getD [] = enumKeys 0 [] := rfl
    rw [e0, this, keyless_foldl L (fun e he => hE e (hb e (List.mem_cons_of_mem _ he)))
      (fun e he => hn e (hb e (List.mem_cons_of_mem _ he)))]
    simp

end Graph
end Pelote
