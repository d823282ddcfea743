import Verif.Py.Val
import Verif.Lemmas.GraphOps
import Verif.Lemmas.Rebuild

/-! Adding weighted edges to a simple graph. -/
set_option linter.unusedSectionVars false
namespace Pelote
variable {V K : Type} [DecidableEq V]

/-- Add edges carrying a weight. -/
def addWeights (g : Graph V (Val K)) (E : List (V × V × K)) : Graph V (Val K) :=
  E.foldl (fun g e => g.addEdgeCore e.1 e.2.1 none [(.str "weight", .num e.2.2)]) g

theorem addWeights_multi (g : Graph V (Val K)) (E : List (V × V × K)) : (addWeights g E).multi = g.multi := by
  induction E generalizing g with
  | nil => rfl
  | cons e E ih => exact (ih _).trans (Graph.addEdgeCore_multi _ _ _ _ _)

theorem addWeights_directed (g : Graph V (Val K)) (E : List (V × V × K)) :
    (addWeights g E).directed = g.directed := by
  induction E generalizing g with
  | nil => rfl
  | cons e E ih => exact (ih _).trans (Graph.addEdgeCore_directed _ _ _ _ _)

theorem addWeights_wf {g : Graph V (Val K)} (h : g.WF) (E : List (V × V × K)) : (addWeights g E).WF := by
  induction E generalizing g with
  | nil => exact h
  | cons e E ih => exact ih (Graph.WF.addEdgeCore h _ _ _ _)

/-- The key dict of an edge of the projection. -/
def weightDict (x : K) : Dict PyKey (Attrs (Val K)) := [(.int 0, [(.str "weight", .num x)])]

theorem addWeights_keydict {g : Graph V (Val K)} (hd : g.directed = false) (hm : g.multi = false)
    {f : V → V → K} (hf : ∀ u v, f u v = f v u) (E : List (V × V × K)) (hE : ∀ e ∈ E, e.2.2 = f e.1 e.2.1)
    (hg : ∀ u v d, g.keydict? u v = some d → d = weightDict (f u v)) (u v : V) :
    (addWeights g E).keydict? u v =
      if (∃ e ∈ E, samePair false e.1 e.2.1 u v = true) then some (weightDict (f u v)) else g.keydict? u v := by
  induction E generalizing g with
  | nil => simp [addWeights]
  | cons e E ih =>
    obtain ⟨a, b, x⟩ := e
    have hx : x = f a b := hE _ List.mem_cons_self
    subst hx
    have key : ∀ y z, (g.addEdgeCore a b none [(.str "weight", .num (f a b))]).keydict? y z =
        if samePair false a b y z = true then some (weightDict (f y z)) else g.keydict? y z := by
      intro y z
      rw [Graph.keydict?_addEdgeCore, hd, hm]
      by_cases hs : samePair false a b y z = true
      · rw [if_pos hs, if_pos hs]
        have hfe : f y z = f a b := by
          rcases samePair_iff.1 hs with ⟨rfl, rfl⟩ | ⟨_, rfl, rfl⟩
          · rfl
          · exact hf _ _
        rw [hfe]
        cases hk : g.keydict? a b with
        | none => rfl
        | some d =>
          rw [hg a b d hk]
          simp [Graph.addToData, weightDict, Dict.get?, Dict.set, Dict.update]
      · rw [if_neg hs, if_neg hs]
    have hgoal := ih (g := g.addEdgeCore a b none [(.str "weight", .num (f a b))])
      (by rw [Graph.addEdgeCore_directed]; exact hd) (by rw [Graph.addEdgeCore_multi]; exact hm)
      (fun e he => hE e (List.mem_cons_of_mem _ he))
      (by
        intro y z d hk
        rw [key] at hk
        split at hk
        · exact (Option.some.inj hk).symm
        · exact hg y z d hk)
    unfold addWeights at hgoal ⊢
    rw [List.foldl_cons, hgoal, key]
    simp only [List.mem_cons, exists_eq_or_imp]
    by_cases h1 : samePair false a b u v = true <;>
      by_cases h2 : ∃ e ∈ E, samePair false e.1 e.2.1 u v = true <;> simp [h1, h2]

theorem addWeights_node {g : Graph V (Val K)} (E : List (V × V × K)) (hE : ∀ e ∈ E, e.1 ∈ g.nodes ∧ e.2.1 ∈ g.nodes) :
    (addWeights g E).node = g.node ∧ (addWeights g E).attrs = g.attrs := by
  induction E generalizing g with
  | nil => exact ⟨rfl, rfl⟩
  | cons e E ih =>
    obtain ⟨h1, h2⟩ := hE e List.mem_cons_self
    have he := Graph.addEdgeCore_present h1 h2 none [(.str "weight", .num e.2.2)]
    have := ih (g := g.addEdgeCore e.1 e.2.1 none [(.str "weight", .num e.2.2)])
      (by rw [he]; exact fun e he => hE e (List.mem_cons_of_mem _ he))
    unfold addWeights at this ⊢
    rw [List.foldl_cons, this.1, this.2, he]
    exact ⟨rfl, rfl⟩

theorem addNodeCore_fresh {g : Graph V (Val K)} {n : V} {a : Attrs (Val K)} (hn : n ∉ g.nodes)
    (ha : a.keys.Nodup) : (g.addNodeCore n a) = { g with node := g.node ++ [(n, a)] } := by
  unfold Graph.addNodeCore
  have : g.node.get? n = none := Dict.get?_eq_none_iff.2 hn
  rw [this, Option.getD_none, Dict.update_nil_left ha, Dict.set_of_not_mem _ hn]

theorem weight_kwSafe (x : Val K) : Graph.EdgeKwSafe false [(PyKey.str "weight", x)] := by
  intro k hk
  simp only [Dict.keys_cons, Dict.keys_nil, List.mem_singleton] at hk
  exact ⟨"weight", hk, by decide⟩

end Pelote
