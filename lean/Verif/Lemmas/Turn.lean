import Verif.Spec.Turn
import Verif.Lemmas.Reorder
import Verif.Lemmas.Components
import Verif.Lemmas.Degree
import Verif.Spec.Triangles

/-! Graphs which differ by the direction of their edges. -/
namespace Pelote
variable {V A B : Type} [DecidableEq V]

/-- The entries of a list, matched with those of a permutation of it. -/
theorem perm_reindex {α : Type} {l m : List α} (h : l.Perm m) : ∃ σ : Fin l.length ≃ Fin m.length, ∀ i, l[i] = m[σ i] := by
  induction h with
  | nil => exact ⟨Equiv.refl _, fun i => i.elim0⟩
  | @cons x l m _ ih =>
    obtain ⟨σ, hσ⟩ := ih
    refine ⟨(finSuccEquiv l.length).trans (σ.optionCongr.trans (finSuccEquiv m.length).symm), ?_⟩
    intro i
    refine Fin.cases ?_ (fun j => ?_) i
    · simp
    · simpa using hσ j
  | swap x y l =>
    refine ⟨Equiv.swap (0 : Fin (l.length + 2)) 1, ?_⟩
    intro i
    refine Fin.cases ?_ (fun j => ?_) i
    · simp
    · refine Fin.cases ?_ (fun k => ?_) j
      · simp
      · have : Equiv.swap (0 : Fin (l.length + 2)) 1 k.succ.succ = k.succ.succ := by
          apply Equiv.swap_apply_of_ne_of_ne
          · exact Fin.succ_ne_zero _
          · intro hc
            exact Fin.succ_ne_zero _ (Fin.succ_injective _ hc)
        show _ = (x :: y :: l)[(Equiv.swap (0 : Fin (l.length + 2)) 1 k.succ.succ).val]
        simp only [this]
        simp
  | trans _ _ ih1 ih2 =>
    obtain ⟨σ, hσ⟩ := ih1
    obtain ⟨τ, hτ⟩ := ih2
    exact ⟨σ.trans τ, fun i => (hσ i).trans (hτ _)⟩

theorem SameEdges.reindex {d : Bool} {l l' : List (V × V × B)} (h : SameEdges d l l') :
    ∃ σ : Fin l.length ≃ Fin l'.length, ∀ i,
      samePair d l[i].1 l[i].2.1 l'[σ i].1 l'[σ i].2.1 = true ∧ l[i].2.2 = l'[σ i].2.2 := by
  obtain ⟨m, hp, hf⟩ := h
  obtain ⟨σ, hσ⟩ := perm_reindex hp
  have hl := hf.length_eq
  refine ⟨σ.trans (finCongr hl), ?_⟩
  intro i
  have := (List.forall₂_iff_get.1 hf).2 (σ i).val (σ i).2 (hl ▸ (σ i).2)
  have h1 := hσ i
  simp only [Fin.getElem_fin] at h1 ⊢
  rw [h1]
  exact this

theorem SameEdges.trans {d : Bool} {l l' l'' : List (V × V × B)} (h : SameEdges d l l') (h' : SameEdges d l' l'') :
    SameEdges d l l'' := by
  obtain ⟨σ, hσ⟩ := h.reindex
  obtain ⟨τ, hτ⟩ := h'.reindex
  refine sameEdges_of_equiv (σ.trans τ) (fun i => ?_)
  have h1 := hσ i
  have h2 := hτ (σ i)
  exact ⟨(samePair_trans h1.1).trans h2.1, h1.2.trans h2.2⟩

theorem SameEdges.refl {d : Bool} (l : List (V × V × B)) : SameEdges d l l :=
  ⟨l, List.Perm.refl _, List.forall₂_same.2 fun _ _ => ⟨samePair_refl _ _ _, rfl⟩⟩

namespace Graph.Turned
variable {g g' : Graph V A}

theorem refl (g : Graph V A) : g.Turned g := ⟨rfl, .refl _⟩

theorem symm (s : g.Turned g') : g'.Turned g := ⟨s.node.symm, s.edges.symm⟩

theorem trans {g'' : Graph V A} (s : g.Turned g') (s' : g'.Turned g'') : g.Turned g'' :=
  ⟨s.node.trans s'.node, s.edges.trans s'.edges⟩

theorem nodes (s : g.Turned g') : g.nodes = g'.nodes := congrArg Dict.keys s.node

theorem order (s : g.Turned g') : g.order = g'.order := congrArg List.length s.node

theorem adjacent (s : g.Turned g') (h : g.WF) (h' : g'.WF) (u v : V) : g.Adjacent u v ↔ g'.Adjacent u v := by
  have key : ∀ {g g' : Graph V A}, g.Turned g' → g.WF → g'.WF → g.Adjacent u v → g'.Adjacent u v := by
    intro g g' s h h' ha
    have hl : ∀ {g : Graph V A}, g.WF → (g.Adjacent u v ↔ (u, v) ∈ g.edges ∨ (v, u) ∈ g.edges) := by
      intro g h
      unfold Graph.Adjacent
      rw [hasEdge_listed h, hasEdge_listed h]
      tauto
    have hm : ∀ {x y : V}, (x, y) ∈ g.edges → (x, y) ∈ g'.edges ∨ (y, x) ∈ g'.edges := by
      intro x y hxy
      obtain ⟨a, ha⟩ := mem_edges.1 hxy
      obtain ⟨e', he', hs, _⟩ := s.edges.exists ha
      have hin : (e'.1, e'.2.1) ∈ g'.edges := mem_edges.2 ⟨e'.2.2, he'⟩
      rcases samePair_iff.1 hs with ⟨h1, h2⟩ | ⟨_, h1, h2⟩
      · simp only at h1 h2; rw [h1, h2]; exact .inl hin
      · simp only at h1 h2; rw [h1, h2]; exact .inr hin
    rw [hl h] at ha
    rw [hl h']
    rcases ha with ha | ha
    · exact hm ha
    · exact (hm ha).symm
  exact ⟨key s h h', key s.symm h' h⟩

theorem triangle (s : g.Turned g') (h : g.WF) (h' : g'.WF) (t : Finset V) : g.IsTriangle t ↔ g'.IsTriangle t := by
  unfold Graph.IsTriangle
  simp only [s.adjacent h h']

theorem attrsAll (s : g.Turned g') {P : Attrs A → Prop} (hP : ∀ e ∈ g.edgesData, P e.2.2) :
    ∀ e ∈ g'.edgesData, P e.2.2 := by
  intro e' he'
  obtain ⟨e, he, _, hd⟩ := s.edges.symm.exists he'
  rw [hd]; exact hP e he

end Graph.Turned
end Pelote
