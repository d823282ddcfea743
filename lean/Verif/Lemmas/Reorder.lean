import Verif.Spec.Reorder
import Verif.Lemmas.Sparsification
import Verif.Lemmas.Components
import Mathlib.Data.List.FinRange
import Mathlib.Logic.Equiv.Fin.Basic

/-! Graphs which are the same up to order. -/
namespace Pelote
variable {V A B : Type} [DecidableEq V]

namespace Graph.Same
variable {g g' : Graph V A}

theorem symm (s : g.Same g') : g'.Same g :=
  ⟨s.directed.symm, s.multi.symm, s.attrs.symm, fun n => (s.node n).symm, fun u v k => (s.edge u v k).symm⟩

theorem mem_nodes (s : g.Same g') (n : V) : n ∈ g.nodes ↔ n ∈ g'.nodes := by
  have h := s.node n
  constructor
  · intro hn
    by_contra hc
    rw [Dict.get?_eq_none_iff.2 hc] at h
    exact (Dict.get?_eq_none_iff.1 h) hn
  · intro hn
    by_contra hc
    rw [Dict.get?_eq_none_iff.2 hc] at h
    exact (Dict.get?_eq_none_iff.1 h.symm) hn

theorem nodes_perm (s : g.Same g') (h : g.WF) (h' : g'.WF) : g.nodes.Perm g'.nodes :=
  (List.perm_ext_iff_of_nodup h.nodup h'.nodup).2 s.mem_nodes

theorem order (s : g.Same g') (h : g.WF) (h' : g'.WF) : g.order = g'.order := by
  have := (s.nodes_perm h h').length_eq
  simpa [Graph.order, Graph.nodes, Dict.keys] using this

theorem mem_edgesKeys (s : g.Same g') (h : g.WF) (h' : g'.WF) {e : KeyedEdge V A} (he : e ∈ g.edgesKeys) :
    ∃ e' ∈ g'.edgesKeys, samePair g.directed e.1 e.2.1 e'.1 e'.2.1 = true ∧ e.2.2 = e'.2.2 := by
  obtain ⟨u, v, k, a⟩ := e
  obtain ⟨l, hl, hu, hv, hk⟩ := (Graph.mem_edgesKeys h).1 he
  have hsp : samePair g.directed u v l.u l.v = true := by
    rw [← hu, ← hv]
    rcases g.orient_cases l with e | ⟨hd, e⟩ <;> rw [e]
    · exact samePair_refl _ _ _
    · rw [hd]; simp [samePair]
  have he1 : g.edge? u v k = some a := by
    unfold Graph.edge?
    rw [(Graph.keydict?_eq_some h).2 ⟨l, hl, hsp, rfl⟩]
    exact Dict.get?_of_mem (h.keys l hl) hk
  rw [s.edge] at he1
  unfold Graph.edge? at he1
  rw [Option.bind_eq_some_iff] at he1
  obtain ⟨d, hd, hka⟩ := he1
  obtain ⟨l', hl', hsp', rfl⟩ := (Graph.keydict?_eq_some h').1 hd
  refine ⟨((g'.orient l').u, (g'.orient l').v, k, a),
    (Graph.mem_edgesKeys h').2 ⟨l', hl', rfl, rfl, Dict.mem_of_get? hka⟩, ?_, rfl⟩
  rw [s.directed]
  rcases g'.orient_cases l' with e | ⟨hd', e⟩ <;> rw [e]
  · exact hsp'
  · rw [hd'] at hsp' ⊢
    rw [samePair_comm, samePair_swap, samePair_comm]; exact hsp'

theorem hasEdge (s : g.Same g') (h : g.WF) (h' : g'.WF) (u v : V) : g.hasEdge u v = g'.hasEdge u v := by
  have key : ∀ {g g' : Graph V A}, g.Same g' → g.WF → g'.WF → g.hasEdge u v = true → g'.hasEdge u v = true := by
    intro g g' s h h' he
    unfold Graph.hasEdge at he
    obtain ⟨d, hd⟩ := Option.isSome_iff_exists.1 he
    obtain ⟨l, hl, hsp, rfl⟩ := (Graph.keydict?_eq_some h).1 hd
    obtain ⟨⟨k, a⟩, t, hdata⟩ := List.exists_cons_of_ne_nil (h.nonempty l hl)
    have he1 : g.edge? u v k = some a := by
      unfold Graph.edge?
      rw [hd]
      exact Dict.get?_of_mem (h.keys l hl) (by rw [hdata]; simp)
    rw [s.edge] at he1
    unfold Graph.edge? at he1
    rw [Option.bind_eq_some_iff] at he1
    obtain ⟨d', hd', _⟩ := he1
    unfold Graph.hasEdge
    rw [hd']; rfl
  rw [Bool.eq_iff_iff]
  exact ⟨key s h h', key s.symm h' h⟩

/-- The edges of the one, matched with the edges of the other. -/
theorem reindex (s : g.Same g') (h : g.WF) (h' : g'.WF) :
    ∃ σ : Fin g.edgesKeys.length ≃ Fin g'.edgesKeys.length, ∀ i,
      samePair g.directed g.edgesKeys[i].1 g.edgesKeys[i].2.1 g'.edgesKeys[σ i].1 g'.edgesKeys[σ i].2.1 = true ∧
        g.edgesKeys[i].2.2 = g'.edgesKeys[σ i].2.2 := by
  have hex : ∀ i : Fin g.edgesKeys.length, ∃ j : Fin g'.edgesKeys.length,
      samePair g.directed g.edgesKeys[i].1 g.edgesKeys[i].2.1 g'.edgesKeys[j].1 g'.edgesKeys[j].2.1 = true ∧
        g.edgesKeys[i].2.2 = g'.edgesKeys[j].2.2 := by
    intro i
    obtain ⟨e', he', hs⟩ := s.mem_edgesKeys h h' (List.getElem_mem i.2)
    obtain ⟨j, hj, rfl⟩ := List.getElem_of_mem he'
    exact ⟨⟨j, hj⟩, hs⟩
  choose f hf using hex
  have hdist : ∀ {g : Graph V A} (h : g.WF) (i j : Fin g.edgesKeys.length),
      samePair g.directed g.edgesKeys[i].1 g.edgesKeys[i].2.1 g.edgesKeys[j].1 g.edgesKeys[j].2.1 = true →
      g.edgesKeys[i].2.2 = g.edgesKeys[j].2.2 → i = j := by
    intro g h i j h1 h2
    by_contra hne
    have hd := List.pairwise_iff_getElem.1 (edgesKeys_distinct h)
    rcases lt_or_gt_of_ne hne with hlt | hlt
    · have := (hd i j i.2 j.2 hlt).1
      simp only [sameEdge, Bool.and_eq_false_iff, decide_eq_false_iff_not] at this
      rcases this with this | this
      · exact absurd h1 (by simpa using this)
      · exact this (congrArg Prod.fst h2).symm
    · have := (hd j i j.2 i.2 hlt).2
      simp only [sameEdge, Bool.and_eq_false_iff, decide_eq_false_iff_not] at this
      rcases this with this | this
      · exact absurd h1 (by simpa using this)
      · exact this (congrArg Prod.fst h2).symm
  have hinj : Function.Injective f := by
    intro i j hij
    have h1 := hf i
    have h2 := hf j
    rw [← hij] at h2
    refine hdist h i j ?_ (h1.2.trans h2.2.symm)
    exact (samePair_trans h1.1).trans (by rw [samePair_comm]; exact h2.1)
  have hsurj : Function.Surjective f := by
    intro j
    obtain ⟨e, he, hs⟩ := s.symm.mem_edgesKeys h' h (List.getElem_mem j.2)
    obtain ⟨i, hi, rfl⟩ := List.getElem_of_mem he
    refine ⟨⟨i, hi⟩, ?_⟩
    have h1 := hf ⟨i, hi⟩
    refine hdist h' _ _ ?_ (h1.2.symm.trans hs.2.symm)
    rw [← s.directed] at hs ⊢
    rw [samePair_comm]
    exact (samePair_trans hs.1).trans h1.1
  exact ⟨Equiv.ofBijective f ⟨hinj, hsurj⟩, hf⟩

end Graph.Same

/-- Lists matched index by index. -/
theorem sameEdges_of_equiv {d : Bool} {l l' : List (V × V × B)} (σ : Fin l.length ≃ Fin l'.length)
    (h : ∀ i, samePair d l[i].1 l[i].2.1 l'[σ i].1 l'[σ i].2.1 = true ∧ l[i].2.2 = l'[σ i].2.2) : SameEdges d l l' := by
  refine ⟨(List.finRange l'.length).map (fun j => l[σ.symm j]), ?_, ?_⟩
  · have hl : l = (List.finRange l.length).map (fun i => l[i]) := by
      apply List.ext_getElem <;> simp
    conv_lhs => rw [hl]
    have hp : (List.finRange l.length).Perm ((List.finRange l'.length).map σ.symm) := by
      refine (List.perm_ext_iff_of_nodup (List.nodup_finRange _) ?_).2 ?_
      · exact (List.nodup_finRange _).map σ.symm.injective
      · intro i
        simp only [List.mem_finRange, List.mem_map, true_and, true_iff]
        exact ⟨σ i, by simp⟩
    have := hp.map (fun i : Fin l.length => l[i])
    rwa [List.map_map] at this
  · rw [List.forall₂_iff_get]
    refine ⟨by simp, ?_⟩
    intro i h1 h2
    have := h (σ.symm ⟨i, h2⟩)
    simpa using this

theorem SameEdges.filter {d : Bool} {l l' : List (V × V × B)} (h : SameEdges d l l') {p p' : V × V × B → Bool}
    (hp : ∀ e ∈ l, ∀ e' ∈ l', samePair d e.1 e.2.1 e'.1 e'.2.1 = true → e.2.2 = e'.2.2 → p e = p' e') :
    SameEdges d (l.filter p) (l'.filter p') := by
  obtain ⟨m, hm, hf⟩ := h
  refine ⟨m.filter p, hm.filter p, ?_⟩
  have hp' : ∀ e ∈ m, ∀ e' ∈ l', samePair d e.1 e.2.1 e'.1 e'.2.1 = true → e.2.2 = e'.2.2 → p e = p' e' :=
    fun e he => hp e (hm.mem_iff.2 he)
  clear hm hp
  induction hf with
  | nil => exact .nil
  | @cons e e' m l' hr hf ih =>
    have hpe := hp' e List.mem_cons_self e' List.mem_cons_self hr.1 hr.2
    have ih := ih (fun x hx y hy => hp' x (List.mem_cons_of_mem _ hx) y (List.mem_cons_of_mem _ hy))
    rw [List.filter_cons, List.filter_cons, ← hpe]
    split
    · exact .cons hr ih
    · exact ih

theorem SameEdges.map_perm {C : Type} {d : Bool} {l l' : List (V × V × B)} (h : SameEdges d l l') {f : V × V × B → C}
    {f' : V × V × B → C}
    (hf : ∀ e ∈ l, ∀ e' ∈ l', samePair d e.1 e.2.1 e'.1 e'.2.1 = true → e.2.2 = e'.2.2 → f e = f' e') :
    (l.map f).Perm (l'.map f') := by
  obtain ⟨m, hm, hr⟩ := h
  have hf' : ∀ e ∈ m, ∀ e' ∈ l', samePair d e.1 e.2.1 e'.1 e'.2.1 = true → e.2.2 = e'.2.2 → f e = f' e' :=
    fun e he => hf e (hm.mem_iff.2 he)
  have : m.map f = l'.map f' := by
    clear hm hf
    induction hr with
    | nil => rfl
    | @cons e e' m l' hr hs ih =>
      rw [List.map_cons, List.map_cons, hf' e List.mem_cons_self e' List.mem_cons_self hr.1 hr.2,
        ih (fun x hx y hy => hf' x (List.mem_cons_of_mem _ hx) y (List.mem_cons_of_mem _ hy))]
  rw [← this]
  exact hm.map f

theorem SameEdges.map {C : Type} {d : Bool} {l l' : List (V × V × B)} (h : SameEdges d l l') (f : B → C) :
    SameEdges d (l.map (fun e => (e.1, e.2.1, f e.2.2))) (l'.map (fun e => (e.1, e.2.1, f e.2.2))) := by
  obtain ⟨m, hm, hf⟩ := h
  refine ⟨_, hm.map _, ?_⟩
  rw [List.forall₂_map_left_iff, List.forall₂_map_right_iff]
  exact hf.imp (fun e e' he => ⟨he.1, congrArg f he.2⟩)

theorem SameEdges.exists {d : Bool} {l l' : List (V × V × B)} (h : SameEdges d l l') {e : V × V × B} (he : e ∈ l) :
    ∃ e' ∈ l', samePair d e.1 e.2.1 e'.1 e'.2.1 = true ∧ e.2.2 = e'.2.2 := by
  obtain ⟨m, hm, hf⟩ := h
  obtain ⟨i, hi, rfl⟩ := List.getElem_of_mem (hm.mem_iff.1 he)
  exact ⟨l'[i]'(hf.length_eq ▸ hi), List.getElem_mem _, List.Forall₂.get hf hi (hf.length_eq ▸ hi)⟩

theorem SameEdges.symm {d : Bool} {l l' : List (V × V × B)} (h : SameEdges d l l') : SameEdges d l' l := by
  obtain ⟨m, hm, hf⟩ := h
  obtain ⟨m', h1, h2⟩ : ∃ m', List.Forall₂ (fun e' e => samePair d e'.1 e'.2.1 e.1 e.2.1 = true ∧ e'.2.2 = e.2.2) m' l ∧
      l'.Perm m' := by
    have := List.perm_comp_forall₂ hm (v := l')
      (r := fun e e' => samePair d e.1 e.2.1 e'.1 e'.2.1 = true ∧ e.2.2 = e'.2.2) hf
    obtain ⟨m', ha, hb⟩ := this
    exact ⟨m', ha.flip.imp (fun e e' he => ⟨by rw [samePair_comm]; exact he.1, he.2.symm⟩), hb.symm⟩
  exact ⟨m', h2, h1⟩

variable {g g' : Graph V A}

theorem Graph.Same.sameEdgesKeys (s : g.Same g') (h : g.WF) (h' : g'.WF) :
    SameEdges g.directed g.edgesKeys g'.edgesKeys := by
  obtain ⟨σ, hσ⟩ := s.reindex h h'
  exact sameEdges_of_equiv σ hσ

theorem Graph.Same.sameEdges (s : g.Same g') (h : g.WF) (h' : g'.WF) :
    SameEdges g.directed g.edgesData g'.edgesData :=
  (s.sameEdgesKeys h h').map Prod.snd

theorem edge?_simple {V A : Type} [DecidableEq V] {g : Graph V A} (h : g.WF) (hm : g.multi = false) {u v : V} {k : PyKey} (hk : k ≠ .int 0) : g.edge? u v k = none := by
  unfold Graph.edge?
  cases hd : g.keydict? u v with
  | none => rfl
  | some d =>
    obtain ⟨l, hl, _, rfl⟩ := (Graph.keydict?_eq_some h).1 hd
    rw [Option.bind_some, Dict.get?_eq_none_iff, h.simple hm l hl]
    simpa using hk

theorem hasEdge_of_edge? {V A : Type} [DecidableEq V] {g : Graph V A} {u v : V} {k : PyKey} {a : Attrs A}
    (h : g.edge? u v k = some a) : g.hasEdge u v = true := by
  unfold Graph.edge? at h
  unfold Graph.hasEdge
  cases hd : g.keydict? u v with
  | none => rw [hd] at h; cases h
  | some d => rfl

theorem edge?_of_hasEdge {V A : Type} [DecidableEq V] {g : Graph V A} (h : g.WF) (hm : g.multi = false) {u v : V}
    (he : g.hasEdge u v = true) : ∃ a, g.edge? u v (.int 0) = some a := by
  unfold Graph.hasEdge at he
  obtain ⟨d, hd⟩ := Option.isSome_iff_exists.1 he
  obtain ⟨l, hl, _, rfl⟩ := (Graph.keydict?_eq_some h).1 hd
  unfold Graph.edge?
  rw [hd, Option.bind_some]
  cases hg : l.data.get? (.int 0) with
  | some a => exact ⟨a, rfl⟩
  | none => exact absurd (by rw [h.simple hm l hl]; simp) (Dict.get?_eq_none_iff.1 hg)

end Pelote
