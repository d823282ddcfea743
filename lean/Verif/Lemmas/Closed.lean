import Verif.Spec.Closed
import Verif.Spec.Components
import Verif.Lemmas.Components
import Verif.Lemmas.SpanningForest
import Verif.Spec.Disparity
import Verif.Spec.Projection
import Verif.Spec.Triangles

/-! Lemmas on the parts of a graph without edges between them. -/
namespace Pelote

section
variable {V A : Type} [DecidableEq V] {g : Graph V A} {p : V → Bool}

theorem Graph.Closed.link (hc : g.Closed p) {l : Link V A} (hl : l ∈ g.links) : p l.u = p l.v :=
  hc _ _ (Graph.hasEdge_iff.2 ⟨l, hl, samePair_iff.2 (.inl ⟨rfl, rfl⟩)⟩)

theorem Graph.Closed.edges (hc : g.Closed p) (h : g.WF) {e : V × V} (he : e ∈ g.edges) : p e.1 = p e.2 :=
  hc _ _ ((hasEdge_listed h).2 (.inl he))

theorem Graph.Closed.not (hc : g.Closed p) : g.Closed (fun n => !p n) := fun u v h => congrArg Bool.not (hc u v h)

theorem Graph.Closed.adj (hc : g.Closed p) {n : V} (hn : p n = true) : (g.induced p).adj n = g.adj n := by
  unfold Graph.adj
  show (g.links.filter _).filterMap _ = _
  have hlinks : ∀ l ∈ g.links, p l.u = p l.v := fun l hl => hc.link hl
  show (g.links.filter (fun l => p l.u && p l.v)).filterMap (Link.from? g.directed n) = _
  generalize g.links = ls at hlinks
  induction ls with
  | nil => rfl
  | cons l ls ih =>
    have h0 := ih (fun l hl => hlinks l (List.mem_cons_of_mem _ hl))
    have h1 := hlinks l (List.mem_cons_self ..)
    rw [List.filter_cons, List.filterMap_cons]
    split
    · rw [List.filterMap_cons, h0]
    · rename_i hp
      have : Link.from? g.directed n l = none := by
        unfold Link.from?
        have hu : p l.u ≠ true := fun h => hp (by rw [← h1, h]; rfl)
        have a1 : l.u ≠ n := fun h => hu (by rw [h, hn])
        have a2 : l.v ≠ n := fun h => hu (by rw [h1, h, hn])
        simp [a1, a2]
      rw [this, h0]

theorem Graph.Closed.pred (hc : g.Closed p) {n : V} (hn : p n = true) : (g.induced p).pred n = g.pred n := by
  unfold Graph.pred
  have hlinks : ∀ l ∈ g.links, p l.u = p l.v := fun l hl => hc.link hl
  show (g.links.filter (fun l => p l.u && p l.v)).filterMap (Link.to? g.directed n) = _
  generalize g.links = ls at hlinks
  induction ls with
  | nil => rfl
  | cons l ls ih =>
    have h0 := ih (fun l hl => hlinks l (List.mem_cons_of_mem _ hl))
    have h1 := hlinks l (List.mem_cons_self ..)
    rw [List.filter_cons, List.filterMap_cons]
    split
    · rw [List.filterMap_cons, h0]
    · rename_i hp
      have : Link.to? g.directed n l = none := by
        unfold Link.to? Link.from?
        have hu : p l.u ≠ true := fun h => hp (by rw [← h1, h]; rfl)
        have a1 : l.u ≠ n := fun h => hu (by rw [h, hn])
        have a2 : l.v ≠ n := fun h => hu (by rw [h1, h, hn])
        simp [a1, a2]
      rw [this, h0]

theorem Graph.Closed.edgesOf (hc : g.Closed p) {n : V} (hn : p n = true) : (g.induced p).edgesOf n = g.edgesOf n := by
  unfold Graph.edgesOf
  rw [hc.adj hn]

theorem Graph.Closed.degree (hc : g.Closed p) {n : V} (hn : p n = true) : (g.induced p).degree n = g.degree n := by
  unfold Graph.degree
  rw [hc.adj hn, hc.pred hn]
  rfl

theorem Graph.Closed.keydict? (hc : g.Closed p) (u v : V) :
    (g.induced p).keydict? u v = if p u then g.keydict? u v else none := by
  rw [Graph.keydict?_induced]
  cases hu : p u
  · rfl
  · cases hv : p v
    · simp only [Bool.and_false, Bool.false_eq_true, if_false, if_true]
      cases hk : g.keydict? u v with
      | none => rfl
      | some d =>
        have := hc u v (by unfold Graph.hasEdge; rw [hk]; rfl)
        rw [hu, hv] at this
        cases this
    · rfl

theorem Graph.Closed.hasEdge (hc : g.Closed p) (u v : V) : (g.induced p).hasEdge u v = (p u && g.hasEdge u v) := by
  unfold Graph.hasEdge
  rw [hc.keydict?]
  cases p u <;> rfl

theorem Graph.Closed.edge? (hc : g.Closed p) (u v : V) (k : PyKey) :
    (g.induced p).edge? u v k = if p u then g.edge? u v k else none := by
  unfold Graph.edge?
  rw [hc.keydict?]
  cases p u <;> rfl

theorem Graph.Closed.edgesKeys (hc : g.Closed p) (h : g.WF) :
    (g.induced p).edgesKeys = g.edgesKeys.filter (fun e => p e.1) := by
  rw [Graph.edgesKeys_induced h]
  apply List.filter_congr
  intro e he
  have : (e.1, e.2.1) ∈ g.edges := List.mem_map.2 ⟨e, he, rfl⟩
  rw [← hc.edges h this]
  simp

theorem Graph.Closed.edgesData (hc : g.Closed p) (h : g.WF) :
    (g.induced p).edgesData = g.edgesData.filter (fun e => p e.1) := by
  unfold Graph.edgesData
  rw [hc.edgesKeys h, List.filter_map]
  rfl

theorem Graph.Closed.edges_filter (hc : g.Closed p) (h : g.WF) : (g.induced p).edges = g.edges.filter (fun e => p e.1) := by
  unfold Graph.edges
  rw [hc.edgesKeys h, List.filter_map]
  rfl

theorem Graph.Closed.adjacent (hc : g.Closed p) (u v : V) : (g.induced p).Adjacent u v ↔ p u = true ∧ g.Adjacent u v := by
  unfold Graph.Adjacent
  rw [hc.hasEdge, hc.hasEdge, Bool.and_eq_true, Bool.and_eq_true]
  constructor
  · rintro (h | h)
    · exact ⟨h.1, .inl h.2⟩
    · exact ⟨(hc _ _ h.2) ▸ h.1, .inr h.2⟩
  · rintro ⟨h0, h | h⟩
    · exact .inl ⟨h0, h⟩
    · exact .inr ⟨(hc _ _ h).symm ▸ h0, h⟩

theorem Graph.Closed.adjacent_eq (hc : g.Closed p) {u v : V} (h : g.Adjacent u v) : p u = p v := by
  rcases h with h | h
  · exact hc _ _ h
  · exact (hc _ _ h).symm

/-- The triangles of a closed part are the triangles with a member in it. -/
theorem Graph.Closed.isTriangle (hc : g.Closed p) (s : Finset V) :
    (g.induced p).IsTriangle s ↔ g.IsTriangle s ∧ ∃ n ∈ s, p n = true := by
  constructor
  · rintro ⟨a, b, c, h1, h2, h3, h4, h5, h6, rfl⟩
    rw [hc.adjacent] at h4 h5 h6
    exact ⟨⟨a, b, c, h1, h2, h3, h4.2, h5.2, h6.2, rfl⟩, a, by simp, h4.1⟩
  · rintro ⟨⟨a, b, c, h1, h2, h3, h4, h5, h6, rfl⟩, n, hn, hp⟩
    have e1 := hc.adjacent_eq h4
    have e2 := hc.adjacent_eq h5
    have ha : p a = true := by
      simp only [Finset.mem_insert, Finset.mem_singleton] at hn
      rcases hn with rfl | rfl | rfl
      · exact hp
      · rw [e1]; exact hp
      · rw [e1, e2]; exact hp
    exact ⟨a, b, c, h1, h2, h3, (hc.adjacent _ _).2 ⟨ha, h4⟩, (hc.adjacent _ _).2 ⟨e1 ▸ ha, h5⟩,
      (hc.adjacent _ _).2 ⟨ha, h6⟩, rfl⟩

theorem Graph.Closed.strength (hc : g.Closed p) (u v : V) :
    (g.induced p).strength u v = if p u then g.strength u v else 0 := by
  unfold Graph.strength
  split
  · rename_i hu
    congr 1
    ext s
    simp only [Set.mem_ofPred_eq, hc.isTriangle]
    exact ⟨fun ⟨⟨h1, _⟩, h2⟩ => ⟨h1, h2⟩, fun ⟨h1, h2⟩ => ⟨⟨h1, u, h2.2.1, hu⟩, h2⟩⟩
  · rename_i hu
    rw [show {s : Finset V | (g.induced p).IsTriangle s ∧ u ≠ v ∧ u ∈ s ∧ v ∈ s} = ∅ from ?_, Set.ncard_empty]
    rw [Set.eq_empty_iff_forall_notMem]
    rintro s ⟨⟨a, b, c, h1, h2, h3, h4, h5, h6, rfl⟩, _, h7, _⟩
    rw [hc.adjacent] at h4 h5 h6
    simp only [Finset.mem_insert, Finset.mem_singleton] at h7
    rcases h7 with rfl | rfl | rfl
    · exact hu h4.1
    · exact hu h5.1
    · exact hu (hc.adjacent_eq h6.2 ▸ h6.1)

/-! ### Linkage -/

theorem linked_filter {pairs : List (V × V)} (hp : ∀ e ∈ pairs, p e.1 = p e.2) {x y : V} (h : Linked pairs x y) :
    p x = p y ∧ (p x = true → Linked (pairs.filter (fun e => p e.1)) x y) := by
  unfold Linked at h
  induction h with
  | rel a b hab => exact ⟨hp _ hab, fun ha => Relation.EqvGen.rel _ _ (List.mem_filter.2 ⟨hab, ha⟩)⟩
  | refl a => exact ⟨rfl, fun _ => Relation.EqvGen.refl _⟩
  | symm a b _ ih => exact ⟨ih.1.symm, fun hb => Relation.EqvGen.symm _ _ (ih.2 (ih.1 ▸ hb))⟩
  | trans a b c _ _ ih ih' =>
    exact ⟨ih.1.trans ih'.1, fun ha => Relation.EqvGen.trans _ _ _ (ih.2 ha) (ih'.2 (ih.1 ▸ ha))⟩

theorem linked_of_filter {pairs : List (V × V)} {q : V × V → Bool} {x y : V} (h : Linked (pairs.filter q) x y) :
    Linked pairs x y :=
  Linked.mono (fun _ hab => List.mem_of_mem_filter hab) h

theorem componentOf_filter {nodes : List V} {pairs : List (V × V)} (hp : ∀ e ∈ pairs, p e.1 = p e.2) {n : V}
    (hn : p n = true) :
    componentOf (nodes.filter p) (pairs.filter (fun e => p e.1)) n = componentOf nodes pairs n := by
  ext x
  simp only [componentOf, Set.mem_ofPred_eq, List.mem_filter]
  constructor
  · rintro ⟨⟨h1, _⟩, h2⟩
    exact ⟨h1, linked_of_filter h2⟩
  · rintro ⟨h1, h2⟩
    have := linked_filter hp h2
    exact ⟨⟨h1, this.1 ▸ hn⟩, this.2 hn⟩

theorem firstNodes_filter {nodes : List V} {pairs : List (V × V)} (hp : ∀ e ∈ pairs, p e.1 = p e.2) :
    firstNodes (nodes.filter p) (pairs.filter (fun e => p e.1)) = (firstNodes nodes pairs).filter p := by
  classical
  unfold firstNodes
  rw [List.filter_filter, List.filter_filter]
  apply List.filter_congr
  intro n hn
  rw [Bool.eq_iff_iff, Bool.and_eq_true, Bool.and_eq_true, and_comm]
  refine and_congr_right (fun hpn => ?_)
  simp only [decide_eq_true_eq]
  constructor
  · intro h m hm hlt hl
    have hl' := linked_filter hp hl
    have hpm : p m = true := hl'.1 ▸ hpn
    refine h m (List.mem_filter.2 ⟨hm, hpm⟩) ?_ (hl'.2 hpm)
    have := (idxOf_filter_le (ns := nodes) p hpn hpm (.inl hn)).not
    rw [not_le, not_le] at this
    exact this.2 hlt
  · intro h m hm hlt hl
    obtain ⟨hm, hpm⟩ := List.mem_filter.1 hm
    refine h m hm ?_ (linked_of_filter hl)
    have := (idxOf_filter_le (ns := nodes) p hpn hpm (.inl hn)).not
    rw [not_le, not_le] at this
    exact this.1 hlt

theorem componentOrders_filter {nodes : List V} {pairs : List (V × V)} (hp : ∀ e ∈ pairs, p e.1 = p e.2) :
    componentOrders (nodes.filter p) (pairs.filter (fun e => p e.1)) =
      ((firstNodes nodes pairs).filter p).map (fun n => (componentOf nodes pairs n).ncard) := by
  unfold componentOrders
  rw [firstNodes_filter hp]
  apply List.map_congr_left
  intro n hn
  rw [componentOf_filter hp (List.mem_filter.1 hn).2]

end

/-! ### Forests -/

section
variable {ι κ V : Type} {p : V → Bool}

theorem linkedBy_restrict {ends : ι → V × V} (hp : ∀ i, p (ends i).1 = p (ends i).2) {ends' : κ → V × V} {σ : κ → ι}
    (hσ : ∀ k, ends' k = ends (σ k)) (hs : ∀ i, p (ends i).1 = true → ∃ k, σ k = i) {F : Set ι} {F' : Set κ}
    (hF : ∀ k, k ∈ F' ↔ σ k ∈ F) {x y : V} (hx : p x = true) : LinkedBy ends' F' x y ↔ LinkedBy ends F x y := by
  constructor
  · intro h
    refine Relation.EqvGen.mono (r := fun a b => ∃ k ∈ F', ends' k = (a, b)) ?_ _ _ h
    rintro a b ⟨k, hk, hab⟩
    exact ⟨σ k, (hF k).1 hk, by rw [← hσ, hab]⟩
  · intro h
    have : p x = p y ∧ (p x = true → LinkedBy ends' F' x y) := by
      clear hx
      unfold LinkedBy at h
      induction h with
      | rel a b hab =>
        obtain ⟨i, hi, hab⟩ := hab
        have hpi := hp i
        rw [hab] at hpi
        refine ⟨hpi, fun ha => ?_⟩
        obtain ⟨k, rfl⟩ := hs i (by rw [hab]; exact ha)
        exact Relation.EqvGen.rel _ _ ⟨k, (hF k).2 hi, by rw [hσ, hab]⟩
      | refl a => exact ⟨rfl, fun _ => Relation.EqvGen.refl _⟩
      | symm a b _ ih => exact ⟨ih.1.symm, fun hb => Relation.EqvGen.symm _ _ (ih.2 (ih.1 ▸ hb))⟩
      | trans a b c _ _ ih ih' =>
        exact ⟨ih.1.trans ih'.1, fun ha => Relation.EqvGen.trans _ _ _ (ih.2 ha) (ih'.2 (ih.1 ▸ ha))⟩
    exact this.2 hx

/-- The positions of the elements a filter keeps. -/
theorem filter_positions {α : Type} (l : List α) (q : α → Bool) :
    ∃ σ : Fin (l.filter q).length → Fin l.length,
      (List.finRange l.length).filter (fun j => q l[j]) = (List.finRange (l.filter q).length).map σ ∧
      ∀ i, l[σ i] = (l.filter q)[i] := by
  have hl : (List.finRange l.length).map (fun j => l[j]) = l := by
    apply List.ext_getElem <;> simp
  have hM : ((List.finRange l.length).filter (fun j => q l[j])).map (fun j => l[j]) = l.filter q := by
    conv_rhs => rw [← hl, List.filter_map]
    rfl
  have hlen : ((List.finRange l.length).filter (fun j => q l[j])).length = (l.filter q).length := by
    conv_rhs => rw [← hM, List.length_map]
  refine ⟨fun i => ((List.finRange l.length).filter (fun j => q l[j]))[i.val]'(by rw [hlen]; exact i.2), ?_, ?_⟩
  · apply List.ext_getElem
    · rw [List.length_map, List.length_finRange, hlen]
    · intro i h1 h2
      simp
  · intro i
    have := List.getElem_of_eq hM.symm i.2
    rw [List.getElem_map] at this
    exact this.symm

end
end Pelote
