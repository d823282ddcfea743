import Verif.Lemmas.Triangles

/-! The undirected view of a graph lists adjacency. -/
namespace Pelote
variable {V A : Type} [DecidableEq V]
namespace Graph

theorem sum_two_le {α : Type} (f : α → Nat) {L : List α} {l m : α} (hl : l ∈ L) (hm : m ∈ L) (hne : l ≠ m) :
    f l + f m ≤ (L.map f).sum := by
  have key : ∀ {L : List α} {x : α}, x ∈ L → f x ≤ (L.map f).sum := by
    intro L x hx
    obtain ⟨s, t, rfl⟩ := List.append_of_mem hx
    simp only [List.map_append, List.map_cons, List.sum_append, List.sum_cons]
    omega
  obtain ⟨s, t, rfl⟩ := List.append_of_mem hl
  simp only [List.map_append, List.map_cons, List.sum_append, List.sum_cons]
  simp only [List.mem_append, List.mem_cons] at hm
  rcases hm with h | h | h
  · have := key h; omega
  · exact absurd h.symm hne
  · have := key h; omega

theorem predecessors_nodup {g : Graph V A} (h : g.WF) (n : V) : (g.predecessors n).Nodup := by
  by_cases hd : g.directed = true
  · unfold predecessors pred
    rw [List.Nodup, List.pairwise_map, List.pairwise_filterMap]
    refine h.uniq.imp ?_
    intro l m hs p hp q hq e
    unfold Link.to? at hp hq
    simp only [hd, if_true] at hp hq
    split at hp
    · split at hq
      · rename_i h1 h2
        simp only [Option.some.injEq] at hp hq
        subst hp hq
        simp only at e
        rw [← h2] at h1
        rw [e, h1, samePair_refl] at hs
        simp at hs
      · simp at hq
    · simp at hp
  · simp only [Bool.not_eq_true] at hd
    have : g.predecessors n = g.neighbors n := by
      unfold predecessors neighbors pred adj
      rw [hd]
      congr 1
    rw [this]
    exact neighbors_nodup h n

theorem adjacent_comm {g : Graph V A} {u v : V} : g.Adjacent u v ↔ g.Adjacent v u := Or.comm

theorem mem_undirectedView {g : Graph V A} {n m : V} :
    m ∈ g.undirectedView.neighbors n ↔ g.Adjacent n m := by
  unfold undirectedView Adjacent
  by_cases hd : g.directed = true
  · simp only [hd, if_true, List.mem_append, List.mem_filter, mem_neighbors, mem_predecessors,
      Bool.not_eq_true', decide_eq_false_iff_not]
    constructor
    · rintro (h | h)
      · exact .inl h
      · exact .inr h.1
    · rintro (h | h)
      · exact .inl h
      · by_cases h' : g.hasEdge n m = true
        · exact .inl h'
        · exact .inr ⟨h, h'⟩
  · simp only [Bool.not_eq_true] at hd
    simp only [hd, Bool.false_eq_true, if_false, mem_neighbors, hasEdge_comm hd m n, or_self]

theorem adjacent_link {g : Graph V A} {u v : V} (h : g.Adjacent u v) :
    ∃ l ∈ g.links, (l.u = u ∧ l.v = v) ∨ (l.u = v ∧ l.v = u) := by
  rcases h with h | h
  · obtain ⟨l, hl, hs⟩ := hasEdge_iff.1 h
    refine ⟨l, hl, ?_⟩
    rcases samePair_iff.1 hs with ⟨h1, h2⟩ | ⟨_, h1, h2⟩
    · exact .inl ⟨h1.symm, h2.symm⟩
    · exact .inr ⟨h2.symm, h1.symm⟩
  · obtain ⟨l, hl, hs⟩ := hasEdge_iff.1 h
    refine ⟨l, hl, ?_⟩
    rcases samePair_iff.1 hs with ⟨h1, h2⟩ | ⟨_, h1, h2⟩
    · exact .inr ⟨h1.symm, h2.symm⟩
    · exact .inl ⟨h2.symm, h1.symm⟩

theorem two_le_degree {g : Graph V A} (h : g.WF) {n a b : V} (ha : g.Adjacent n a) (hb : g.Adjacent n b)
    (hne : a ≠ b) : 2 ≤ g.degree n := by
  obtain ⟨l, hl, el⟩ := adjacent_link ha
  obtain ⟨m, hm, em⟩ := adjacent_link hb
  rw [degree_eq_links]
  have hlm : l ≠ m := by
    rintro rfl
    rcases el with ⟨h1, h2⟩ | ⟨h1, h2⟩ <;> rcases em with ⟨h3, h4⟩ | ⟨h3, h4⟩
    · exact hne (h2.symm.trans h4)
    · exact hne (h2.symm.trans (h4.trans (h1.symm.trans h3)))
    · exact hne (h1.symm.trans (h3.trans (h2.symm.trans h4)))
    · exact hne (h1.symm.trans h3)
  have key := sum_two_le (fun l => l.data.length * ends n l) hl hm hlm
  have one : ∀ (x : Link V A), x ∈ g.links → ends n x ≠ 0 → 1 ≤ x.data.length * ends n x := by
    intro x hx he
    have := List.length_pos_iff.2 (h.nonempty x hx)
    exact Nat.mul_pos this (Nat.pos_of_ne_zero he)
  have h1 := one l hl (by unfold ends; rcases el with ⟨h1, _⟩ | ⟨_, h1⟩ <;> simp [h1])
  have h2 := one m hm (by unfold ends; rcases em with ⟨h1, _⟩ | ⟨_, h1⟩ <;> simp [h1])
  omega

theorem undirectedView_spec {g : Graph V A} (h : g.WF) : ViewOf g.undirectedView g.Adjacent where
  nodup := h.nodup
  nbrs n := by
    unfold undirectedView
    simp only
    split
    · rw [List.nodup_append]
      refine ⟨neighbors_nodup h n, (predecessors_nodup h n).filter _, ?_⟩
      intro a ha b hb e
      subst e
      simp [ha] at hb
    · exact neighbors_nodup h n
  mem n m := mem_undirectedView
  symm n m := adjacent_comm.1
  node n m ha := by
    rcases ha with ha | ha
    · exact (hasEdge_mem h ha).1
    · exact (hasEdge_mem h ha).2
  degree n a b ha hb hne := two_le_degree h ha hb hne

end Graph
end Pelote
