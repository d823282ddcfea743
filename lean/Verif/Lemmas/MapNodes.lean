import Verif.Spec.MapNodes
import Verif.Lemmas.Rebuild

/-! Renaming nodes, and the graph obtained by adding all the edges of another. -/
set_option linter.unusedSectionVars false
namespace Pelote
namespace Graph
variable {V W A : Type} [DecidableEq V] [DecidableEq W]

/-- `f` does not identify nodes. -/
def InjOn (f : V → W) (g : Graph V A) : Prop := ∀ a ∈ g.nodes, ∀ b ∈ g.nodes, f a = f b → a = b

theorem mapNodes_nodes (f : V → W) (g : Graph V A) : (g.mapNodes f).nodes = g.nodes.map f := by
  simp [mapNodes, nodes, Dict.keys]

theorem samePair_map {f : V → W} {g : Graph V A} (hf : InjOn f g) (d : Bool) {u v x y : V} (hu : u ∈ g.nodes)
    (hv : v ∈ g.nodes) (hx : x ∈ g.nodes) (hy : y ∈ g.nodes) :
    samePair d (f u) (f v) (f x) (f y) = samePair d u v x y := by
  have e : ∀ a ∈ g.nodes, ∀ b ∈ g.nodes, (f a = f b ↔ a = b) :=
    fun a ha b hb => ⟨hf a ha b hb, fun h => by rw [h]⟩
  unfold samePair
  simp only [e u hu x hx, e v hv y hy, e u hu y hy, e v hv x hx]

theorem WF.mapNodes {f : V → W} {g : Graph V A} (h : g.WF) (hf : InjOn f g) : (g.mapNodes f).WF where
  attrs := h.attrs
  nodup := by
    rw [mapNodes_nodes]
    exact h.nodup.map_on (fun a ha b hb => hf a ha b hb)
  nodeAttrs := by
    intro p hp
    obtain ⟨q, hq, rfl⟩ := List.mem_map.1 hp
    exact h.nodeAttrs q hq
  ends := by
    intro l hl
    obtain ⟨m, hm, rfl⟩ := List.mem_map.1 hl
    rw [mapNodes_nodes]
    exact ⟨List.mem_map_of_mem (h.ends m hm).1, List.mem_map_of_mem (h.ends m hm).2⟩
  uniq := by
    unfold Graph.mapNodes
    simp only
    rw [List.pairwise_map]
    refine h.uniq.imp_of_mem ?_
    intro l m hl hm hs
    simp only
    rw [samePair_map hf _ (h.ends l hl).1 (h.ends l hl).2 (h.ends m hm).1 (h.ends m hm).2]
    exact hs
  nonempty := by
    intro l hl
    obtain ⟨m, hm, rfl⟩ := List.mem_map.1 hl
    exact h.nonempty m hm
  keys := by
    intro l hl
    obtain ⟨m, hm, rfl⟩ := List.mem_map.1 hl
    exact h.keys m hm
  edgeAttrs := by
    intro l hl
    obtain ⟨m, hm, rfl⟩ := List.mem_map.1 hl
    exact h.edgeAttrs m hm
  simple := by
    intro hs l hl
    obtain ⟨m, hm, rfl⟩ := List.mem_map.1 hl
    exact h.simple hs m hm

theorem adj_mapNodes {f : V → W} {g : Graph V A} (h : g.WF) (hf : InjOn f g) {n : V} (hn : n ∈ g.nodes) :
    (g.mapNodes f).adj (f n) = (g.adj n).map (fun p => (f p.1, p.2)) := by
  unfold adj
  rw [List.map_filterMap]
  simp only [Graph.mapNodes]
  rw [List.filterMap_map]
  apply List.filterMap_congr
  intro l hl
  have e : ∀ a ∈ g.nodes, (f a = f n ↔ a = n) := fun a ha => ⟨hf a ha n hn, fun h => by rw [h]⟩
  simp only [Function.comp, Link.from?, e l.u (h.ends l hl).1, e l.v (h.ends l hl).2]
  by_cases h1 : l.u = n
  · simp [h1]
  · by_cases h2 : l.v = n
    · simp only [h1, h2, if_false, decide_true, Bool.and_true]
      split <;> rfl
    · simp [h1, h2]

theorem edgesFrom_mapNodes {f : V → W} {g : Graph V A} (h : g.WF) (hf : InjOn f g) (seen ns : List V)
    (hseen : ∀ x ∈ seen, x ∈ g.nodes) (hns : ∀ x ∈ ns, x ∈ g.nodes) :
    (g.mapNodes f).edgesFrom (seen.map f) (ns.map f) =
      (g.edgesFrom seen ns).map (fun e => (f e.1, f e.2.1, e.2.2)) := by
  induction ns generalizing seen with
  | nil => rfl
  | cons n ns ih =>
    have hn := hns n List.mem_cons_self
    simp only [List.map_cons, edgesFrom, List.map_append]
    congr 1
    · rw [adj_mapNodes h hf hn, List.filter_map, List.flatMap_map, List.map_flatMap]
      have : (g.adj n).filter ((fun p => (g.mapNodes f).directed || !decide (p.1 ∈ seen.map f)) ∘ fun p => (f p.1, p.2)) =
          (g.adj n).filter (fun p => g.directed || !decide (p.1 ∈ seen)) := by
        apply List.filter_congr
        intro p hp
        have hp1 : p.1 ∈ g.nodes :=
          (hasEdge_mem h (mem_neighbors.1 (List.mem_map.2 ⟨p, hp, rfl⟩))).2
        have : (f p.1 ∈ seen.map f) ↔ p.1 ∈ seen := by
          rw [List.mem_map]
          constructor
          · rintro ⟨x, hx, he⟩
            rw [← hf x (hseen x hx) p.1 hp1 he]; exact hx
          · intro hx; exact ⟨_, hx, rfl⟩
        simp only [Function.comp, this, Graph.mapNodes]
      rw [this]
      apply List.flatMap_congr
      intro p _
      rw [List.map_map]
      rfl
    · have := ih (n :: seen) (by
        intro x hx
        rcases List.mem_cons.1 hx with rfl | hx
        · exact hn
        · exact hseen x hx) (fun x hx => hns x (List.mem_cons_of_mem _ hx))
      rw [List.map_cons] at this
      exact this

theorem edgesKeys_mapNodes {f : V → W} {g : Graph V A} (h : g.WF) (hf : InjOn f g) :
    (g.mapNodes f).edgesKeys = g.edgesKeys.map (fun e => (f e.1, f e.2.1, e.2.2)) := by
  unfold edgesKeys
  rw [mapNodes_nodes]
  exact edgesFrom_mapNodes h hf [] g.nodes (by simp) (fun _ hx => hx)

theorem edgesData_mapNodes {f : V → W} {g : Graph V A} (h : g.WF) (hf : InjOn f g) :
    (g.mapNodes f).edgesData = g.edgesData.map (fun e => (f e.1, f e.2.1, e.2.2)) := by
  unfold edgesData
  rw [edgesKeys_mapNodes h hf, List.map_map, List.map_map]
  rfl

theorem mapNodes_id {f : V → V} {g : Graph V A} (h : g.WF) (hf : ∀ n ∈ g.nodes, f n = n) : g.mapNodes f = g := by
  unfold Graph.mapNodes
  have h1 : g.node.map (fun p => (f p.1, p.2)) = g.node := by
    conv => rhs; rw [← List.map_id g.node]
    apply List.map_congr_left
    intro p hp
    rw [hf p.1 (Dict.mem_keys_of_mem hp)]; rfl
  have h2 : g.links.map (fun l => (⟨f l.u, f l.v, l.data⟩ : Link V A)) = g.links := by
    conv => rhs; rw [← List.map_id g.links]
    apply List.map_congr_left
    intro l hl
    rw [hf l.u (h.ends l hl).1, hf l.v (h.ends l hl).2]; rfl
  rw [h1, h2]

theorem keydict?_mapNodes {f : V → W} {g : Graph V A} (h : g.WF) (hf : InjOn f g) {u v : V} (hu : u ∈ g.nodes)
    (hv : v ∈ g.nodes) : (g.mapNodes f).keydict? (f u) (f v) = g.keydict? u v := by
  ext d
  rw [keydict?_eq_some (h.mapNodes hf), keydict?_eq_some h]
  constructor
  · rintro ⟨l, hl, hs, rfl⟩
    obtain ⟨m, hm, rfl⟩ := List.mem_map.1 hl
    refine ⟨m, hm, ?_, rfl⟩
    rw [← samePair_map hf _ hu hv (h.ends m hm).1 (h.ends m hm).2]; exact hs
  · rintro ⟨m, hm, hs, rfl⟩
    refine ⟨_, List.mem_map_of_mem hm, ?_, rfl⟩
    simp only [Graph.mapNodes]
    rw [samePair_map hf _ hu hv (h.ends m hm).1 (h.ends m hm).2]; exact hs

theorem keepLinks_true {g : Graph V A} (h : g.WF) : keepLinks (fun _ _ _ => true) g.groups = g.groups := by
  unfold keepLinks
  conv => rhs; rw [← List.filterMap_some (l := g.groups)]
  apply List.filterMap_congr
  intro l hl
  have := (groups_addable h).nonempty l hl
  simp [this]

/-- Adding all the edges listed by a graph to a copy without edges: the same listing, the keys of parallel edges
being renumbered. -/
theorem rebuild_all {g : Graph V A} (h : g.WF) :
    let g' := addAll g.createEmptyCopy g.edgesData
    g'.WF ∧ g'.directed = g.directed ∧ g'.multi = g.multi ∧ g'.attrs = g.attrs ∧ g'.node = g.node ∧
      g'.edgesData = g.edgesData ∧
      ∀ u v, g'.keydict? u v = (g.keydict? u v).map (fun d => enumKeys 0 (d.map Prod.snd)) := by
  obtain ⟨h1, h2, h3⟩ := rebuild h (fun _ _ _ => true)
  have hall : g.edgesData.filter (fun _ => true) = g.edgesData := by simp
  rw [hall] at h1 h2 h3
  rw [keepLinks_true h] at h1
  refine ⟨h2, by rw [h1], by rw [h1], by rw [h1], by rw [h1], h3, ?_⟩
  intro u v
  ext d
  rw [keydict?_eq_some h2, h1, Option.map_eq_some_iff]
  simp only
  constructor
  · rintro ⟨l, hl, hs, rfl⟩
    obtain ⟨m, hm, rfl⟩ := List.mem_map.1 hl
    obtain ⟨m', hm', rfl⟩ := (mem_groups h).1 hm
    refine ⟨m'.data, ?_, by simp [renum, orient_data]⟩
    rw [keydict?_eq_some h]
    refine ⟨m', hm', ?_, rfl⟩
    have := g.orient_samePair m'
    rw [samePair_comm, ← samePair_trans this, samePair_comm]
    exact hs
  · rintro ⟨d', hd', rfl⟩
    obtain ⟨m', hm', hs, rfl⟩ := (keydict?_eq_some h).1 hd'
    refine ⟨renum (g.orient m'), List.mem_map_of_mem ((mem_groups h).2 ⟨m', hm', rfl⟩), ?_, by simp [renum, orient_data]⟩
    have := g.orient_samePair m'
    change samePair g.directed u v (g.orient m').u (g.orient m').v = true
    rw [samePair_comm, samePair_trans this, samePair_comm]
    exact hs

theorem enumKeys_simple {g : Graph V A} (h : g.WF) (hs : g.multi = false) (u v : V) :
    (g.keydict? u v).map (fun d => enumKeys 0 (d.map Prod.snd)) = g.keydict? u v := by
  rcases hk : g.keydict? u v with _ | d
  · rfl
  · obtain ⟨l, hl, _, rfl⟩ := (keydict?_eq_some h).1 hk
    have := h.simple hs l hl
    rcases hd : l.data with _ | ⟨⟨k, a⟩, _ | ⟨q, r⟩⟩
    · rw [hd] at this; simp at this
    · rw [hd] at this
      simp only [Dict.keys_cons, Dict.keys_nil, List.cons.injEq, and_true] at this
      subst this
      rfl
    · rw [hd] at this; simp at this

end Graph
end Pelote
