import Verif.Lemmas.GraphOps
import Mathlib.Data.List.Induction

/-! Re-adding listed edges to an empty copy gives back the listing. -/
set_option linter.unusedSectionVars false
namespace Pelote
variable {V A : Type} [DecidableEq V]
namespace Graph

/-- The edges of a list of links, without keys. -/
def linkEdges (G : List (Link V A)) : List (V × V × Attrs A) :=
  G.flatMap (fun l => l.data.map (fun ka => (l.u, l.v, ka.2)))

/-- Successive `add_edge(u, v, **a)`, keyword arguments aside. -/
def addAll (g : Graph V A) (es : List (V × V × Attrs A)) : Graph V A :=
  es.foldl (fun g e => g.addEdgeCore e.1 e.2.1 none e.2.2) g

/-- Keys `i, i+1, …`. -/
def enumKeys : Nat → List (Attrs A) → Dict PyKey (Attrs A)
  | _, [] => []
  | i, a :: as => (.int i, a) :: enumKeys (i + 1) as

/-- The link with keys `0, 1, …`. -/
def renum (l : Link V A) : Link V A := { l with data := enumKeys 0 (l.data.map Prod.snd) }

theorem enumKeys_append (i : Nat) (as bs : List (Attrs A)) :
    enumKeys i (as ++ bs) = enumKeys i as ++ enumKeys (i + as.length) bs := by
  induction as generalizing i with
  | nil => simp [enumKeys]
  | cons a as ih => simp [enumKeys, ih, Nat.add_assoc, Nat.add_comm 1]

theorem enumKeys_snd (i : Nat) (as : List (Attrs A)) : (enumKeys i as).map Prod.snd = as := by
  induction as generalizing i with
  | nil => rfl
  | cons a as ih => simp [enumKeys, ih]

theorem mem_enumKeys_keys {i : Nat} {as : List (Attrs A)} {k : PyKey} (h : k ∈ (enumKeys i as).keys) :
    ∃ j, i ≤ j ∧ j < i + as.length ∧ k = .int j := by
  induction as generalizing i with
  | nil => simp [enumKeys] at h
  | cons a as ih =>
    simp only [enumKeys, Dict.keys_cons, List.mem_cons] at h
    rcases h with rfl | h
    · exact ⟨i, Nat.le_refl _, by simp, rfl⟩
    · obtain ⟨j, h1, h2, h3⟩ := ih h
      exact ⟨j, by omega, by simp; omega, h3⟩

theorem nodup_enumKeys (i : Nat) (as : List (Attrs A)) : (enumKeys i as).keys.Nodup := by
  induction as generalizing i with
  | nil => exact .nil
  | cons a as ih =>
    simp only [enumKeys, Dict.keys_cons, List.nodup_cons]
    refine ⟨?_, ih _⟩
    intro h
    obtain ⟨j, h1, _, h3⟩ := mem_enumKeys_keys h
    cases h3
    omega

theorem length_enumKeys (i : Nat) (as : List (Attrs A)) : (enumKeys i as).length = as.length := by
  induction as generalizing i with
  | nil => rfl
  | cons a as ih => simp [enumKeys, ih]

theorem newEdgeKey_enumKeys (as : List (Attrs A)) :
    newEdgeKey (enumKeys 0 as) = .int as.length := by
  unfold newEdgeKey
  rw [length_enumKeys]
  unfold freeKey
  rw [if_neg]
  intro h
  obtain ⟨j, _, h2, h3⟩ := mem_enumKeys_keys h
  cases h3
  omega

theorem addToData_enumKeys {m : Bool} (as : List (Attrs A)) (a : Attrs A) (ha : a.keys.Nodup)
    (hm : m = false → as = []) :
    addToData m (enumKeys 0 as) none a = enumKeys 0 (as ++ [a]) := by
  unfold addToData
  have hk : (if m then (none : Option PyKey).getD (newEdgeKey (enumKeys 0 as)) else .int 0) =
      .int as.length := by
    cases m with
    | true => exact newEdgeKey_enumKeys as
    | false => simp [hm rfl]
  simp only [hk]
  have hn : (PyKey.int as.length) ∉ (enumKeys 0 as).keys := by
    intro h
    obtain ⟨j, _, h2, h3⟩ := mem_enumKeys_keys h
    cases h3
    omega
  rw [Dict.get?_eq_none_iff.2 hn, Option.getD_none, Dict.update_nil_left ha,
    Dict.set_of_not_mem _ hn, enumKeys_append]
  simp [enumKeys]

theorem addEdgeCore_present {g : Graph V A} {u v : V} (hu : u ∈ g.nodes) (hv : v ∈ g.nodes)
    (k : Option PyKey) (a : Attrs A) :
    g.addEdgeCore u v k a = { g with links := addLink g.directed g.multi u v k a g.links } := by
  unfold addEdgeCore
  rw [ensureNode_of_mem hu, ensureNode_of_mem hv]

/-- Adding the edges of one pair. -/
theorem addAll_pair {g : Graph V A} {u v : V} (hu : u ∈ g.nodes) (hv : v ∈ g.nodes)
    (hfresh : ∀ l ∈ g.links, samePair g.directed u v l.u l.v = false) (as : List (Attrs A))
    (hne : as ≠ []) (has : ∀ a ∈ as, a.keys.Nodup) (hs : g.multi = false → as.length = 1) :
    addAll g (as.map (fun a => (u, v, a))) =
      { g with links := g.links ++ [⟨u, v, enumKeys 0 as⟩] } := by
  induction as using List.reverseRecOn with
  | nil => exact absurd rfl hne
  | append_singleton as a ih =>
    rw [List.map_append, addAll, List.foldl_append]
    have hlast : a.keys.Nodup := has a (by simp)
    by_cases hnil : as = []
    · subst hnil
      simp only [List.map_nil, List.foldl_nil, List.map_cons, List.foldl_cons]
      rw [addEdgeCore_present hu hv, addLink_fresh hfresh]
      have := addToData_enumKeys (m := g.multi) ([] : List (Attrs A)) a hlast (fun _ => rfl)
      simp only [enumKeys] at this
      rw [this]
    · have hm : g.multi ≠ false := by
        intro h
        have := hs h
        simp only [List.length_append, List.length_cons, List.length_nil] at this
        have : as.length = 0 := by omega
        exact hnil (List.length_eq_zero_iff.1 this)
      have ih' := ih hnil (fun a ha => has a (by simp [ha])) (fun h => absurd h hm)
      rw [addAll] at ih'
      rw [ih']
      simp only [List.map_cons, List.map_nil, List.foldl_cons, List.foldl_nil]
      rw [addEdgeCore_present (g := { g with links := g.links ++ [⟨u, v, enumKeys 0 as⟩] }) hu hv]
      simp only
      rw [addLink_append hfresh]
      simp only [addLink, samePair_refl, if_true]
      rw [addToData_enumKeys as a hlast (fun h => absurd h hm)]

/-- What is needed of a list of links to be re-added. -/
structure Addable (directed multi : Bool) (ns : List V) (G : List (Link V A)) : Prop where
  ends : ∀ l ∈ G, l.u ∈ ns ∧ l.v ∈ ns
  uniq : G.Pairwise (fun l m => samePair directed l.u l.v m.u m.v = false)
  nonempty : ∀ l ∈ G, l.data ≠ []
  attrs : ∀ l ∈ G, ∀ p ∈ l.data, p.2.keys.Nodup
  simple : multi = false → ∀ l ∈ G, l.data.length = 1

theorem addAll_links {g : Graph V A} {G : List (Link V A)} (h : Addable g.directed g.multi g.nodes G)
    (hfresh : ∀ m ∈ G, ∀ l ∈ g.links, samePair g.directed m.u m.v l.u l.v = false) :
    addAll g (linkEdges G) = { g with links := g.links ++ G.map renum } := by
  induction G generalizing g with
  | nil => simp [linkEdges, addAll]
  | cons l G ih =>
    have hu := h.uniq
    rw [List.pairwise_cons] at hu
    have hends := h.ends l (by simp)
    unfold linkEdges
    rw [List.flatMap_cons, addAll, List.foldl_append]
    have h1 := addAll_pair hends.1 hends.2 (hfresh l (by simp)) (l.data.map Prod.snd)
      (by simpa using h.nonempty l (by simp))
      (by
        intro a ha
        obtain ⟨p, hp, rfl⟩ := List.mem_map.1 ha
        exact h.attrs l (by simp) p hp)
      (by
        intro hs
        rw [List.length_map]
        exact h.simple hs l (by simp))
    rw [List.map_map] at h1
    have e : l.data.map (fun ka => (l.u, l.v, ka.2)) =
        l.data.map ((fun a => (l.u, l.v, a)) ∘ Prod.snd) := rfl
    rw [e]
    rw [addAll] at h1
    rw [h1]
    have h2 := ih (g := { g with links := g.links ++ [renum l] })
      ⟨fun m hm => h.ends m (by simp [hm]), hu.2, fun m hm => h.nonempty m (by simp [hm]),
        fun m hm => h.attrs m (by simp [hm]), fun hs m hm => h.simple hs m (by simp [hm])⟩
      (by
        intro m hm l' hl'
        rcases List.mem_append.1 hl' with hl' | hl'
        · exact hfresh m (by simp [hm]) l' hl'
        · simp only [List.mem_singleton] at hl'
          subst hl'
          rw [samePair_comm]
          exact hu.1 m hm)
    have e2 : (⟨l.u, l.v, enumKeys 0 (l.data.map Prod.snd)⟩ : Link V A) = renum l := rfl
    rw [e2]
    have h3 : (linkEdges G) = List.flatMap (fun l => List.map (fun ka => (l.u, l.v, ka.2)) l.data) G := rfl
    rw [← h3]
    rw [addAll] at h2
    rw [h2]
    simp

/-- The listing of a graph whose links are in listing order. -/
theorem edgesKeys_of_sorted {g : Graph V A} (hn : g.nodes.Nodup)
    (hu : ∀ l ∈ g.links, l.u ∈ g.nodes)
    (ho : ∀ l ∈ g.links, g.directed = true ∨ g.nodes.idxOf l.u ≤ g.nodes.idxOf l.v)
    (hs : g.links.Pairwise (fun l m => g.nodes.idxOf l.u ≤ g.nodes.idxOf m.u)) :
    g.edgesKeys = g.links.flatMap expand := by
  rw [edgesKeys_eq g hn]
  have hor : g.links.map g.orient = g.links := by
    conv_rhs => rw [← List.map_id g.links]
    apply List.map_congr_left
    intro l hl
    rcases ho l hl with h | h <;> simp [orient, h]
  unfold groups
  rw [hor, bucketSort_eq_self hn hu hs]

/-- The listing order. -/
theorem groups_sorted {g : Graph V A} (h : g.WF) :
    g.groups.Pairwise (fun l m => g.nodes.idxOf l.u ≤ g.nodes.idxOf m.u) :=
  bucketSort_sorted h.nodup _ _

theorem groups_uniq {g : Graph V A} (h : g.WF) :
    g.groups.Pairwise (fun l m => samePair g.directed l.u l.v m.u m.v = false) := by
  have hmap : (g.links.map g.orient).Pairwise (fun l m => samePair g.directed l.u l.v m.u m.v = false) := by
    rw [List.pairwise_map]
    refine h.uniq.imp ?_
    intro l m hs
    rw [samePair_trans (g.orient_samePair l), samePair_comm, samePair_trans (g.orient_samePair m),
      samePair_comm]
    exact hs
  exact (groups_perm g h).symm.pairwise hmap (fun {l m} hs => by rw [samePair_comm]; exact hs)

/-- The links of the listing that keep some edge. -/
def keepLinks (p : V → V → Attrs A → Bool) (G : List (Link V A)) : List (Link V A) :=
  G.filterMap (fun l =>
    if (l.data.filter (fun ka => p l.u l.v ka.2)) = [] then none
    else some { l with data := l.data.filter (fun ka => p l.u l.v ka.2) })

instance {α : Type} (l : List α) : Decidable (l = []) :=
  match l with
  | [] => isTrue rfl
  | _ :: _ => isFalse (by simp)

theorem linkEdges_keepLinks (p : V → V → Attrs A → Bool) (G : List (Link V A)) :
    linkEdges (keepLinks p G) = (linkEdges G).filter (fun e => p e.1 e.2.1 e.2.2) := by
  induction G with
  | nil => rfl
  | cons l G ih =>
    have e1 : linkEdges (l :: G) = l.data.map (fun ka => (l.u, l.v, ka.2)) ++ linkEdges G := rfl
    rw [e1, List.filter_append, ← ih, List.filter_map]
    unfold keepLinks
    rw [List.filterMap_cons]
    by_cases hnil : l.data.filter (fun ka => p l.u l.v ka.2) = []
    · rw [if_pos hnil]
      have : l.data.filter ((fun e => p e.1 e.2.1 e.2.2) ∘ (fun ka => (l.u, l.v, ka.2))) = [] := hnil
      rw [this]
      rfl
    · rw [if_neg hnil]
      rfl

theorem mem_keepLinks {p : V → V → Attrs A → Bool} {G : List (Link V A)} {l : Link V A}
    (h : l ∈ keepLinks p G) : ∃ m ∈ G, m.u = l.u ∧ m.v = l.v ∧
      l.data = m.data.filter (fun ka => p m.u m.v ka.2) ∧ l.data ≠ [] := by
  unfold keepLinks at h
  obtain ⟨m, hm, he⟩ := List.mem_filterMap.1 h
  split at he
  · simp at he
  · rename_i hne
    simp only [Option.some.injEq] at he
    subst he
    exact ⟨m, hm, rfl, rfl, rfl, hne⟩

theorem keepLinks_pairwise {p : V → V → Attrs A → Bool} {G : List (Link V A)} {R : V × V → V × V → Prop}
    (h : G.Pairwise (fun l m => R (l.u, l.v) (m.u, m.v))) :
    (keepLinks p G).Pairwise (fun l m => R (l.u, l.v) (m.u, m.v)) := by
  unfold keepLinks
  rw [List.pairwise_filterMap]
  refine h.imp ?_
  intro l m hR l' hl' m' hm'
  split at hl'
  · simp at hl'
  · split at hm'
    · simp at hm'
    · simp only [Option.some.injEq] at hl' hm'
      subst hl'; subst hm'
      exact hR

theorem groups_addable {g : Graph V A} (h : g.WF) : Addable g.directed g.multi g.nodes g.groups where
  ends := by
    intro l hl
    obtain ⟨m, hm, rfl⟩ := (mem_groups h).1 hl
    have := h.ends m hm
    rcases g.orient_cases m with e | ⟨_, e⟩ <;> rw [e]
    · exact this
    · exact ⟨this.2, this.1⟩
  uniq := groups_uniq h
  nonempty := by
    intro l hl
    obtain ⟨m, hm, rfl⟩ := (mem_groups h).1 hl
    rw [orient_data]; exact h.nonempty m hm
  attrs := by
    intro l hl
    obtain ⟨m, hm, rfl⟩ := (mem_groups h).1 hl
    rw [orient_data]; exact h.edgeAttrs m hm
  simple := by
    intro hs l hl
    obtain ⟨m, hm, rfl⟩ := (mem_groups h).1 hl
    rw [orient_data]
    have := congrArg List.length (h.simple hs m hm)
    simpa [Dict.keys] using this

theorem keepLinks_addable {g : Graph V A} (h : g.WF) (p : V → V → Attrs A → Bool) :
    Addable g.directed g.multi g.nodes (keepLinks p g.groups) where
  ends := by
    intro l hl
    obtain ⟨m, hm, h1, h2, _, _⟩ := mem_keepLinks hl
    rw [← h1, ← h2]; exact (groups_addable h).ends m hm
  uniq := keepLinks_pairwise (R := fun a b => samePair g.directed a.1 a.2 b.1 b.2 = false) (groups_uniq h)
  nonempty := fun l hl => by
    obtain ⟨m, hm, h1, h2, _, h3⟩ := mem_keepLinks hl
    exact h3
  attrs := by
    intro l hl q hq
    obtain ⟨m, hm, _, _, h3, _⟩ := mem_keepLinks hl
    rw [h3] at hq
    exact (groups_addable h).attrs m hm q (List.mem_of_mem_filter hq)
  simple := by
    intro hs l hl
    obtain ⟨m, hm, _, _, h3, h4⟩ := mem_keepLinks hl
    have h5 := (groups_addable h).simple hs m hm
    have h6 : l.data.length ≤ m.data.length := by rw [h3]; exact List.length_filter_le _ _
    have h7 : l.data.length ≠ 0 := fun e => h4 (List.length_eq_zero_iff.1 e)
    omega

theorem edgesData_eq {g : Graph V A} (h : g.WF) : g.edgesData = linkEdges g.groups := by
  unfold edgesData linkEdges
  rw [edgesKeys_eq g h.nodup, List.map_flatMap]
  apply List.flatMap_congr
  intro l _
  simp [expand]

/-- The graph with re-added links. -/
theorem WF.withLinks {g : Graph V A} (h : g.WF) {G : List (Link V A)}
    (hG : Addable g.directed g.multi g.nodes G) : ({ g with links := G.map renum } : Graph V A).WF where
  attrs := h.attrs
  nodup := h.nodup
  nodeAttrs := h.nodeAttrs
  ends := by
    intro l hl
    obtain ⟨m, hm, rfl⟩ := List.mem_map.1 hl
    exact hG.ends m hm
  uniq := by
    simp only
    rw [List.pairwise_map]
    exact hG.uniq
  nonempty := by
    intro l hl
    obtain ⟨m, hm, rfl⟩ := List.mem_map.1 hl
    intro e
    have := congrArg List.length e
    simp only [renum, length_enumKeys, List.length_map, List.length_nil] at this
    exact hG.nonempty m hm (List.length_eq_zero_iff.1 this)
  keys := by
    intro l hl
    obtain ⟨m, hm, rfl⟩ := List.mem_map.1 hl
    exact nodup_enumKeys _ _
  edgeAttrs := by
    intro l hl q hq
    obtain ⟨m, hm, rfl⟩ := List.mem_map.1 hl
    have : q.2 ∈ (enumKeys 0 (m.data.map Prod.snd)).map Prod.snd := List.mem_map.2 ⟨q, hq, rfl⟩
    rw [enumKeys_snd] at this
    obtain ⟨r, hr, e⟩ := List.mem_map.1 this
    rw [← e]
    exact hG.attrs m hm r hr
  simple := by
    intro hs l hl
    obtain ⟨m, hm, rfl⟩ := List.mem_map.1 hl
    have := hG.simple hs m hm
    obtain ⟨ka, hka⟩ := List.length_eq_one_iff.1 this
    simp [renum, hka, enumKeys]

/-- Re-adding a selection of the listed edges to an empty copy lists exactly the selection, in the same
order and orientation. -/
theorem rebuild {g : Graph V A} (h : g.WF) (p : V → V → Attrs A → Bool) :
    let g' := addAll g.createEmptyCopy (g.edgesData.filter (fun e => p e.1 e.2.1 e.2.2))
    g' = { g with links := (keepLinks p g.groups).map renum } ∧ g'.WF ∧
      g'.edgesData = g.edgesData.filter (fun e => p e.1 e.2.1 e.2.2) := by
  have hadd := keepLinks_addable h p
  have hg' : addAll g.createEmptyCopy (g.edgesData.filter (fun e => p e.1 e.2.1 e.2.2)) =
      { g with links := (keepLinks p g.groups).map renum } := by
    rw [edgesData_eq h, ← linkEdges_keepLinks]
    rw [addAll_links (g := g.createEmptyCopy) hadd (by simp [createEmptyCopy])]
    simp [createEmptyCopy]
  have hwf : ({ g with links := (keepLinks p g.groups).map renum } : Graph V A).WF := h.withLinks hadd
  refine ⟨hg', by rw [hg']; exact hwf, ?_⟩
  rw [hg']
  have hkeys : ({ g with links := (keepLinks p g.groups).map renum } : Graph V A).edgesKeys =
      ((keepLinks p g.groups).map renum).flatMap expand := by
    refine edgesKeys_of_sorted h.nodup (fun l hl => (hwf.ends l hl).1) ?_ ?_
    · intro l hl
      obtain ⟨m, hm, rfl⟩ := List.mem_map.1 hl
      obtain ⟨m', hm', h1, h2, _⟩ := mem_keepLinks hm
      obtain ⟨m'', hm'', rfl⟩ := (mem_groups h).1 hm'
      by_cases hd : g.directed = true
      · exact .inl hd
      · simp only [Bool.not_eq_true] at hd
        right
        have := g.orient_le m'' hd
        rw [h1, h2] at this
        exact this
    · rw [List.pairwise_map]
      exact keepLinks_pairwise (R := fun a b => g.nodes.idxOf a.1 ≤ g.nodes.idxOf b.1) (groups_sorted h)
  rw [edgesData_eq h, ← linkEdges_keepLinks]
  unfold edgesData
  rw [hkeys, List.map_flatMap, linkEdges, List.flatMap_map]
  apply List.flatMap_congr
  intro l _
  simp only [expand, renum, List.map_map]
  have : ((fun e : V × V × PyKey × Attrs A => (e.1, e.2.1, e.2.2.2)) ∘ fun ka => (l.u, l.v, ka.1, ka.2)) =
      (fun a => (l.u, l.v, a)) ∘ Prod.snd := rfl
  rw [this, ← List.map_map, enumKeys_snd, List.map_map]
  rfl

end Graph
end Pelote
