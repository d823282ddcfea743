import Verif.Lemmas.Graph

/-! Effect of the mutations of the networkx model, and preservation of well-formedness. -/
set_option linter.unusedSectionVars false
set_option linter.unusedSimpArgs false
namespace Pelote
variable {V A : Type} [DecidableEq V]
namespace Graph

theorem WF.empty (d m : Bool) (attrs : Attrs A) (h : attrs.keys.Nodup) :
    (Graph.empty d m attrs : Graph V A).WF where
  attrs := h
  nodup := .nil
  nodeAttrs := by simp [Graph.empty]
  ends := by simp [Graph.empty]
  uniq := .nil
  nonempty := by simp [Graph.empty]
  keys := by simp [Graph.empty]
  edgeAttrs := by simp [Graph.empty]
  simple := by simp [Graph.empty]

theorem hasNode_iff {g : Graph V A} {n : V} : g.hasNode n = true ↔ n ∈ g.nodes := Dict.has_iff

/-! ### addLink -/

theorem addLink_fresh {d m : Bool} {u v : V} {k : Option PyKey} {a : Attrs A} {L : List (Link V A)}
    (h : ∀ l ∈ L, samePair d u v l.u l.v = false) :
    addLink d m u v k a L = L ++ [⟨u, v, addToData m [] k a⟩] := by
  induction L with
  | nil => rfl
  | cons l ls ih =>
    rw [addLink, h l (by simp), if_neg (by simp), ih (fun l' hl' => h l' (by simp [hl']))]
    rfl

theorem addLink_append {d m : Bool} {u v : V} {k : Option PyKey} {a : Attrs A} {L M : List (Link V A)}
    (h : ∀ l ∈ L, samePair d u v l.u l.v = false) :
    addLink d m u v k a (L ++ M) = L ++ addLink d m u v k a M := by
  induction L with
  | nil => rfl
  | cons l ls ih =>
    rw [List.cons_append, addLink, h l (by simp), if_neg (by simp), ih (fun l' hl' => h l' (by simp [hl']))]
    rfl

theorem find?_addLink {d m : Bool} {u v x y : V} {k : Option PyKey} {a : Attrs A} {L : List (Link V A)} :
    ((addLink d m u v k a L).find? (fun l => samePair d x y l.u l.v)).map Link.data =
      if samePair d u v x y then
        some (addToData m (((L.find? (fun l => samePair d u v l.u l.v)).map Link.data).getD []) k a)
      else (L.find? (fun l => samePair d x y l.u l.v)).map Link.data := by
  induction L with
  | nil =>
    simp only [addLink, List.find?_cons, List.find?_nil, Option.map_none, Option.getD_none]
    rw [samePair_comm d x y u v]
    cases samePair d u v x y <;> rfl
  | cons l ls ih =>
    rw [addLink]
    by_cases h : samePair d u v l.u l.v = true
    · simp only [h, if_true, List.find?_cons, Option.map_some, Option.getD_some]
      by_cases h2 : samePair d u v x y = true
      · have : samePair d x y l.u l.v = true := by rw [← samePair_trans h2]; exact h
        simp [h2, this]
      · simp only [Bool.not_eq_true] at h2
        have : samePair d x y l.u l.v = false := by
          rw [samePair_comm d x y l.u l.v, ← samePair_trans h]; exact h2
        simp [h2, this]
    · simp only [Bool.not_eq_true] at h
      simp only [h, Bool.false_eq_true, if_false, List.find?_cons]
      by_cases h3 : samePair d x y l.u l.v = true
      · have : samePair d u v x y = false := by
          rw [Bool.eq_false_iff]
          intro h2
          rw [samePair_trans h2, h3] at h
          simp at h
        simp [h3, this]
      · simp only [Bool.not_eq_true] at h3
        simp only [h3]
        exact ih

theorem mem_addLink {d m : Bool} {u v : V} {k : Option PyKey} {a : Attrs A} {L : List (Link V A)} {l : Link V A}
    (h : l ∈ addLink d m u v k a L) :
    l ∈ L ∨ (l = ⟨u, v, addToData m [] k a⟩) ∨
      (∃ l' ∈ L, samePair d u v l'.u l'.v = true ∧ l = { l' with data := addToData m l'.data k a }) := by
  induction L with
  | nil => simp only [addLink, List.mem_singleton] at h; exact .inr (.inl h)
  | cons l' ls ih =>
    rw [addLink] at h
    split at h
    · rename_i hs
      rcases List.mem_cons.1 h with h | h
      · exact .inr (.inr ⟨l', by simp, hs, h⟩)
      · exact .inl (by simp [h])
    · rcases List.mem_cons.1 h with h | h
      · exact .inl (by simp [h])
      · rcases ih h with h | h | ⟨m', hm', h1, h2⟩
        · exact .inl (by simp [h])
        · exact .inr (.inl h)
        · exact .inr (.inr ⟨m', by simp [hm'], h1, h2⟩)

theorem addLink_uniq {d m : Bool} {u v : V} {k : Option PyKey} {a : Attrs A} {L : List (Link V A)}
    (h : L.Pairwise (fun l m => samePair d l.u l.v m.u m.v = false)) :
    (addLink d m u v k a L).Pairwise (fun l m => samePair d l.u l.v m.u m.v = false) := by
  induction L with
  | nil => simp [addLink]
  | cons l ls ih =>
    rw [List.pairwise_cons] at h
    rw [addLink]
    split
    · rw [List.pairwise_cons]; exact ⟨h.1, h.2⟩
    · rename_i hs
      simp only [Bool.not_eq_true] at hs
      rw [List.pairwise_cons]
      refine ⟨?_, ih h.2⟩
      intro m' hm'
      rcases mem_addLink hm' with hm | rfl | ⟨m2, hm2, _, rfl⟩
      · exact h.1 _ hm
      · rw [samePair_comm]; exact hs
      · exact h.1 m2 hm2

theorem addToData_ne_nil (m : Bool) (data : Dict PyKey (Attrs A)) (k : Option PyKey) (a : Attrs A) :
    addToData m data k a ≠ [] := by
  unfold addToData
  intro h
  have : (Dict.set data (if m then k.getD (newEdgeKey data) else .int 0)
    (((data.get? (if m then k.getD (newEdgeKey data) else .int 0)).getD []).update a)).keys = [] := by
    rw [h]; rfl
  have hm := (Dict.mem_keys_set (d := data) (k := if m then k.getD (newEdgeKey data) else .int 0)
    (k' := if m then k.getD (newEdgeKey data) else .int 0)
    (v := ((data.get? (if m then k.getD (newEdgeKey data) else .int 0)).getD []).update a)).2 (.inr rfl)
  rw [this] at hm
  simp at hm

theorem addToData_keys_nodup {m : Bool} {data : Dict PyKey (Attrs A)} (h : data.keys.Nodup)
    (k : Option PyKey) (a : Attrs A) : (addToData m data k a).keys.Nodup := Dict.nodup_set _ _ h

theorem mem_set {κ ν : Type} [DecidableEq κ] {d : Dict κ ν} {k : κ} {v : ν} {p : κ × ν} (h : p ∈ d.set k v) :
    p ∈ d ∨ p = (k, v) := by
  induction d with
  | nil => simp only [Dict.set, List.mem_singleton] at h; exact .inr h
  | cons q d ih =>
    obtain ⟨k', v'⟩ := q
    rw [Dict.set] at h
    split at h
    · rename_i e
      rcases List.mem_cons.1 h with h | h
      · exact .inr (by rw [h, e])
      · exact .inl (by simp [h])
    · rcases List.mem_cons.1 h with h | h
      · exact .inl (by simp [h])
      · rcases ih h with h | h
        · exact .inl (by simp [h])
        · exact .inr h

theorem nodup_getD {κ ν : Type} [DecidableEq κ] {d : Dict κ (Attrs ν)} {k : κ} (h : ∀ p ∈ d, p.2.keys.Nodup) :
    (((d.get? k).getD []).keys).Nodup := by
  rcases hg : d.get? k with _ | v
  · exact .nil
  · exact h _ (Dict.mem_of_get? hg)

theorem addToData_attrs {m : Bool} {data : Dict PyKey (Attrs A)} (h : ∀ p ∈ data, p.2.keys.Nodup)
    (k : Option PyKey) (a : Attrs A) : ∀ p ∈ addToData m data k a, p.2.keys.Nodup := by
  intro p hp
  rcases mem_set hp with h' | rfl
  · exact h p h'
  · exact Dict.nodup_update _ (nodup_getD h)

theorem addToData_simple {data : Dict PyKey (Attrs A)} (h : data = [] ∨ data.keys = [.int 0])
    (k : Option PyKey) (a : Attrs A) : (addToData false data k a).keys = [.int 0] := by
  unfold addToData
  simp only [Bool.false_eq_true, if_false]
  rcases h with rfl | h
  · rfl
  · rw [Dict.keys_set_of_mem _ (by rw [h]; simp), h]

/-! ### Nodes -/

theorem nodes_ensureNode (g : Graph V A) (n : V) :
    (g.ensureNode n).nodes = if n ∈ g.nodes then g.nodes else g.nodes ++ [n] := by
  unfold ensureNode
  by_cases h : n ∈ g.nodes
  · rw [if_pos (hasNode_iff.2 h), if_pos h]
  · have : ¬ g.hasNode n = true := fun h' => h (hasNode_iff.1 h')
    rw [if_neg this, if_neg h]
    simp [nodes]

theorem mem_nodes_ensureNode {g : Graph V A} {n x : V} :
    x ∈ (g.ensureNode n).nodes ↔ x ∈ g.nodes ∨ x = n := by
  rw [nodes_ensureNode]; split
  · constructor
    · exact .inl
    · rintro (h | rfl) <;> assumption
  · simp

theorem get?_append {κ ν : Type} [DecidableEq κ] (d e : Dict κ ν) (k : κ) :
    Dict.get? (d ++ e) k = (d.get? k).or (Dict.get? e k) := by
  induction d with
  | nil => rfl
  | cons p d ih =>
    obtain ⟨k', v⟩ := p
    rw [List.cons_append, Dict.get?_cons, Dict.get?_cons]
    split
    · rfl
    · exact ih

theorem get?_ensureNode (g : Graph V A) (n x : V) :
    (g.ensureNode n).node.get? x =
      if x = n then some ((g.node.get? n).getD []) else g.node.get? x := by
  unfold ensureNode
  by_cases h : g.hasNode n = true
  · rw [if_pos h]
    split
    · rename_i e; subst e
      obtain ⟨v, hv⟩ := Dict.exists_get?_of_mem_keys (hasNode_iff.1 h)
      rw [hv]; rfl
    · rfl
  · rw [if_neg h]
    have hn : g.node.get? n = none := Dict.get?_eq_none_iff.2 fun h' => h (hasNode_iff.2 h')
    simp only
    rw [get?_append]
    by_cases e : x = n
    · subst e; rw [hn]; simp [Dict.get?]
    · have : Dict.get? ([(n, [])] : Dict V (Attrs A)) x = none := by
        simp [Dict.get?, Ne.symm e]
      rw [this, Option.or_none, if_neg e]

theorem WF.ensureNode {g : Graph V A} (h : g.WF) (n : V) : (g.ensureNode n).WF := by
  unfold Graph.ensureNode
  split
  · exact h
  · rename_i hn
    have hn' : n ∉ g.nodes := fun h' => hn (hasNode_iff.2 h')
    have hnodes : ({ g with node := g.node ++ [(n, [])] } : Graph V A).nodes = g.nodes ++ [n] := by
      simp [nodes]
    refine ⟨h.attrs, ?_, ?_, ?_, h.uniq, h.nonempty, h.keys, h.edgeAttrs, h.simple⟩
    · rw [hnodes, List.nodup_append]
      refine ⟨h.nodup, by simp, ?_⟩
      rintro a ha b hb rfl
      exact hn' (by simp at hb; exact hb ▸ ha)
    · intro p hp
      rcases List.mem_append.1 hp with hp | hp
      · exact h.nodeAttrs p hp
      · simp only [List.mem_singleton] at hp
        subst hp; exact .nil
    · intro l hl
      rw [hnodes]
      have := h.ends l hl
      simp [this.1, this.2]

theorem ensureNode_directed (g : Graph V A) (n : V) : (g.ensureNode n).directed = g.directed := by
  unfold ensureNode; split <;> rfl
theorem ensureNode_multi (g : Graph V A) (n : V) : (g.ensureNode n).multi = g.multi := by
  unfold ensureNode; split <;> rfl
theorem ensureNode_links (g : Graph V A) (n : V) : (g.ensureNode n).links = g.links := by
  unfold ensureNode; split <;> rfl
theorem ensureNode_attrs (g : Graph V A) (n : V) : (g.ensureNode n).attrs = g.attrs := by
  unfold ensureNode; split <;> rfl

theorem ensureNode_of_mem {g : Graph V A} {n : V} (h : n ∈ g.nodes) : g.ensureNode n = g := by
  unfold ensureNode; rw [if_pos (hasNode_iff.2 h)]

theorem nodes_addNodeCore (g : Graph V A) (n : V) (a : Attrs A) :
    (g.addNodeCore n a).nodes = if n ∈ g.nodes then g.nodes else g.nodes ++ [n] :=
  Dict.keys_set _ _ _

theorem get?_addNodeCore (g : Graph V A) (n x : V) (a : Attrs A) :
    (g.addNodeCore n a).node.get? x =
      if x = n then some (((g.node.get? n).getD []).update a) else g.node.get? x := by
  unfold addNodeCore
  simp only [Dict.get?_set, eq_comm]

theorem WF.addNodeCore {g : Graph V A} (h : g.WF) (n : V) (a : Attrs A) : (g.addNodeCore n a).WF := by
  refine ⟨h.attrs, Dict.nodup_set _ _ h.nodup, ?_, ?_, h.uniq, h.nonempty, h.keys, h.edgeAttrs, h.simple⟩
  · intro p hp
    rcases mem_set hp with hp | rfl
    · exact h.nodeAttrs p hp
    · exact Dict.nodup_update _ (nodup_getD h.nodeAttrs)
  · intro l hl
    have := h.ends l hl
    rw [nodes_addNodeCore]
    split
    · exact this
    · simp [this.1, this.2]

/-! ### Edges -/

theorem addEdgeCore_directed (g : Graph V A) (u v : V) (k : Option PyKey) (a : Attrs A) :
    (g.addEdgeCore u v k a).directed = g.directed := by
  simp [addEdgeCore, ensureNode_directed]
theorem addEdgeCore_multi (g : Graph V A) (u v : V) (k : Option PyKey) (a : Attrs A) :
    (g.addEdgeCore u v k a).multi = g.multi := by
  simp [addEdgeCore, ensureNode_multi]
theorem addEdgeCore_attrs (g : Graph V A) (u v : V) (k : Option PyKey) (a : Attrs A) :
    (g.addEdgeCore u v k a).attrs = g.attrs := by
  simp [addEdgeCore, ensureNode_attrs]
theorem addEdgeCore_node (g : Graph V A) (u v : V) (k : Option PyKey) (a : Attrs A) :
    (g.addEdgeCore u v k a).node = ((g.ensureNode u).ensureNode v).node := rfl
theorem addEdgeCore_links (g : Graph V A) (u v : V) (k : Option PyKey) (a : Attrs A) :
    (g.addEdgeCore u v k a).links = addLink g.directed g.multi u v k a g.links := by
  simp [addEdgeCore, ensureNode_directed, ensureNode_multi, ensureNode_links]

theorem mem_nodes_addEdgeCore {g : Graph V A} {u v x : V} {k : Option PyKey} {a : Attrs A} :
    x ∈ (g.addEdgeCore u v k a).nodes ↔ x ∈ g.nodes ∨ x = u ∨ x = v := by
  show x ∈ ((g.ensureNode u).ensureNode v).nodes ↔ _
  rw [mem_nodes_ensureNode, mem_nodes_ensureNode, or_assoc]

theorem get?_addEdgeCore (g : Graph V A) (u v x : V) (k : Option PyKey) (a : Attrs A) :
    (g.addEdgeCore u v k a).node.get? x =
      if x = u ∨ x = v then some ((g.node.get? x).getD []) else g.node.get? x := by
  rw [addEdgeCore_node, get?_ensureNode, get?_ensureNode, get?_ensureNode]
  by_cases h1 : x = v
  · subst h1
    by_cases h2 : x = u
    · subst h2; simp
    · simp [h2]
  · by_cases h2 : x = u
    · subst h2; simp [h1]
    · simp [h1, h2]

theorem keydict?_addEdgeCore (g : Graph V A) (u v x y : V) (k : Option PyKey) (a : Attrs A) :
    (g.addEdgeCore u v k a).keydict? x y =
      if samePair g.directed u v x y then some (addToData g.multi ((g.keydict? u v).getD []) k a)
      else g.keydict? x y := by
  unfold keydict?
  rw [addEdgeCore_links, addEdgeCore_directed]
  exact find?_addLink

theorem WF.addEdgeCore {g : Graph V A} (h : g.WF) (u v : V) (k : Option PyKey) (a : Attrs A) :
    (g.addEdgeCore u v k a).WF := by
  have h' := (h.ensureNode u).ensureNode v
  have hl := g.addEdgeCore_links u v k a
  have memcases : ∀ l ∈ (g.addEdgeCore u v k a).links,
      l ∈ g.links ∨ (l = ⟨u, v, addToData g.multi [] k a⟩) ∨
      (∃ l' ∈ g.links, samePair g.directed u v l'.u l'.v = true ∧
        l = { l' with data := addToData g.multi l'.data k a }) := by
    intro l hl'
    rw [hl] at hl'
    exact mem_addLink hl'
  refine ⟨?_, h'.nodup, h'.nodeAttrs, ?_, ?_, ?_, ?_, ?_, ?_⟩
  · rw [addEdgeCore_attrs]; exact h.attrs
  · intro l hm
    rw [mem_nodes_addEdgeCore, mem_nodes_addEdgeCore]
    rcases memcases l hm with hm | rfl | ⟨l', hm', _, rfl⟩
    · exact ⟨.inl (h.ends l hm).1, .inl (h.ends l hm).2⟩
    · exact ⟨.inr (.inl rfl), .inr (.inr rfl)⟩
    · exact ⟨.inl (h.ends l' hm').1, .inl (h.ends l' hm').2⟩
  · rw [hl, addEdgeCore_directed]; exact addLink_uniq h.uniq
  · intro l hm
    rcases memcases l hm with hm | rfl | ⟨l', hm', _, rfl⟩
    · exact h.nonempty l hm
    · exact addToData_ne_nil _ _ _ _
    · exact addToData_ne_nil _ _ _ _
  · intro l hm
    rcases memcases l hm with hm | rfl | ⟨l', hm', _, rfl⟩
    · exact h.keys l hm
    · exact addToData_keys_nodup (data := []) List.nodup_nil _ _
    · exact addToData_keys_nodup (h.keys l' hm') _ _
  · intro l hm
    rcases memcases l hm with hm | rfl | ⟨l', hm', _, rfl⟩
    · exact h.edgeAttrs l hm
    · exact addToData_attrs (by simp) _ _
    · exact addToData_attrs (h.edgeAttrs l' hm') _ _
  · intro hs l hm
    rw [addEdgeCore_multi] at hs
    rw [hs] at memcases
    rcases memcases l hm with hm | rfl | ⟨l', hm', _, rfl⟩
    · exact h.simple hs l hm
    · exact addToData_simple (.inl rfl) _ _
    · exact addToData_simple (.inr (h.simple hs l' hm')) _ _

/-! ### Removals -/

theorem WF.createEmptyCopy {g : Graph V A} (h : g.WF) : g.createEmptyCopy.WF where
  attrs := h.attrs
  nodup := h.nodup
  nodeAttrs := h.nodeAttrs
  ends := by simp [Graph.createEmptyCopy]
  uniq := .nil
  nonempty := by simp [Graph.createEmptyCopy]
  keys := by simp [Graph.createEmptyCopy]
  edgeAttrs := by simp [Graph.createEmptyCopy]
  simple := by simp [Graph.createEmptyCopy]

/-- Restricting the links. -/
theorem WF.filterLinks {g : Graph V A} (h : g.WF) (p : Link V A → Bool) :
    ({ g with links := g.links.filter p } : Graph V A).WF where
  attrs := h.attrs
  nodup := h.nodup
  nodeAttrs := h.nodeAttrs
  ends := fun l hl => h.ends l (List.mem_of_mem_filter hl)
  uniq := h.uniq.sublist List.filter_sublist
  nonempty := fun l hl => h.nonempty l (List.mem_of_mem_filter hl)
  keys := fun l hl => h.keys l (List.mem_of_mem_filter hl)
  edgeAttrs := fun l hl => h.edgeAttrs l (List.mem_of_mem_filter hl)
  simple := fun hs l hl => h.simple hs l (List.mem_of_mem_filter hl)

theorem nodes_induced (g : Graph V A) (p : V → Bool) : (g.induced p).nodes = g.nodes.filter p := by
  simp only [induced, nodes, Dict.keys, List.filter_map]
  rfl

theorem WF.induced {g : Graph V A} (h : g.WF) (p : V → Bool) : (g.induced p).WF where
  attrs := h.attrs
  nodup := by rw [nodes_induced]; exact h.nodup.filter _
  nodeAttrs := fun q hq => h.nodeAttrs q (List.mem_of_mem_filter hq)
  ends := fun l hl => by
    rw [nodes_induced]
    simp only [Graph.induced, List.mem_filter, Bool.and_eq_true] at hl
    have := h.ends l hl.1
    exact ⟨List.mem_filter.2 ⟨this.1, hl.2.1⟩, List.mem_filter.2 ⟨this.2, hl.2.2⟩⟩
  uniq := h.uniq.sublist List.filter_sublist
  nonempty := fun l hl => h.nonempty l (List.mem_of_mem_filter hl)
  keys := fun l hl => h.keys l (List.mem_of_mem_filter hl)
  edgeAttrs := fun l hl => h.edgeAttrs l (List.mem_of_mem_filter hl)
  simple := fun hs l hl => h.simple hs l (List.mem_of_mem_filter hl)

theorem subgraph_eq_induced (g : Graph V A) (ns : List V) :
    g.subgraph ns = g.induced (fun n => decide (n ∈ ns)) := rfl

/-- `remove_nodes_from` leaves the subgraph induced by the other nodes. -/
theorem removeNodesFrom_eq (g : Graph V A) (ns : List V) :
    g.removeNodesFrom ns = g.induced (fun n => decide (n ∉ ns)) := by
  unfold removeNodesFrom
  induction ns generalizing g with
  | nil => simp [induced]
  | cons n ns ih =>
    rw [List.foldl_cons, ih]
    simp only [induced, Dict.erase, List.filter_filter, List.mem_cons]
    congr 1
    · apply List.filter_congr
      intro q _
      by_cases h1 : q.1 = n <;> by_cases h2 : q.1 ∈ ns <;> simp [h1, h2]
    · apply List.filter_congr
      intro l _
      by_cases h1 : l.u = n <;> by_cases h2 : l.v = n <;> by_cases h3 : l.u ∈ ns <;>
        by_cases h4 : l.v ∈ ns <;> simp [h1, h2, h3, h4]

/-- The edges of an induced subgraph, in the same order and orientation. -/
theorem edgesKeys_induced {g : Graph V A} (h : g.WF) (p : V → Bool) :
    (g.induced p).edgesKeys = g.edgesKeys.filter (fun e => p e.1 && p e.2.1) := by
  rw [edgesKeys_eq _ (h.induced p).nodup, edgesKeys_eq _ h.nodup]
  have ho : ∀ l ∈ g.links, (p l.u && p l.v) = true → (g.induced p).orient l = g.orient l := by
    intro l hl hp
    simp only [Bool.and_eq_true] at hp
    unfold orient
    rw [nodes_induced]
    have := idxOf_filter_le (ns := g.nodes) p hp.1 hp.2 (.inl (h.ends l hl).1)
    simp only [induced, this]
  have hmap : (g.induced p).links.map (g.induced p).orient =
      (g.links.map g.orient).filter (fun l => p l.u && p l.v) := by
    rw [List.filter_map]
    have : (g.induced p).links = g.links.filter ((fun l => p l.u && p l.v) ∘ g.orient) := by
      show g.links.filter _ = _
      apply List.filter_congr
      intro l _
      rcases g.orient_cases l with e | ⟨_, e⟩ <;> simp [e, Bool.and_comm]
    rw [this]
    apply List.map_congr_left
    intro l hl
    rw [List.mem_filter] at hl
    refine ho l hl.1 ?_
    have := hl.2
    simp only [Function.comp_apply] at this
    rcases g.orient_cases l with e | ⟨_, e⟩ <;> rw [e] at this
    · exact this
    · rw [Bool.and_comm]; exact this
  unfold groups
  rw [hmap, nodes_induced, bucketSort_filter_keys, bucketSort_filter, List.filter_flatMap]
  · generalize bucketSort g.nodes (fun l => l.u) (g.links.map g.orient) = G
    induction G with
    | nil => rfl
    | cons l G ih =>
      rw [List.filter_cons, List.flatMap_cons]
      have hexp : (expand l).filter (fun e => p e.1 && p e.2.1) =
          if (p l.u && p l.v) = true then expand l else [] := by
        unfold expand
        rw [List.filter_map]
        split
        · rename_i hp
          congr 1
          rw [List.filter_eq_self]
          intro ka _
          exact hp
        · rename_i hp
          rw [List.map_eq_nil_iff, List.filter_eq_nil_iff]
          intro ka _ h'
          exact hp h'
      rw [hexp]
      split
      · rw [List.flatMap_cons, ih]
      · rw [ih]; rfl
  · intro l hl
    have := (List.mem_filter.1 hl).2
    simp only [Bool.and_eq_true] at this
    exact this.1

theorem get?_induced (g : Graph V A) (p : V → Bool) (n : V) :
    (g.induced p).node.get? n = if p n then g.node.get? n else none := by
  exact Dict.get?_filter_key _ _ _

theorem keydict?_induced {g : Graph V A} (p : V → Bool) (u v : V) :
    (g.induced p).keydict? u v = if p u && p v then g.keydict? u v else none := by
  unfold keydict? induced
  simp only
  rw [List.find?_filter]
  split
  · rename_i hp
    simp only [Bool.and_eq_true] at hp
    congr 2
    funext l
    rw [Bool.eq_iff_iff]
    simp only [Bool.and_eq_true, decide_eq_true_eq]
    constructor
    · exact fun h => h.2
    · intro h
      refine ⟨?_, h⟩
      rcases samePair_iff.1 h with ⟨rfl, rfl⟩ | ⟨_, rfl, rfl⟩
      · exact hp
      · exact ⟨hp.2, hp.1⟩
  · rename_i hp
    rw [Option.map_eq_none_iff, List.find?_eq_none]
    intro l _ h
    simp only [Bool.and_eq_true, decide_eq_true_eq] at h hp
    rcases samePair_iff.1 h.2 with ⟨rfl, rfl⟩ | ⟨_, rfl, rfl⟩
    · exact hp h.1
    · exact hp ⟨h.1.2, h.1.1⟩

/-! ### Keyword arguments -/

theorem checkKwargs_ok {reserved : List String} {a : Attrs A}
    (h : ∀ k ∈ a.keys, ∃ s, k = .str s ∧ s ∉ reserved) : checkKwargs reserved a = .ok () := by
  unfold checkKwargs
  rw [if_pos, if_neg]
  · simp only [List.any_eq_true, decide_eq_true_eq, not_exists, not_and]
    intro kv hkv r hr e
    obtain ⟨s, hs, hns⟩ := h kv.1 (Dict.mem_keys_of_mem hkv)
    rw [e] at hs
    cases hs
    exact hns hr
  · rw [List.all_eq_true]
    intro kv hkv
    obtain ⟨s, hs, _⟩ := h kv.1 (Dict.mem_keys_of_mem hkv)
    rw [hs]; rfl

theorem addNode_ok {g : Graph V A} {n : V} {a : Attrs A} (h : NodeKwSafe a) :
    g.addNode n a = .ok (g.addNodeCore n a) := by
  rw [addNode, checkKwargs_ok h]

theorem addEdge_ok [AttrVal A] {g : Graph V A} {u v : V} {a : Attrs A} (h : EdgeKwSafe g.multi a) :
    g.addEdge u v a = .ok (g.addEdgeCore u v none a) := by
  unfold addEdge
  unfold EdgeKwSafe at h
  split
  · rename_i hm
    simp only [hm, if_true] at h
    rw [checkKwargs_ok (fun k hk => ?_)]
    · have : a.get? (.str "key") = none := by
        rw [Dict.get?_eq_none_iff]
        intro hk
        obtain ⟨s, hs, hns⟩ := h _ hk
        cases hs
        simp at hns
      simp only [this]
    · obtain ⟨s, hs, hns⟩ := h k hk
      refine ⟨s, hs, ?_⟩
      simp only [List.mem_cons, not_or] at hns ⊢
      exact ⟨hns.1, hns.2.1, hns.2.2.1, by simp⟩
  · rename_i hm
    simp only [hm, Bool.false_eq_true, if_false] at h
    rw [checkKwargs_ok h]

theorem addEdgeKey_ok {g : Graph V A} {u v : V} {k : PyKey} {a : Attrs A} (hm : g.multi = true)
    (h : EdgeKwSafe g.multi a) : g.addEdgeKey u v k a = .ok (g.addEdgeCore u v (some k) a) := by
  unfold addEdgeKey
  unfold EdgeKwSafe at h
  rw [hm] at h
  simp only [if_true] at h
  rw [checkKwargs_ok h]

end Graph
end Pelote
