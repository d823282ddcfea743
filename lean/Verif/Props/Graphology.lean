import Verif.Lemmas.GraphologyRead

/-! C45, C46, C47: reading and writing graphology JSON. -/
namespace Pelote

/-! ### C46: what is written -/

/-- C46: writing succeeds exactly on the graphs whose node keys are integers or strings, of a single type unless
mixed keys are allowed, and whose node and edge attribute names are strings unless invalid names are allowed. -/
theorem write_ok_iff {g : Graph PyKey Data} (hwf : g.WF) (m i : Bool) :
    (∃ doc, writeGraphologyJson g m i = .ok doc) ↔ Writable g m i := by
  constructor
  · rintro ⟨doc, h⟩
    by_contra hw
    obtain ⟨t, ht⟩ := write_error hwf hw
    rw [ht] at h; cases h
  · intro h; exact ⟨_, write_ok hwf h⟩

/-- C46: every failure to write is a `TypeError`. -/
theorem write_typeError {g : Graph PyKey Data} (hwf : g.WF) {m i : Bool} (h : ¬ Writable g m i) :
    ∃ t, writeGraphologyJson g m i = .error (.typeError t) := write_error hwf h

theorem describesAttrs_append {f : Dict PyKey Data} (a : Attrs Data) (hf : f.get? (.str "attributes") = none) :
    DescribesAttrs (f ++ attributesField a) (Dict.update [] (stringify a)) := by
  unfold attributesField
  split
  · rename_i h; subst h
    exact .inl ⟨by rw [List.append_nil]; exact hf, rfl⟩
  · right
    induction f with
    | nil => rfl
    | cons p f ih =>
      obtain ⟨k, v⟩ := p
      rw [Dict.get?_cons] at hf
      by_cases hk : k = .str "attributes"
      · rw [if_pos hk] at hf; cases hf
      · rw [if_neg hk] at hf
        rw [List.cons_append, Dict.get?_cons, if_neg hk]
        exact ih hf

theorem update_nil_nodup (a : Attrs Data) : (Dict.update [] a).keys.Nodup :=
  Dict.nodup_update _ List.nodup_nil

/-- A node as it should be written: the key cast to a string, attribute names cast to strings. -/
def SNode.of (p : PyKey × Attrs Data) : SNode := ⟨keyString p.1, Dict.update [] (stringify p.2)⟩

/-- An edge as it should be written: no key. -/
def SEdge.of (e : PyKey × PyKey × Attrs Data) : SEdge :=
  ⟨keyString e.1, keyString e.2.1, none, false, Dict.update [] (stringify e.2.2)⟩

/-- C46: the document written describes the graph: its type, its attributes, its nodes in order, its edges as
listed. -/
theorem write_describes {g : Graph PyKey Data} (hwf : g.WF) {m i : Bool} {doc : Dict PyKey Data}
    (h : writeGraphologyJson g m i = .ok doc) :
    DescribesGraph doc (if g.directed then "directed" else "undirected") g.multi g.attrs (g.node.map SNode.of)
      (g.edgesData.map SEdge.of) := by
  have hw := (write_ok_iff hwf m i).1 ⟨doc, h⟩
  rw [write_ok hwf hw] at h
  cases h
  refine ⟨⟨_, rfl, rfl, rfl⟩, ?_, ?_, ?_, hwf.attrs, ?_, ?_⟩
  · unfold graphJson
    split
    · rename_i ha; rw [ha]; exact .inl ⟨rfl, rfl⟩
    · exact .inr rfl
  · right
    refine ⟨_, rfl, ?_⟩
    rw [List.forall₂_map_left_iff, List.forall₂_map_right_iff, List.forall₂_same]
    rintro ⟨n, a⟩ _
    exact ⟨_, rfl, rfl, describesAttrs_append a rfl⟩
  · right
    refine ⟨_, rfl, ?_⟩
    rw [List.forall₂_map_left_iff, List.forall₂_map_right_iff, List.forall₂_same]
    rintro ⟨u, v, a⟩ _
    have : ∀ k, k ≠ PyKey.str "attributes" → k ≠ PyKey.str "source" → k ≠ PyKey.str "target" →
        Dict.get? ([(PyKey.str "source", Data.str u.toStr), (PyKey.str "target", Data.str v.toStr)] ++
          attributesField a) k = none := by
      intro k h1 h2 h3
      unfold attributesField
      split <;> simp [Dict.get?_cons, h1.symm, h2.symm, h3.symm]
    exact ⟨_, rfl, rfl, rfl, .inl ⟨rfl, .inl (this _ (by simp) (by simp) (by simp))⟩,
      .inl ⟨rfl, this _ (by simp) (by simp) (by simp)⟩, describesAttrs_append a rfl⟩
  · intro n hn
    obtain ⟨p, _, rfl⟩ := List.mem_map.1 hn
    exact update_nil_nodup _
  · intro e he
    obtain ⟨p, _, rfl⟩ := List.mem_map.1 he
    exact update_nil_nodup _

theorem injOn_keyString {g : Graph PyKey Data} {i : Bool} (h : Writable g false i) : Graph.InjOn keyString g := by
  intro n hn k hk he
  exact toStr_inj (h.keys n hn) (h.keys k hk) (h.types rfl n hn k hk) (by simpa [keyString] using he)

/-- C46: unless mixed keys are allowed, distinct nodes are given distinct keys. -/
theorem write_distinct {g : Graph PyKey Data} (hwf : g.WF) {i : Bool} {doc : Dict PyKey Data}
    (h : writeGraphologyJson g false i = .ok doc) :
    (∀ n ∈ g.nodes, ∀ k ∈ g.nodes, keyString n = keyString k → n = k) ∧
      ((g.node.map SNode.of).map SNode.key).Nodup := by
  have hi := injOn_keyString ((write_ok_iff hwf false i).1 ⟨doc, h⟩)
  refine ⟨hi, ?_⟩
  have : (g.node.map SNode.of).map SNode.key = g.nodes.map keyString := by
    rw [List.map_map]
    unfold Graph.nodes Dict.keys
    rw [List.map_map]
    rfl
  rw [this]
  exact hwf.nodup.map_on (fun a ha b hb => hi a ha b hb)

/-! ### C45: round trip -/

/-- C45: what is written can be read back, whenever the node keys stay distinct once cast to strings and the
attribute names can be keyword arguments.  The graph read has the same kind and attributes, the same nodes in the
same order with the same attributes, and lists the same edges in the same order, node keys being cast to strings;
the keys of parallel edges are renumbered. -/
theorem graphology_roundtrip {g : Graph PyKey Data} (hwf : g.WF) {m i : Bool} (hw : Writable g m i)
    (hr : Readable g) (hf : m = true → Graph.InjOn keyString g) :
    ∃ doc h, writeGraphologyJson g m i = .ok doc ∧ readGraphologyJson (.dict doc) = .ok h ∧ h.WF ∧
      h.directed = g.directed ∧ h.multi = g.multi ∧ h.attrs = g.attrs ∧
      h.node = g.node.map (fun p => (keyString p.1, p.2)) ∧
      h.edgesData = g.edgesData.map (fun e => (keyString e.1, keyString e.2.1, e.2.2)) ∧
      ∀ u ∈ g.nodes, ∀ v ∈ g.nodes,
        (h.keydict? (keyString u) (keyString v)).map (fun d => d.map Prod.snd) =
          (g.keydict? u v).map (fun d => d.map Prod.snd) ∧
        ∀ k a, h.edge? (keyString u) (keyString v) k = some a → ∃ j : Nat, k = .int j := by
  have hf : Graph.InjOn keyString g := by
    cases m
    · exact injOn_keyString hw
    · exact hf rfl
  obtain ⟨h1, h2, h3, h4, h5, h6, h7⟩ := Graph.rebuild_all (hwf.mapNodes hf)
  refine ⟨_, _, write_ok hwf hw, parse_written hwf hr hf, h1, h2, h3, h4, h5, ?_, ?_⟩
  · rw [h6, Graph.edgesData_mapNodes hwf hf]
  · intro u hu v hv
    have hk := h7 (keyString u) (keyString v)
    rw [Graph.keydict?_mapNodes hwf hf hu hv] at hk
    constructor
    · rw [hk]
      cases g.keydict? u v with
      | none => rfl
      | some d => simp [Graph.enumKeys_snd]
    · intro k a he
      unfold Graph.edge? at he
      rw [hk] at he
      cases hd : g.keydict? u v with
      | none => rw [hd] at he; cases he
      | some d =>
        rw [hd] at he
        obtain ⟨j, _, hj⟩ := (Graph.enumKeys_get? 0 _ k a).1 he
        exact ⟨j, by simpa using hj⟩

/-- C45: for a graph which is not a multigraph, reading back gives the graph, node keys cast to strings. -/
theorem graphology_roundtrip_simple {g : Graph PyKey Data} (hwf : g.WF) (hs : g.multi = false) {m i : Bool}
    (hw : Writable g m i) (hr : Readable g) (hf : m = true → Graph.InjOn keyString g) :
    ∃ doc h, writeGraphologyJson g m i = .ok doc ∧ readGraphologyJson (.dict doc) = .ok h ∧ h.WF ∧
      Graph.Same h (g.mapNodes keyString) ∧ h.nodes = g.nodes.map keyString ∧
      h.edgesData = g.edgesData.map (fun e => (keyString e.1, keyString e.2.1, e.2.2)) := by
  have hf : Graph.InjOn keyString g := by
    cases m
    · exact injOn_keyString hw
    · exact hf rfl
  obtain ⟨h1, h2, h3, h4, h5, h6, h7⟩ := Graph.rebuild_all (hwf.mapNodes hf)
  refine ⟨_, _, write_ok hwf hw, parse_written hwf hr hf, h1, ⟨h2, h3, h4, fun n => by rw [h5], ?_⟩, ?_, ?_⟩
  · intro u v k
    unfold Graph.edge?
    rw [h7, Graph.enumKeys_simple (hwf.mapNodes hf) hs]
  · unfold Graph.nodes
    rw [h5]
    exact Graph.mapNodes_nodes keyString g
  · rw [h6, Graph.edgesData_mapNodes hwf hf]

/-- C45: for a graph with string keys which is not a multigraph, reading back gives the same graph, with nodes
and edges in the same order. -/
theorem graphology_roundtrip_str {g : Graph PyKey Data} (hwf : g.WF) (hs : g.multi = false)
    (hk : ∀ n ∈ g.nodes, ∃ s, n = .str s) {m i : Bool} (hr : Readable g) :
    ∃ doc h, writeGraphologyJson g m i = .ok doc ∧ readGraphologyJson (.dict doc) = .ok h ∧ h.WF ∧
      Graph.Same h g ∧ h.node = g.node ∧ h.edgesData = g.edgesData := by
  have hid : ∀ n ∈ g.nodes, keyString n = n := by
    intro n hn; obtain ⟨s, rfl⟩ := hk n hn; rfl
  have hf : Graph.InjOn keyString g := by
    intro n hn k hk he; rwa [hid n hn, hid k hk] at he
  have hw : Writable g m i := by
    refine ⟨?_, ?_, ?_, ?_⟩
    · intro n hn; obtain ⟨s, rfl⟩ := hk n hn; trivial
    · intro _ n hn k hk'; obtain ⟨s, rfl⟩ := hk n hn; obtain ⟨t, rfl⟩ := hk k hk'; rfl
    · intro _ n a ha k hka; obtain ⟨s, hs, _⟩ := hr.nodeNames n a ha k hka; exact ⟨s, hs⟩
    · intro _ u v k a ha x hx; obtain ⟨s, hs, _⟩ := hr.edgeNames u v k a ha x hx; exact ⟨s, hs⟩
  have hm := Graph.mapNodes_id hwf hid
  obtain ⟨h1, h2, h3, h4, h5, h6, h7⟩ := Graph.rebuild_all (hwf.mapNodes hf)
  refine ⟨_, _, write_ok hwf hw, parse_written hwf hr hf, h1, ⟨?_, ?_, ?_, ?_, ?_⟩, ?_, ?_⟩
  · rw [h2, hm]
  · rw [h3, hm]
  · rw [h4, hm]
  · intro n; rw [h5, hm]
  · intro u v k
    unfold Graph.edge?
    rw [h7, Graph.enumKeys_simple (hwf.mapNodes hf) hs, hm]
  · rw [h5, hm]
  · rw [h6, hm]

/-- C45: writing what was read from a written graph gives the same document. -/
theorem graphology_write_idempotent {g : Graph PyKey Data} (hwf : g.WF) {m i : Bool} (hw : Writable g m i)
    (hr : Readable g) (hf : m = true → Graph.InjOn keyString g) (m' i' : Bool) :
    ∃ doc h, writeGraphologyJson g m i = .ok doc ∧ readGraphologyJson (.dict doc) = .ok h ∧
      writeGraphologyJson h m' i' = .ok doc := by
  obtain ⟨doc, h, h1, h2, hh, hd, hmu, ha, hn, he, _⟩ := graphology_roundtrip hwf hw hr hf
  refine ⟨doc, h, h1, h2, ?_⟩
  have hdoc : doc = graphJson g := by rw [write_ok hwf hw] at h1; cases h1; rfl
  have hnodes : h.nodes = g.nodes.map keyString := by
    unfold Graph.nodes Dict.keys; rw [hn, List.map_map, List.map_map]; rfl
  have hw' : Writable h m' i' := by
    refine ⟨?_, ?_, ?_, ?_⟩
    · intro n hx; rw [hnodes] at hx; obtain ⟨y, _, rfl⟩ := List.mem_map.1 hx; trivial
    · intro _ n hx k hy
      rw [hnodes] at hx hy
      obtain ⟨x, _, rfl⟩ := List.mem_map.1 hx
      obtain ⟨y, _, rfl⟩ := List.mem_map.1 hy
      rfl
    · intro _
      refine (node_names hh (P := StrNames)).1 ?_
      rw [hn]
      intro p hp
      obtain ⟨q, hq, rfl⟩ := List.mem_map.1 hp
      intro k hk
      obtain ⟨s, hs, _⟩ := (node_names hwf (P := Graph.NodeKwSafe)).2 hr.nodeNames q hq k hk
      exact ⟨s, hs⟩
    · intro _
      refine (edgesData_names hh (P := StrNames)).1 ?_
      rw [he]
      intro p hp
      obtain ⟨q, hq, rfl⟩ := List.mem_map.1 hp
      intro k hk
      obtain ⟨s, hs, _⟩ := (edgesData_names hwf (P := Graph.EdgeKwSafe g.multi)).2 hr.edgeNames q hq k hk
      exact ⟨s, hs⟩
  rw [write_ok hh hw', hdoc]
  unfold graphJson
  rw [hd, hmu, ha, hn, he, List.map_map, List.map_map]
  rfl

/-! ### C47: reading any document -/

/-- C47: a document declared mixed whose edges are not all of one sort is refused. -/
theorem read_true_mixed {data : Dict PyKey Data} {multi : Bool} {attrs : Attrs Data} {N : List SNode}
    {E : List SEdge} (h : DescribesGraph data "mixed" multi attrs N E) (hl : Loadable multi attrs N E) {e f : SEdge}
    (he : e ∈ E) (hf : f ∈ E) (hne : e.undirected ≠ f.undirected) :
    readGraphologyJson (.dict data) = .error (.typeError "cannot parse true mixed graphs") := by
  change parseGraphologyJson data = _
  rw [parse_described h hl, if_pos]
  refine ⟨rfl, ?_⟩
  by_cases h1 : e.undirected = docDirected "mixed" E
  · exact ⟨e, he, h1⟩
  · refine ⟨f, hf, ?_⟩
    cases h2 : e.undirected <;> cases h3 : f.undirected <;> cases h4 : docDirected "mixed" E <;> simp_all

/-- C47: any other document is read.  The graph is directed when declared so, or when declared mixed without any
undirected edge; it is a multigraph when declared so; its nodes are those of the document and the ends of its
edges; its edges are those of the document. -/
theorem read_exact {data : Dict PyKey Data} {type : String} {multi : Bool} {attrs : Attrs Data} {N : List SNode}
    {E : List SEdge} (h : DescribesGraph data type multi attrs N E) (hl : Loadable multi attrs N E)
    (hu : type = "mixed" → ∀ e ∈ E, ∀ f ∈ E, e.undirected = f.undirected) :
    ∃ g, readGraphologyJson (.dict data) = .ok g ∧ g.WF ∧ g.multi = multi ∧ g.attrs = attrs ∧
      (g.directed = true ↔ type = "directed" ∨ (type = "mixed" ∧ ∀ e ∈ E, e.undirected = false)) ∧
      (∀ n, n ∈ g.nodes ↔ n ∈ N.map SNode.key ∨ ∃ e ∈ E, n = e.source ∨ n = e.target) ∧
      (∀ n ∈ g.nodes, g.node.get? n =
        some (Graph.merged ((N.filter (fun s => decide (s.key = n))).map SNode.attrs) [])) ∧
      (∀ u v, g.hasEdge u v = true ↔ ∃ e ∈ E, samePair g.directed e.source e.target u v = true) ∧
      (∀ u v, let L := Graph.between g.directed u v (E.map (SEdge.entry multi))
        (multi = false → ∀ a, g.edge? u v (.int 0) = some a ↔ L ≠ [] ∧ a = Graph.merged (L.map (fun e => e.2.2.2)) []) ∧
        (multi = true → (∀ e ∈ E, e.key ≠ none) → ∀ k a, g.edge? u v k = some a ↔
          L.filter (fun e => decide (e.2.2.1 = some k)) ≠ [] ∧
          a = Graph.merged ((L.filter (fun e => decide (e.2.2.1 = some k))).map (fun e => e.2.2.2)) []) ∧
        (multi = true → (∀ e ∈ E, e.key = none) → ∀ k a, g.edge? u v k = some a ↔
          ∃ j : Nat, k = .int j ∧ (L.map (fun e => e.2.2.2))[j]? = some a)) := by
  have hd : (docDirected type E = true ↔ type = "directed" ∨ (type = "mixed" ∧ ∀ e ∈ E, e.undirected = false)) := by
    unfold docDirected
    by_cases ht : type = "mixed"
    · rw [if_pos ht]
      cases E with
      | nil => simp [ht]
      | cons e E =>
        have := hu ht e List.mem_cons_self
        simp only [Bool.not_eq_true', ht, true_and]
        constructor
        · intro h1; exact .inr (fun f hf => by rw [← this f hf]; exact h1)
        · rintro (h1 | h1)
          · exact absurd h1 (by decide)
          · exact h1 e List.mem_cons_self
    · rw [if_neg ht]; simp [ht]
  have hok : ¬ (type = "mixed" ∧ ∃ e ∈ E, e.undirected = docDirected type E) := by
    rintro ⟨ht, e, he, hx⟩
    by_cases h1 : docDirected type E = true
    · rcases hd.1 h1 with h2 | ⟨_, h2⟩
      · rw [ht] at h2; exact absurd h2 (by decide)
      · rw [h2 e he, h1] at hx; cases hx
    · have h2 : ∀ f ∈ E, f.undirected = false := by
        intro f hf
        rw [← hu ht e he f hf, hx]; simpa using h1
      exact h1 (hd.2 (.inr ⟨ht, h2⟩))
  have hp := parse_described h hl
  rw [if_neg hok] at hp
  generalize docDirected type E = d at *
  have hw0 : (Graph.empty d multi attrs).WF (V := PyKey) := Graph.WF.empty _ _ _ h.nodup.1
  set g0 := (Graph.empty d multi attrs).addNodes (N.map (fun n => (n.key, n.attrs))) with hg0
  obtain ⟨f1, f2, f3, f4⟩ := Graph.addNodes_frame (N.map (fun n => (n.key, n.attrs))) (Graph.empty d multi attrs)
  rw [← hg0] at f1 f2 f3 f4
  change g0.directed = d at f1
  change g0.multi = multi at f2
  change g0.attrs = attrs at f3
  change g0.links = [] at f4
  obtain ⟨k1, k2, k3⟩ := Graph.addKeyed_frame (E.map (SEdge.entry multi)) g0
  have hempty : ∀ u v, g0.keydict? u v = none := by
    intro u v
    unfold Graph.keydict?
    rw [f4]; rfl
  have hmem : ∀ n, n ∈ (g0.addKeyed (E.map (SEdge.entry multi))).nodes ↔
      n ∈ N.map SNode.key ∨ ∃ e ∈ E, n = e.source ∨ n = e.target := by
    intro n
    rw [Graph.mem_nodes_addKeyed, hg0, Graph.mem_nodes_addNodes, List.map_map]
    have e1 : n ∈ (Graph.empty d multi attrs : Graph PyKey Data).nodes ↔ False := by
      simp [Graph.empty, Graph.nodes, Dict.keys]
    rw [e1, false_or]
    refine or_congr Iff.rfl ?_
    constructor
    · rintro ⟨e, he, hx⟩
      obtain ⟨s, hs, rfl⟩ := List.mem_map.1 he
      exact ⟨s, hs, hx⟩
    · rintro ⟨s, hs, hx⟩
      exact ⟨_, List.mem_map_of_mem hs, hx⟩
  refine ⟨_, hp, (hw0.addNodes _).addKeyed _, k2.trans f2, k3.trans f3, ?_, hmem, ?_, ?_, ?_⟩
  · rw [k1, f1]; exact hd
  · intro n hn
    have hget0 : g0.node.get? n = if n ∈ N.map SNode.key then
        some (Graph.merged ((N.filter (fun s => decide (s.key = n))).map SNode.attrs) []) else none := by
      rw [hg0, Graph.addNodes_get?]
      have e1 : (N.map (fun n => (n.key, n.attrs))).map Prod.fst = N.map SNode.key := by
        rw [List.map_map]; rfl
      have e2 : ((N.map (fun n => (n.key, n.attrs))).filter (fun p => decide (p.1 = n))).map Prod.snd =
          (N.filter (fun s => decide (s.key = n))).map SNode.attrs := by
        rw [List.filter_map, List.map_map]; rfl
      rw [e1, e2]
      rfl
    have hnil : n ∉ N.map SNode.key → N.filter (fun s => decide (s.key = n)) = [] := by
      intro hx
      rw [List.filter_eq_nil_iff]
      intro s hs
      simp only [decide_eq_true_eq]
      rintro rfl
      exact hx (List.mem_map_of_mem hs)
    rw [Graph.addKeyed_get?, hget0]
    by_cases hx : n ∈ N.map SNode.key
    · rw [if_pos hx]; simp
    · rw [if_neg hx, hnil hx, if_pos]
      · rfl
      · rcases (hmem n).1 hn with h1 | ⟨e, he, h1⟩
        · exact absurd h1 hx
        · exact ⟨_, List.mem_map_of_mem he, h1⟩
  · intro u v
    rw [Graph.addKeyed_hasEdge, k1]
    have e1 : g0.hasEdge u v = false := by unfold Graph.hasEdge; rw [hempty]; rfl
    rw [e1]
    simp only [Bool.false_eq_true, false_or]
    constructor
    · rintro ⟨e, he, hx⟩
      obtain ⟨s, hs, rfl⟩ := List.mem_map.1 he
      exact ⟨s, hs, hx⟩
    · rintro ⟨s, hs, hx⟩
      exact ⟨_, List.mem_map_of_mem hs, hx⟩
  · intro u v
    rw [k1]
    refine ⟨?_, ?_, ?_⟩
    · intro hm a
      exact Graph.addKeyed_simple (by rw [f2, hm]) (hempty u v) a
    · intro hm hk k a
      refine Graph.addKeyed_keyed (by rw [f2, hm]) ?_ (hempty u v) k a
      intro e he
      obtain ⟨s, hs, rfl⟩ := List.mem_map.1 he
      change (if multi = true then s.key else none) ≠ none
      rw [if_pos hm]; exact hk s hs
    · intro hm hk k a
      unfold Graph.edge?
      rw [Graph.addKeyed_keyless (by rw [f2, hm]) ?_ ?_ (hempty u v)]
      · split
        · rename_i hb
          rw [hb]; simp
        · change Dict.get? (Graph.enumKeys 0 _) k = some a ↔ _
          rw [Graph.enumKeys_get?]
          constructor
          · rintro ⟨j, h1, h2⟩; exact ⟨j, by simpa using h2, h1⟩
          · rintro ⟨j, h1, h2⟩; exact ⟨j, h2, by simpa using h1⟩
      · intro e he
        obtain ⟨s, hs, rfl⟩ := List.mem_map.1 he
        change (if multi = true then s.key else none) = none
        rw [if_pos hm]; exact hk s hs
      · intro e he
        obtain ⟨s, hs, rfl⟩ := List.mem_map.1 he
        exact h.nodup.2.2 s hs

/-- C47: a document without options is refused. -/
theorem read_no_options {data : Dict PyKey Data} (h : data.get? (.str "options") = none) :
    ∃ t, readGraphologyJson (.dict data) = .error (.typeError t) := by
  refine ⟨"cannot parse a graphology json that does not record the graph options", ?_⟩
  change parseGraphologyJson data = _
  unfold parseGraphologyJson
  rw [h]

/-- C47: anything but a document (or a path, or a file: see C83) is refused. -/
theorem read_not_dict {x : Data} (h : ∀ d, x ≠ .dict d) (_hs : ∀ s, x ≠ .str s) :
    ∃ t, readGraphologyJson x = .error (.typeError t) := by
  refine ⟨"expected a path or a file", ?_⟩
  cases x <;> first | rfl | exact absurd rfl (h _)

/-! ### What does not hold, and concrete cases -/

/-- A multigraph with two parallel edges of keys `"x"` and `"y"`. -/
def keyedGraph : Graph PyKey Data where
  directed := false
  multi := true
  attrs := []
  node := [(.str "a", []), (.str "b", [])]
  links := [⟨.str "a", .str "b", [(.str "x", [(.str "w", .int 1)]), (.str "y", [])]⟩]

/-- C45, refuted for multigraphs: the keys of parallel edges are not written. -/
theorem graphology_multigraph_keys_lost :
    keyedGraph.WF ∧ Writable keyedGraph false false ∧ Readable keyedGraph ∧
      ∃ doc h, writeGraphologyJson keyedGraph false false = .ok doc ∧ readGraphologyJson (.dict doc) = .ok h ∧
        keyedGraph.edge? (.str "a") (.str "b") (.str "x") = some [(.str "w", .int 1)] ∧
        h.edge? (.str "a") (.str "b") (.str "x") = none ∧ ¬ Graph.Same h keyedGraph := by
  have hwf : keyedGraph.WF := by constructor <;> decide
  have hn : ∀ p ∈ keyedGraph.node, Graph.NodeKwSafe p.2 := by
    intro p hp
    simp only [keyedGraph, List.mem_cons, List.not_mem_nil, or_false] at hp
    rcases hp with rfl | rfl <;> intro k hk <;> cases hk
  have he : ∀ e ∈ keyedGraph.edgesData, Graph.EdgeKwSafe true e.2.2 := by
    have : keyedGraph.edgesData = [(.str "a", .str "b", [(.str "w", .int 1)]), (.str "a", .str "b", [])] := by rfl
    rw [this]
    intro e he
    simp only [List.mem_cons, List.not_mem_nil, or_false] at he
    rcases he with rfl | rfl
    · intro k hk
      simp only [Dict.keys_cons, Dict.keys_nil, List.mem_cons, List.not_mem_nil, or_false] at hk
      exact ⟨"w", hk, by simp⟩
    · intro k hk; cases hk
  have hr : Readable keyedGraph :=
    ⟨by simp [keyedGraph], (node_names hwf).1 hn, (edgesData_names hwf).1 he⟩
  have hw : Writable keyedGraph false false := (write_ok_iff hwf false false).1 ⟨_, rfl⟩
  refine ⟨hwf, hw, hr, _, _, rfl, rfl, rfl, rfl, ?_⟩
  intro hs
  exact absurd (hs.edge (.str "a") (.str "b") (.str "x")) (by intro h; cases h)

/-- C46, refuted for the attributes of the graph itself: a graph attribute whose name is not a string is written
as is, even when invalid names are not allowed, and reading it back raises. -/
theorem graphology_graph_attributes_unchecked :
    let g : Graph PyKey Data := ⟨false, false, [(.int 1, .str "v")], [], []⟩
    g.WF ∧ ∃ doc, writeGraphologyJson g false false = .ok doc ∧
      doc.get? (.str "attributes") = some (.dict [(.int 1, .str "v")]) ∧
      ∃ t, readGraphologyJson (.dict doc) = .error (.typeError t) := by
  refine ⟨by constructor <;> decide, _, rfl, rfl, _, rfl⟩

/-- C46: with `allow_mixed_keys`, `1` and `"1"` are given the same key, and reading back gives a single node. -/
theorem graphology_mixed_keys_conflate :
    let g : Graph PyKey Data := ⟨false, false, [], [(.int 1, []), (.str "1", [])], []⟩
    g.WF ∧ ∃ doc h, writeGraphologyJson g true false = .ok doc ∧ readGraphologyJson (.dict doc) = .ok h ∧
      h.nodes = [.str "1"] := by
  refine ⟨by constructor <;> decide, _, _, rfl, rfl, rfl⟩

/-- C46: `allow_mixed_keys` does not allow keys which are neither integers nor strings. -/
theorem write_invalid_key {g : Graph PyKey Data} (hwf : g.WF) {ty repr : String} (h : PyKey.other ty repr ∈ g.nodes)
    (m i : Bool) : ∃ t, writeGraphologyJson g m i = .error (.typeError t) :=
  write_error hwf (fun hw => hw.keys _ h)

/-- A directed graph with integer keys and attributes. -/
def intGraph : Graph PyKey Data where
  directed := true
  multi := false
  attrs := [(.str "name", .str "G")]
  node := [(.int 1, [(.str "label", .str "one")]), (.int (-2), []), (.int 3, [])]
  links := [⟨.int 1, .int (-2), [(.int 0, [(.str "weight", .int 4)])]⟩, ⟨.int 3, .int 3, [(.int 0, [])]⟩]

/-- The hypotheses of the round trip are met by `intGraph`. -/
theorem intGraph_ok : intGraph.WF ∧ Writable intGraph false false ∧ Readable intGraph := by
  have hwf : intGraph.WF := by constructor <;> decide
  have hn : ∀ p ∈ intGraph.node, Graph.NodeKwSafe p.2 := by
    intro p hp
    simp only [intGraph, List.mem_cons, List.not_mem_nil, or_false] at hp
    rcases hp with rfl | rfl | rfl
    · intro k hk
      simp only [Dict.keys_cons, Dict.keys_nil, List.mem_cons, List.not_mem_nil, or_false] at hk
      exact ⟨"label", hk, by simp⟩
    · intro k hk; cases hk
    · intro k hk; cases hk
  have he : ∀ e ∈ intGraph.edgesData, Graph.EdgeKwSafe false e.2.2 := by
    have : intGraph.edgesData = [(.int 1, .int (-2), [(.str "weight", .int 4)]), (.int 3, .int 3, [])] := by rfl
    rw [this]
    intro e he
    simp only [List.mem_cons, List.not_mem_nil, or_false] at he
    rcases he with rfl | rfl
    · intro k hk
      simp only [Dict.keys_cons, Dict.keys_nil, List.mem_cons, List.not_mem_nil, or_false] at hk
      exact ⟨"weight", hk, by simp⟩
    · intro k hk; cases hk
  refine ⟨hwf, (write_ok_iff hwf false false).1 ⟨_, rfl⟩, ?_, (node_names hwf).1 hn, (edgesData_names hwf).1 he⟩
  intro k hk
  simp only [intGraph, Dict.keys_cons, Dict.keys_nil, List.mem_cons, List.not_mem_nil, or_false] at hk
  exact ⟨"name", hk, by simp⟩

example : ∃ doc h, writeGraphologyJson intGraph false false = .ok doc ∧ readGraphologyJson (.dict doc) = .ok h ∧
    h.nodes = [.str "1", .str "-2", .str "3"] ∧
    h.edgesData = [(.str "1", .str "-2", [(.str "weight", .int 4)]), (.str "3", .str "3", [])] :=
  ⟨_, _, rfl, rfl, rfl, rfl⟩

/-- A document declared mixed, with one undirected edge and one edge which is not. -/
def mixedDoc (second : Bool) : Dict PyKey Data :=
  [(.str "options", .dict [(.str "type", .str "mixed"), (.str "multi", .bool false)]),
    (.str "nodes", .list [.dict [(.str "key", .int 1), (.str "attributes", .dict [(.str "a", .none)])]]),
    (.str "edges", .list [
      .dict [(.str "source", .int 1), (.str "target", .int 2), (.str "undirected", .bool true)],
      .dict [(.str "source", .int 2), (.str "target", .int 3), (.str "undirected", .bool second)]])]

/-- The hypotheses of `read_exact` and `read_true_mixed` are met by `mixedDoc`. -/
theorem mixedDoc_describes (second : Bool) :
    DescribesGraph (mixedDoc second) "mixed" false [] [⟨.int 1, [(.str "a", .none)]⟩]
      [⟨.int 1, .int 2, none, true, []⟩, ⟨.int 2, .int 3, none, second, []⟩] ∧
    Loadable false [] [⟨.int 1, [(.str "a", .none)]⟩]
      [⟨.int 1, .int 2, none, true, []⟩, ⟨.int 2, .int 3, none, second, []⟩] := by
  refine ⟨⟨⟨_, rfl, rfl, rfl⟩, .inl ⟨rfl, rfl⟩, .inr ⟨_, rfl, ?_⟩, .inr ⟨_, rfl, ?_⟩, ?_⟩, ?_, ?_, ?_⟩
  · exact .cons ⟨_, rfl, rfl, .inr rfl⟩ .nil
  · exact .cons ⟨_, rfl, rfl, rfl, .inl ⟨rfl, .inl rfl⟩, .inr rfl, .inl ⟨rfl, rfl⟩⟩
      (.cons ⟨_, rfl, rfl, rfl, .inl ⟨rfl, .inl rfl⟩, .inr rfl, .inl ⟨rfl, rfl⟩⟩ .nil)
  · simp [Dict.keys]
  · simp [Dict.keys]
  · simp [Graph.NodeKwSafe, Dict.keys]
  · simp [Graph.EdgeKwSafe, Dict.keys]

example : readGraphologyJson (.dict (mixedDoc false)) = .error (.typeError "cannot parse true mixed graphs") :=
  read_true_mixed (mixedDoc_describes false).1 (mixedDoc_describes false).2 (e := ⟨.int 1, .int 2, none, true, []⟩)
    (f := ⟨.int 2, .int 3, none, false, []⟩) (by simp) (by simp) (by simp)

example : ∃ g, readGraphologyJson (.dict (mixedDoc true)) = .ok g ∧ g.directed = false ∧
    g.nodes = [.int 1, .int 2, .int 3] ∧ g.hasEdge (.int 3) (.int 2) = true := ⟨_, rfl, rfl, rfl, rfl⟩

/-- What `str` does to the keys of nodes: strings are unchanged, the booleans are written as in Python, integers in
decimal, so that they can be read back. -/
theorem keyString_values :
    (∀ s, keyString (.str s) = .str s) ∧ keyString (.bool true) = .str "True" ∧ keyString (.bool false) = .str "False" ∧
    (∀ i j : Int, keyString (.int i) = keyString (.int j) → i = j) ∧ keyString (.int (-12)) = .str "-12" ∧
    ∀ t r, keyString (.other t r) = .str r := by
  refine ⟨fun _ => rfl, rfl, rfl, fun i j h => ?_, rfl, fun _ _ => rfl⟩
  have h : PyKey.toStr (.int i) = PyKey.toStr (.int j) := by
    unfold keyString at h
    injection h
  have h := toStr_inj (n := .int i) (m := .int j) trivial trivial rfl h
  injection h

/-- A boolean, or the number Python deems equal to it. -/
def LooseFlag (x y : Option Data) : Prop := x = y ∨ ∃ b : Bool, x = some (.bool b) ∧ y = some (.int (if b then 1 else 0))

/-- Two serialized edges that are the same but for `undirected`, which may be a number in the second. -/
def LooseEdge (x y : Data) : Prop :=
  ∃ f f' : Dict PyKey Data, x = .dict f ∧ y = .dict f' ∧ (∀ k, k ≠ .str "undirected" → f.get? k = f'.get? k) ∧
    LooseFlag (f.get? (.str "undirected")) (f'.get? (.str "undirected"))

theorem looseEdge_getD {x y : Data} (h : LooseEdge x y) {k : String} (hk : k ≠ "undirected") (d : Data) :
    x.getD k d = y.getD k d := by
  obtain ⟨f, f', rfl, rfl, h1, _⟩ := h
  simp only [Data.getD, h1 (.str k) (by simpa using hk)]

theorem looseEdge_item {x y : Data} (h : LooseEdge x y) {k : String} (hk : k ≠ "undirected") : x.item k = y.item k := by
  obtain ⟨f, f', rfl, rfl, h1, _⟩ := h
  simp only [Data.item, Dict.getItem, h1 (.str k) (by simpa using hk)]

theorem looseEdge_mixedValid {x y : Data} (h : LooseEdge x y) (directed : Bool) :
    mixedValid directed x = mixedValid directed y := by
  obtain ⟨f, f', rfl, rfl, _, h2 | ⟨b, h2, h3⟩⟩ := h
  · simp only [mixedValid, Data.getD, h2]
  · simp only [mixedValid, Data.getD, h2, h3]
    cases b <;> cases directed <;> rfl

theorem readEdges_loose {l l' : List Data} (h : List.Forall₂ LooseEdge l l') (mixed directed multi : Bool)
    (g : Graph PyKey Data) : readEdges mixed directed multi l g = readEdges mixed directed multi l' g := by
  induction h generalizing g with
  | nil => rfl
  | cons hd _ ih =>
    unfold readEdges
    rw [looseEdge_getD hd (k := "key") (by decide), looseEdge_getD hd (k := "attributes") (by decide),
      looseEdge_item hd (k := "source") (by decide), looseEdge_item hd (k := "target") (by decide),
      looseEdge_mixedValid hd]
    simp only [ih]

theorem mixedDirected_loose {l l' : List Data} (h : List.Forall₂ LooseEdge l l') :
    mixedDirected (.list l) = mixedDirected (.list l') := by
  cases h with
  | nil => rfl
  | cons hd _ =>
    obtain ⟨f, f', rfl, rfl, _, h2 | ⟨b, h2, h3⟩⟩ := hd
    · unfold mixedDirected
      simp only [Data.truthy, Data.first, Data.getD, List.isEmpty_cons, Bool.not_false, if_true, h2]
    · unfold mixedDirected
      simp only [Data.truthy, Data.first, Data.getD, List.isEmpty_cons, Bool.not_false, if_true, h2, h3,
        Option.getD_some]
      cases b <;> rfl

/-- C47.  Producers that write the flags of a document as numbers (`1` and `0`) are understood: the graph read, or the
error raised, is the same. -/
theorem read_numeric_flags {data data' : Dict PyKey Data} {o o' : Dict PyKey Data} {l l' : List Data}
    (ho : data.get? (.str "options") = some (.dict o)) (ho' : data'.get? (.str "options") = some (.dict o'))
    (ht : Dict.get? o (.str "type") = Dict.get? o' (.str "type"))
    (hm : LooseFlag (Dict.get? o (.str "multi")) (Dict.get? o' (.str "multi")))
    (ha : data.get? (.str "attributes") = data'.get? (.str "attributes"))
    (hn : data.get? (.str "nodes") = data'.get? (.str "nodes"))
    (he : data.get? (.str "edges") = some (.list l)) (he' : data'.get? (.str "edges") = some (.list l'))
    (hl : List.Forall₂ LooseEdge l l') :
    readGraphologyJson (.dict data) = readGraphologyJson (.dict data') := by
  unfold readGraphologyJson parseGraphologyJson
  simp only [ho, ho', ha, hn, he, he', Option.getD_some, Data.item, Dict.getItem, ht, mixedDirected_loose hl, readSome,
    Data.iter, readEdges_loose hl]
  rcases hm with hm | ⟨b, hm, hm'⟩
  · rw [hm]
  · rw [hm, hm']
    cases b <;> rfl

example : ∃ g, readGraphologyJson (.dict [
    (.str "options", .dict [(.str "type", .str "mixed"), (.str "multi", .int 0)]),
    (.str "edges", .list [.dict [(.str "source", .int 1), (.str "target", .int 2), (.str "undirected", .int 1)]])]) =
      .ok g ∧ g.directed = false ∧ g.multi = false ∧ g.hasEdge (.int 2) (.int 1) = true := ⟨_, rfl, rfl, rfl, rfl⟩

/-- `null` is not such a number: in a document declared mixed, a directed edge may leave `undirected` out but not set it
to `null`. -/
theorem read_null_flag_refused :
    readGraphologyJson (.dict [
      (.str "options", .dict [(.str "type", .str "mixed"), (.str "multi", .bool false)]),
      (.str "edges", .list [.dict [(.str "source", .int 1), (.str "target", .int 2), (.str "undirected", .none)]])]) =
      .error (.typeError "cannot parse true mixed graphs") ∧
    (readGraphologyJson (.dict [
      (.str "options", .dict [(.str "type", .str "mixed"), (.str "multi", .bool false)]),
      (.str "edges", .list [.dict [(.str "source", .int 1), (.str "target", .int 2)]])])).map (fun g => g.directed) =
      .ok true := ⟨rfl, rfl⟩

end Pelote
