import Verif.Spec.Document
import Verif.Lemmas.Bipartite
import Verif.Lemmas.GraphologyRead

/-! C88: exactly which values `read_graphology_json` accepts. -/
namespace Pelote

theorem truthy_iff (x : Data) : x.truthy = true ↔ Truthy x := by
  unfold Truthy
  cases x with
  | list l => cases l <;> simp [Data.truthy]
  | dict d => cases d <;> simp [Data.truthy]
  | _ => simp [Data.truthy]

theorem asNode_ok_iff {x : Data} {k : PyKey} : x.asNode = .ok k ↔ x = Data.ofKey k := by
  cases x <;> cases k <;> simp [Data.asNode, Data.asHashable, Data.ofKey]

theorem getD_attrs_iff {f : Dict PyKey Data} {a : Attrs Data} :
    ((f.get? (.str "attributes")).getD (.dict [])).asKwargs = .ok a ↔ DescribesAttrs f a := by
  unfold DescribesAttrs
  cases h : f.get? (.str "attributes") with
  | none => simp [Data.asKwargs, eq_comm]
  | some d => cases d <;> simp [Data.asKwargs]

theorem isOk_addNode {g : Graph PyKey Data} {n : PyKey} {a : Attrs Data} :
    (∃ g', g.addNode n a = .ok g') ↔ NamesOutside ["self", "node_for_adding"] a := by
  constructor
  · rintro ⟨g', h⟩; exact (addNode_ok_iff.1 h).1
  · intro h; exact ⟨_, addNode_ok_iff.2 ⟨h, rfl⟩⟩

theorem isOk_checkKwargs {reserved : List String} {a : Attrs Data} :
    Graph.checkKwargs reserved a = .ok () ↔ NamesOutside reserved a := checkKwargs_ok_iff

theorem readNodes_isOk (l : List Data) (g : Graph PyKey Data) :
    (∃ g', readNodes l g = .ok g' ∧ g'.multi = g.multi) ↔ ∀ x ∈ l, ReadNode x := by
  induction l generalizing g with
  | nil => simp [readNodes]
  | cons x l ih =>
    rw [List.forall_mem_cons]
    constructor
    · rintro ⟨g', h, hm⟩
      unfold readNodes at h
      cases x with
      | dict f =>
        simp only [Data.getD, Data.item, Dict.getItem] at h
        split at h
        · cases h
        · rename_i key hkey
          split at hkey
          · rename_i v hv
            cases hkey
            split at h
            · cases h
            · rename_i a ha
              split at h
              · cases h
              · rename_i k hk
                split at h
                · cases h
                · rename_i g1 hg
                  refine ⟨⟨f, k, a, rfl, by rw [hv, asNode_ok_iff.1 hk], getD_attrs_iff.1 ha, isOk_addNode.1 ⟨_, hg⟩⟩, ?_⟩
                  refine (ih g1).1 ⟨g', h, ?_⟩
                  rw [hm, (addNode_ok_iff.1 hg).2]; rfl
          · cases hkey
      | _ => simp [Data.getD] at h
    · rintro ⟨⟨f, k, a, rfl, h1, h2, h3⟩, hl⟩
      obtain ⟨g', hg, hm⟩ := (ih (g.addNodeCore k a)).2 hl
      refine ⟨g', ?_, hm⟩
      unfold readNodes
      simp only [Data.getD, Data.item, Dict.getItem, h1, getD_attrs_iff.2 h2, asNode_ofKey]
      rw [addNode_ok_iff.2 ⟨h3, rfl⟩]
      exact hg

theorem asKey_isOk {x : Data} : (∃ k, AttrVal.asKey x = (.ok k : Py (Option PyKey))) ↔ x = .none ∨ ∃ k, x = Data.ofKey k := by
  constructor
  · rintro ⟨k, h⟩
    cases x with
    | none => exact .inl rfl
    | bool b => exact .inr ⟨.bool b, rfl⟩
    | int i => exact .inr ⟨.int i, rfl⟩
    | str s => exact .inr ⟨.str s, rfl⟩
    | obj t r => exact .inr ⟨.other t r, rfl⟩
    | list l => cases h
    | dict d => cases h
  · rintro (rfl | ⟨k, rfl⟩)
    · exact ⟨_, rfl⟩
    · cases k <;> exact ⟨_, rfl⟩

theorem multi_addEdgeCore (g : Graph PyKey Data) (u v : PyKey) (k : Option PyKey) (a : Attrs Data) :
    (g.addEdgeCore u v k a).multi = g.multi := by
  simp only [Graph.addEdgeCore, Graph.ensureNode]
  split <;> split <;> rfl

theorem namesOutside_key {a : Attrs Data} :
    NamesOutside ["self", "u_for_edge", "v_for_edge", "key"] a ↔
      NamesOutside ["self", "u_for_edge", "v_for_edge"] a ∧ a.get? (.str "key") = none := by
  constructor
  · intro h
    refine ⟨fun k hk => ?_, ?_⟩
    · obtain ⟨s, rfl, hs⟩ := h k hk
      refine ⟨s, rfl, fun hm => hs ?_⟩
      simp only [List.mem_cons, List.not_mem_nil, or_false] at hm ⊢
      tauto
    · rw [Dict.get?_eq_none_iff]
      intro hc
      obtain ⟨s, hs, hn⟩ := h _ hc
      cases hs
      simp at hn
  · rintro ⟨h, hk⟩ k hm
    obtain ⟨s, rfl, hs⟩ := h k hm
    refine ⟨s, rfl, fun hx => ?_⟩
    simp only [List.mem_cons, List.not_mem_nil, or_false] at hs hx
    rcases hx with rfl | rfl | rfl | rfl
    · simp at hs
    · simp at hs
    · simp at hs
    · exact Dict.get?_eq_none_iff.1 hk hm

theorem addEdge_isOk {g : Graph PyKey Data} {u v : PyKey} {a : Attrs Data} :
    (∃ g', g.addEdge u v a = .ok g' ∧ g'.multi = g.multi) ↔
      (g.multi = false → NamesOutside ["self", "u_of_edge", "v_of_edge"] a) ∧
      (g.multi = true → NamesOutside ["self", "u_for_edge", "v_for_edge"] a ∧
        (NoField (a.get? (.str "key")) ∨ ∃ k, a.get? (.str "key") = some (Data.ofKey k))) := by
  unfold Graph.addEdge
  cases hm : g.multi with
  | false =>
    simp only [Bool.false_eq_true, if_false, true_implies, false_implies, and_true]
    rw [← isOk_checkKwargs]
    cases h : Graph.checkKwargs ["self", "u_of_edge", "v_of_edge"] a with
    | error e => simp
    | ok x => simp [multi_addEdgeCore, hm]
  | true =>
    simp only [if_true, Bool.true_eq_false, true_implies, false_implies, true_and]
    rw [← isOk_checkKwargs]
    cases h : Graph.checkKwargs ["self", "u_for_edge", "v_for_edge"] a with
    | error e => simp
    | ok x =>
      cases hk : a.get? (.str "key") with
      | none => simp [multi_addEdgeCore, hm, NoField]
      | some d =>
        have := @asKey_isOk d
        cases hd : (AttrVal.asKey d : Py (Option PyKey)) with
        | error e =>
          rw [hd] at this
          simp only [reduceCtorEq, exists_false, false_iff] at this
          simp only [hd, reduceCtorEq, false_and, exists_false, true_and, NoField, false_or, Option.some.injEq, false_iff]
          exact this
        | ok k =>
          rw [hd] at this
          simp only [Except.ok.injEq, exists_eq', true_iff] at this
          simp only [hd, Except.ok.injEq, exists_eq_left', multi_addEdgeCore, hm, NoField, reduceCtorEq, false_or,
            Option.some.injEq, true_and, true_iff]
          exact this

theorem addEdgeKey_isOk {g : Graph PyKey Data} {u v k : PyKey} {a : Attrs Data} :
    (∃ g', g.addEdgeKey u v k a = .ok g' ∧ g'.multi = g.multi) ↔
      NamesOutside ["self", "u_for_edge", "v_for_edge"] a ∧ a.get? (.str "key") = none := by
  unfold Graph.addEdgeKey
  rw [← namesOutside_key, ← isOk_checkKwargs]
  cases h : Graph.checkKwargs ["self", "u_for_edge", "v_for_edge", "key"] a with
  | error e => simp
  | ok x => simp [multi_addEdgeCore]

theorem hashable_iff {x : Data} (hx : x ≠ .none) : (∃ k, x.asHashable = .ok k) ↔ ∃ k, x = Data.ofKey k := by
  constructor
  · rintro ⟨k, h⟩
    refine ⟨k, asNode_ok_iff.1 ?_⟩
    cases x <;> first | exact absurd rfl hx | exact h
  · rintro ⟨k, rfl⟩; exact ⟨k, asHashable_ofKey k⟩

theorem readAddEdge_isOk {g : Graph PyKey Data} {source target : Data} {key : Option Data} {a : Attrs Data} :
    (∃ g', readAddEdge g g.multi source target (key.getD .none) a = .ok g' ∧ g'.multi = g.multi) ↔
      (∃ s, source = Data.ofKey s) ∧ (∃ t, target = Data.ofKey t) ∧
      (g.multi = false → NamesOutside ["self", "u_of_edge", "v_of_edge"] a) ∧
      (g.multi = true → NamesOutside ["self", "u_for_edge", "v_for_edge"] a ∧ ReadKey key (a.get? (.str "key"))) := by
  unfold readAddEdge
  cases hs : source.asNode with
  | error e =>
    have : ¬ ∃ s, source = Data.ofKey s := by
      rintro ⟨s, rfl⟩; rw [asNode_ofKey] at hs; cases hs
    simp [this]
  | ok s =>
    have hs : ∃ s, source = Data.ofKey s := ⟨s, asNode_ok_iff.1 hs⟩
    simp only [hs, true_and]
    cases ht : target.asNode with
    | error e =>
      have : ¬ ∃ s, target = Data.ofKey s := by
        rintro ⟨s, rfl⟩; rw [asNode_ofKey] at ht; cases ht
      simp [this]
    | ok t =>
      have ht : ∃ s, target = Data.ofKey s := ⟨t, asNode_ok_iff.1 ht⟩
      simp only [ht, true_and]
      by_cases hk : NoField key
      · have h1 : key.getD .none = .none := by rcases hk with rfl | rfl <;> rfl
        have h2 : ¬ ∃ k, key = some (Data.ofKey k) := by
          rintro ⟨k, rfl⟩
          rcases hk with hk | hk
          · cases hk
          · cases k <;> cases hk
        simp only [h1, addEdge_isOk, ReadKey, hk, h2, and_false, or_false, true_and]
      · obtain ⟨d, rfl⟩ : ∃ d, key = some d := by
          cases key with
          | none => exact absurd (.inl rfl) hk
          | some d => exact ⟨d, rfl⟩
        have hd : d ≠ .none := fun h => hk (.inr (by rw [h]))
        have hmatch : ∀ (p q : Py (Graph PyKey Data)), (match (some d).getD .none with
            | .none => p
            | _ => q) = q := by
          intro p q
          cases d <;> first | exact absurd rfl hd | rfl
        cases hm : g.multi with
        | false =>
          simp only [Bool.false_eq_true, if_false, true_implies, false_implies, and_true]
          have h3 := @addEdge_isOk g s t a
          simp only [hm, true_implies, Bool.false_eq_true, false_implies, and_true] at h3
          rw [← h3]
          cases d <;> first | exact absurd rfl hd | rfl
        | true =>
          simp only [if_true, Bool.true_eq_false, true_implies, false_implies, true_and]
          have h3 : ReadKey (some d) (a.get? (.str "key")) ↔
              a.get? (.str "key") = none ∧ ∃ k, d = Data.ofKey k := by
            unfold ReadKey
            simp [hk]
          rw [h3, ← hashable_iff hd, ← and_assoc, ← addEdgeKey_isOk (g := g) (u := s) (v := t) (k := .int 0)]
          cases hh : d.asHashable with
          | error e =>
            cases d <;> first | exact absurd rfl hd | (cases hh; done) | simp [Data.asHashable]
          | ok k =>
            have h4 : (∃ g', g.addEdgeKey s t k a = .ok g' ∧ g'.multi = g.multi) ↔
                ∃ g', g.addEdgeKey s t (.int 0) a = .ok g' ∧ g'.multi = g.multi := by
              rw [addEdgeKey_isOk, addEdgeKey_isOk]
            simp only [Except.ok.injEq, exists_eq', and_true]
            rw [hm] at h4
            rw [hm, ← h4]
            cases d <;> first | exact absurd rfl hd | (cases hh; done) | (cases hh; rfl)

theorem addEdge_multi {g g' : Graph PyKey Data} {u v : PyKey} {a : Attrs Data} (h : g.addEdge u v a = .ok g') :
    g'.multi = g.multi := by
  unfold Graph.addEdge at h
  repeat' split at h
  all_goals cases h
  all_goals exact multi_addEdgeCore ..

theorem addEdgeKey_multi {g g' : Graph PyKey Data} {u v k : PyKey} {a : Attrs Data} (h : g.addEdgeKey u v k a = .ok g') :
    g'.multi = g.multi := by
  unfold Graph.addEdgeKey at h
  split at h <;> cases h
  exact multi_addEdgeCore ..

theorem readAddEdge_multi {g g' : Graph PyKey Data} {multi : Bool} {source target key : Data} {a : Attrs Data}
    (h : readAddEdge g multi source target key a = .ok g') : g'.multi = g.multi := by
  unfold readAddEdge at h
  split at h
  · cases h
  · split at h
    · cases h
    · split at h
      · exact addEdge_multi h
      · split at h
        · split at h
          · cases h
          · exact addEdgeKey_multi h
        · exact addEdge_multi h

theorem readEdges_isOk (mixed directed : Bool) (l : List Data) (g : Graph PyKey Data) :
    (∃ g', readEdges mixed directed g.multi l g = .ok g' ∧ g'.multi = g.multi) ↔
      ∀ x ∈ l, ReadEdge g.multi x ∧ (mixed = true → EdgeFlag (!directed) x) := by
  induction l generalizing g with
  | nil => simp [readEdges]
  | cons x l ih =>
    rw [List.forall_mem_cons]
    have hstep : ∀ {g1 : Graph PyKey Data}, g1.multi = g.multi →
        ((∃ g', readEdges mixed directed g.multi l g1 = .ok g' ∧ g'.multi = g.multi) ↔
          ∀ x ∈ l, ReadEdge g.multi x ∧ (mixed = true → EdgeFlag (!directed) x)) := by
      intro g1 h1
      have := ih g1
      rw [h1] at this
      exact this
    have hflag : ∀ f : Dict PyKey Data,
        (if mixed = true then mixedValid directed (.dict f) else .ok true) = (.ok true : Py Bool) ↔
          (mixed = true → EdgeFlag (!directed) (.dict f)) := by
      intro f
      cases mixed with
      | false => simp
      | true =>
        simp only [if_true, true_implies, mixedValid, Data.getD, Except.ok.injEq]
        constructor
        · intro h
          refine ⟨f, rfl, ?_⟩
          cases hu : f.get? (.str "undirected") with
          | none =>
            rw [hu] at h
            simp only [Option.getD_none, Data.eqBool, decide_eq_true_eq] at h
            exact .inl ⟨h.symm, rfl⟩
          | some d =>
            rw [hu] at h
            simp only [Option.getD_some] at h
            cases d with
            | bool b => simp only [Data.eqBool, decide_eq_true_eq] at h; rw [h]; exact .inr (.inl rfl)
            | int i => simp only [Data.eqBool, decide_eq_true_eq] at h; rw [h]; exact .inr (.inr rfl)
            | _ => simp [Data.eqBool] at h
        · rintro ⟨f', hf, h⟩
          cases hf
          rcases h with ⟨h1, h⟩ | h | h
          · rw [h]; simp [Data.eqBool, h1]
          · rw [h]; simp [Data.eqBool]
          · rw [h]; simp [Data.eqBool]
    constructor
    · rintro ⟨g', h, hm⟩
      unfold readEdges at h
      cases x with
      | dict f =>
        simp only [Data.getD, Data.item, Dict.getItem] at h
        split at h
        · cases h
        · rename_i source hsource
          split at hsource
          · rename_i v hv
            cases hsource
            split at h
            · cases h
            · rename_i target htarget
              split at htarget
              · rename_i w hw
                cases htarget
                split at h
                · cases h
                · cases h
                · rename_i hvalid
                  split at h
                  · cases h
                  · rename_i a ha
                    split at h
                    · cases h
                    · rename_i g1 hg
                      have hg1 : g1.multi = g.multi := readAddEdge_multi hg
                      obtain ⟨⟨s, h1⟩, ⟨t, h2⟩, h3, h4⟩ := readAddEdge_isOk.1 ⟨g1, hg, hg1⟩
                      exact ⟨⟨⟨f, s, t, a, rfl, by rw [hv, h1], by rw [hw, h2], getD_attrs_iff.1 ha, h3, h4⟩,
                        (hflag f).1 hvalid⟩, (hstep hg1).1 ⟨g', h, hm⟩⟩
              · cases htarget
          · cases hsource
      | _ => simp [Data.getD] at h
    · rintro ⟨⟨⟨f, s, t, a, rfl, h1, h2, h3, h4, h5⟩, hfl⟩, hl⟩
      obtain ⟨g1, hg, hg1⟩ := (readAddEdge_isOk (g := g) (key := f.get? (.str "key"))).2 ⟨⟨s, rfl⟩, ⟨t, rfl⟩, h4, h5⟩
      obtain ⟨g', h6, h7⟩ := (hstep hg1).2 hl
      refine ⟨g', ?_, h7⟩
      unfold readEdges
      simp only [Data.getD, Data.item, Dict.getItem, h1, h2, getD_attrs_iff.2 h3, (hflag f).2 hfl, hg]
      exact h6

theorem readSome_isOk {P : Data → Prop} {f : List Data → Graph PyKey Data → Py (Graph PyKey Data)} {m : Bool}
    (hf : ∀ l g, g.multi = m → ((∃ g', f l g = .ok g' ∧ g'.multi = m) ↔ ∀ x ∈ l, P x)) (hP : ∀ x, P x → ∃ d, x = .dict d)
    (o : Option Data) (g : Graph PyKey Data) (hg : g.multi = m) :
    (∃ g', readSome f (o.getD .none) g = .ok g' ∧ g'.multi = m) ↔ Listing P o := by
  have hnil : ∃ g', f [] g = .ok g' ∧ g'.multi = m := (hf [] g hg).2 (by simp)
  have hofKey : ∀ k : PyKey, ¬ P (Data.ofKey k) := by
    intro k h
    obtain ⟨d, hd⟩ := hP _ h
    cases k <;> cases hd
  unfold Listing NoField
  cases o with
  | none => simp [readSome, hg]
  | some d =>
    cases d with
    | none => simp [readSome, hg]
    | list l => simpa [readSome, Data.iter] using hf l g hg
    | dict d =>
      cases d with
      | nil => simpa [readSome, Data.iter] using hnil
      | cons p d =>
        have := hf (Data.ofKey p.1 :: d.map (fun p => Data.ofKey p.1)) g hg
        simp only [List.forall_mem_cons, hofKey, false_and, iff_false] at this
        simpa [readSome, Data.iter] using this
    | str s =>
      simp only [Option.getD_some, readSome, Data.iter, reduceCtorEq, Option.some.injEq, Data.str.injEq, false_or,
        false_and, exists_false, or_false]
      cases hs : s.toList with
      | nil =>
        have : s = "" := by rw [← String.toList_eq_nil_iff]; exact hs
        simpa [this] using hnil
      | cons c cs =>
        have hne : s ≠ "" := by rintro rfl; cases hs
        have := hf ((c :: cs).map (fun c => Data.str (String.singleton c))) g hg
        simp only [List.map_cons, List.forall_mem_cons] at this
        simp only [List.map_cons, hne, iff_false]
        rw [this]
        rintro ⟨h, _⟩
        exact hofKey (.str _) h
    | _ => simp [readSome, Data.iter]

theorem newGraph_isOk {directed multi : Bool} {d : Dict PyKey Data} :
    (∃ g, newGraph directed multi ((d.get? (.str "attributes")).getD (.dict [])) = .ok g ∧ g.multi = multi) ↔
      ∃ a, DescribesAttrs d a ∧ NamesOutside ["self", "incoming_graph_data"] a := by
  have hout : ∀ a : Attrs Data, NamesOutside ["self", "incoming_graph_data"] a ↔
      NamesOutside ["self"] a ∧ a.has (.str "incoming_graph_data") = false := by
    intro a
    constructor
    · intro h
      refine ⟨fun k hk => ?_, ?_⟩
      · obtain ⟨s, rfl, hs⟩ := h k hk
        exact ⟨s, rfl, fun hm => hs (by simp only [List.mem_cons, List.not_mem_nil, or_false] at hm ⊢; exact .inl hm)⟩
      · by_contra hc
        obtain ⟨s, hs, hn⟩ := h _ (Dict.has_iff.1 (by simpa using hc))
        cases hs
        simp at hn
    · rintro ⟨h, hk⟩ k hm
      obtain ⟨s, rfl, hs⟩ := h k hm
      refine ⟨s, rfl, fun hx => ?_⟩
      simp only [List.mem_cons, List.not_mem_nil, or_false] at hs hx
      rcases hx with rfl | rfl
      · exact hs rfl
      · rw [Dict.has_iff.2 hm] at hk; cases hk
  unfold newGraph
  constructor
  · rintro ⟨g, h, _⟩
    split at h
    · cases h
    · rename_i a ha
      split at h
      · cases h
      · rename_i hc
        split at h
        · cases h
        · rename_i hi
          exact ⟨a, getD_attrs_iff.1 ha, (hout a).2 ⟨isOk_checkKwargs.1 hc, by simpa using hi⟩⟩
  · rintro ⟨a, h1, h2⟩
    rw [getD_attrs_iff.2 h1]
    simp only
    rw [isOk_checkKwargs.2 ((hout a).1 h2).1]
    simp only [((hout a).1 h2).2, Bool.false_eq_true, if_false]
    exact ⟨_, rfl, rfl⟩

theorem readNode_dict {x : Data} (h : ReadNode x) : ∃ d, x = .dict d := by
  obtain ⟨f, _, _, h, _⟩ := h; exact ⟨f, h⟩

theorem readEdge_dict {m : Bool} {x : Data} (h : ReadEdge m x) : ∃ d, x = .dict d := by
  obtain ⟨f, _, _, _, h, _⟩ := h; exact ⟨f, h⟩

theorem Listing.imp {P Q : Data → Prop} {o : Option Data} (h : Listing P o) (hPQ : ∀ x, P x → Q x) : Listing Q o := by
  rcases h with h | h | h | ⟨l, h, hl⟩
  · exact .inl h
  · exact .inr (.inl h)
  · exact .inr (.inr (.inl h))
  · exact .inr (.inr (.inr ⟨l, h, fun x hx => hPQ x (hl x hx)⟩))

/-- What `mixed` documents need. -/
theorem mixedDirected_flag {o : Option Data} {b : Bool} (h : Listing (EdgeFlag b) o) :
    mixedDirected (o.getD .none) = .ok true ∧ (∀ l, o = some (.list l) → l = []) ∨
      mixedDirected (o.getD .none) = .ok (!b) := by
  rcases h with (rfl | rfl) | rfl | rfl | ⟨l, rfl, hl⟩
  · exact .inl ⟨rfl, by simp⟩
  · exact .inl ⟨rfl, by simp⟩
  · exact .inl ⟨rfl, by simp⟩
  · exact .inl ⟨rfl, by simp⟩
  · cases l with
    | nil => exact .inl ⟨rfl, by simp⟩
    | cons x l =>
      right
      obtain ⟨f, rfl, h⟩ := hl x List.mem_cons_self
      simp only [Option.getD_some, mixedDirected, Data.truthy, Data.first, Data.getD, List.isEmpty_cons, Bool.not_false,
        if_true]
      rcases h with ⟨rfl, h⟩ | h | h
      · rw [h]; rfl
      · rw [h]; rfl
      · rw [h]; cases b <;> rfl

theorem readNodes_multi {l : List Data} {g g' : Graph PyKey Data} (h : readNodes l g = .ok g') : g'.multi = g.multi := by
  induction l generalizing g with
  | nil => cases h; rfl
  | cons x l ih =>
    unfold readNodes at h
    repeat' split at h
    all_goals first | (cases h; done) | skip
    rename_i hg
    rw [ih h, (addNode_ok_iff.1 hg).2]
    rfl

theorem readEdges_multi {mixed directed multi : Bool} {l : List Data} {g g' : Graph PyKey Data}
    (h : readEdges mixed directed multi l g = .ok g') : g'.multi = g.multi := by
  induction l generalizing g with
  | nil => cases h; rfl
  | cons x l ih =>
    unfold readEdges at h
    repeat' split at h
    all_goals first | (cases h; done) | skip
    all_goals
      rename_i hg
      rw [ih h, readAddEdge_multi hg]

theorem readSome_multi {f : List Data → Graph PyKey Data → Py (Graph PyKey Data)}
    (hf : ∀ l g g', f l g = .ok g' → g'.multi = g.multi) {x : Data} {g g' : Graph PyKey Data}
    (h : readSome f x g = .ok g') : g'.multi = g.multi := by
  unfold readSome at h
  split at h
  · cases h; rfl
  · split at h
    · cases h
    · exact hf _ _ _ h

/-- C88.  Exactly which values are read as a graph. -/
theorem read_accepts (x : Data) : (∃ g, readGraphologyJson x = .ok g) ↔ ReadDocument x := by
  cases x with
  | dict d =>
    simp only [readGraphologyJson]
    constructor
    · rintro ⟨g, h⟩
      unfold parseGraphologyJson at h
      split at h
      · cases h
      · rename_i options ho
        cases options with
        | dict o =>
          simp only [Data.item, Dict.getItem] at h
          split at h
          · cases h
          · rename_i type htype
            split at htype
            · rename_i ty hty
              cases htype
              split at h
              · cases h
              · rename_i directed hdir
                split at h
                · cases h
                · rename_i multi hmulti
                  split at hmulti
                  · rename_i mu hmu
                    cases hmulti
                    split at h
                    · cases h
                    · rename_i g0 hg0
                      have hm0 : g0.multi = multi.truthy := by
                        unfold newGraph at hg0
                        repeat' split at hg0
                        all_goals cases hg0
                        rfl
                      split at h
                      · cases h
                      · rename_i g1 hg1
                        have hm1 : g1.multi = multi.truthy := (readSome_multi (fun _ _ _ h => readNodes_multi h) hg1).trans hm0
                        have hm2 : g.multi = multi.truthy := (readSome_multi (fun _ _ _ h => readEdges_multi h) h).trans hm1
                        obtain ⟨a, ha, hna⟩ := newGraph_isOk.1 ⟨g0, hg0, hm0⟩
                        have hN := (readSome_isOk (P := ReadNode) (f := readNodes) (m := multi.truthy)
                          (fun l g hg => by rw [← readNodes_isOk l g, hg]) (fun x => readNode_dict) _ g0 hm0).1 ⟨g1, hg1, hm1⟩
                        have hE := (readSome_isOk
                          (P := fun x => ReadEdge multi.truthy x ∧ (type.eqStr "mixed" = true → EdgeFlag (!directed) x))
                          (f := readEdges (type.eqStr "mixed") directed multi.truthy) (m := multi.truthy)
                          (fun l g hg => by rw [← hg]; exact readEdges_isOk ..)
                          (fun x hx => readEdge_dict hx.1) _ g1 hm1).1 ⟨g, h, hm2⟩
                        refine ⟨d, o, type, multi, multi.truthy, a, rfl, ho, hty, hmu, truthy_iff _, ha, hna, hN,
                          hE.imp (fun x hx => hx.1), ?_⟩
                        rintro rfl
                        exact ⟨!directed, hE.imp (fun x hx => hx.2 rfl)⟩
                  · cases hmulti
            · cases htype
        | _ => simp [Data.item] at h
    · rintro ⟨d', o, type, multi, m, a, hd, ho, hty, hmu, hm, ha, hna, hN, hE, hF⟩
      cases hd
      have hm : multi.truthy = m := by
        have := (truthy_iff multi).trans hm.symm
        cases h : multi.truthy <;> cases m <;> simp_all
      subst hm
      unfold parseGraphologyJson
      simp only [ho, Data.item, Dict.getItem, hty, hmu]
      have key : ∀ directed, Listing (fun x => ReadEdge multi.truthy x ∧
          (type.eqStr "mixed" = true → EdgeFlag (!directed) x)) (Dict.get? d (.str "edges")) →
          ∃ g, (match newGraph directed multi.truthy ((Dict.get? d (.str "attributes")).getD (.dict [])) with
          | .error e => .error e
          | .ok g =>
            match readSome readNodes ((Dict.get? d (.str "nodes")).getD .none) g with
            | .error e => .error e
            | .ok g => readSome (readEdges (type.eqStr "mixed") directed multi.truthy)
                ((Dict.get? d (.str "edges")).getD .none) g) = (.ok g : Py (Graph PyKey Data)) := by
        intro directed hl
        obtain ⟨g0, h0, hm0⟩ := (newGraph_isOk (directed := directed) (multi := multi.truthy)).2 ⟨a, ha, hna⟩
        obtain ⟨g1, h1, hm1⟩ := (readSome_isOk (P := ReadNode) (f := readNodes) (m := multi.truthy)
          (fun l g hg => by rw [← readNodes_isOk l g, hg]) (fun x => readNode_dict) _ g0 hm0).2 hN
        obtain ⟨g2, h2, _⟩ := (readSome_isOk
          (P := fun x => ReadEdge multi.truthy x ∧ (type.eqStr "mixed" = true → EdgeFlag (!directed) x))
          (f := readEdges (type.eqStr "mixed") directed multi.truthy) (m := multi.truthy)
          (fun l g hg => by rw [← hg]; exact readEdges_isOk ..) (fun x hx => readEdge_dict hx.1) _ g1 hm1).2 hl
        exact ⟨g2, by rw [h0]; simp only [h1, h2]⟩
      cases hmx : type.eqStr "mixed" with
      | false =>
        rw [hmx] at key
        simp only [Bool.false_eq_true, if_false]
        exact key _ (hE.imp (fun x hx => ⟨hx, by simp⟩))
      | true =>
        have hty' : type = .str "mixed" := by
          cases type with
          | str s => simpa [Data.eqStr] using hmx
          | _ => simp [Data.eqStr] at hmx
        obtain ⟨b, hb⟩ := hF hty'
        rw [hmx] at key
        simp only [if_true]
        rcases mixedDirected_flag hb with ⟨h1, h2⟩ | h1
        · rw [h1]
          refine key true ?_
          rcases hE with h | h | h | ⟨l, h, hl⟩
          · exact .inl h
          · exact .inr (.inl h)
          · exact .inr (.inr (.inl h))
          · exact .inr (.inr (.inr ⟨l, h, by rw [h2 l h]; simp⟩))
        · rw [h1]
          refine key (!b) ?_
          rcases hE with h | h | h | ⟨l, h, hl⟩
          · exact .inl h
          · exact .inr (.inl h)
          · exact .inr (.inr (.inl h))
          · refine .inr (.inr (.inr ⟨l, h, fun x hx => ⟨hl x hx, fun _ => ?_⟩⟩))
            rcases hb with h' | h' | h' | ⟨l', h', hl'⟩
            · rcases h' with h' | h' <;> rw [h] at h' <;> cases h'
            · rw [h] at h'; cases h'
            · rw [h] at h'; cases h'
            · rw [h] at h'; cases h'; rw [Bool.not_not]; exact hl' x hx
  | _ =>
    simp only [readGraphologyJson, reduceCtorEq, exists_false, false_iff]
    rintro ⟨_, _, _, _, _, _, h, _⟩
    cases h

/-- The exceptions a document may raise. -/
def ReadError (e : PyErr) : Prop :=
  e = .keyError ∨ e = .attributeError ∨ e = .valueError ∨ e = .networkxError ∨ ∃ t, e = .typeError t

theorem readError_typeError (t : String) : ReadError (.typeError t) := .inr (.inr (.inr (.inr ⟨t, rfl⟩)))

theorem readError_getD {x d : Data} {k : String} {e : PyErr} (h : x.getD k d = .error e) : ReadError e := by
  cases x <;> cases h <;> exact .inr (.inl rfl)

theorem readError_getItem {f : Dict PyKey Data} {k : PyKey} {e : PyErr} (h : f.getItem k = .error e) : ReadError e := by
  unfold Dict.getItem at h
  split at h <;> cases h
  exact .inl rfl

theorem readError_item {x : Data} {k : String} {e : PyErr} (h : x.item k = .error e) : ReadError e := by
  cases x with
  | dict f => exact readError_getItem h
  | _ => cases h; exact readError_typeError _

theorem readError_asKwargs {x : Data} {e : PyErr} (h : x.asKwargs = .error e) : ReadError e := by
  cases x <;> cases h <;> exact readError_typeError _

theorem readError_asHashable {x : Data} {e : PyErr} (h : x.asHashable = .error e) : ReadError e := by
  cases x <;> cases h <;> exact readError_typeError _

theorem readError_asNode {x : Data} {e : PyErr} (h : x.asNode = .error e) : ReadError e := by
  cases x <;> cases h
  · exact .inr (.inr (.inl rfl))
  all_goals exact readError_typeError _

theorem readError_checkKwargs {r : List String} {a : Attrs Data} {e : PyErr} (h : Graph.checkKwargs r a = .error e) :
    ReadError e := by
  unfold Graph.checkKwargs at h
  split at h
  · split at h <;> cases h
    exact readError_typeError _
  · cases h
    exact readError_typeError _

theorem readError_asKey {x : Data} {e : PyErr} (h : (AttrVal.asKey x : Py (Option PyKey)) = .error e) : ReadError e := by
  cases x <;> cases h <;> exact readError_typeError _

theorem readError_addNode {g : Graph PyKey Data} {n : PyKey} {a : Attrs Data} {e : PyErr} (h : g.addNode n a = .error e) :
    ReadError e := by
  unfold Graph.addNode at h
  split at h <;> cases h
  rename_i hc
  exact readError_checkKwargs hc

theorem readError_addEdge {g : Graph PyKey Data} {u v : PyKey} {a : Attrs Data} {e : PyErr}
    (h : g.addEdge u v a = .error e) : ReadError e := by
  unfold Graph.addEdge at h
  split at h
  · split at h
    · rename_i hc; cases h; exact readError_checkKwargs hc
    · split at h
      · cases h
      · split at h <;> cases h
        rename_i hc
        exact readError_asKey hc
  · split at h <;> cases h
    rename_i hc
    exact readError_checkKwargs hc

theorem readError_readAddEdge {g : Graph PyKey Data} {multi : Bool} {s t k : Data} {a : Attrs Data} {e : PyErr}
    (h : readAddEdge g multi s t k a = .error e) : ReadError e := by
  unfold readAddEdge at h
  split at h
  · rename_i hs; cases h; exact readError_asNode hs
  · split at h
    · rename_i hs; cases h; exact readError_asNode hs
    · split at h
      · exact readError_addEdge h
      · split at h
        · split at h
          · rename_i hs; cases h; exact readError_asHashable hs
          · unfold Graph.addEdgeKey at h
            split at h <;> cases h
            rename_i hc
            exact readError_checkKwargs hc
        · exact readError_addEdge h

theorem readError_readNodes {l : List Data} {g : Graph PyKey Data} {e : PyErr} (h : readNodes l g = .error e) :
    ReadError e := by
  induction l generalizing g with
  | nil => cases h
  | cons x l ih =>
    unfold readNodes at h
    split at h
    · rename_i hx; cases h; exact readError_getD hx
    · split at h
      · rename_i hx; cases h; exact readError_item hx
      · split at h
        · rename_i hx; cases h; exact readError_asKwargs hx
        · split at h
          · rename_i hx; cases h; exact readError_asNode hx
          · split at h
            · rename_i hx; cases h; exact readError_addNode hx
            · exact ih h

theorem readError_mixedValid {directed : Bool} {x : Data} {e : PyErr} (h : mixedValid directed x = .error e) :
    ReadError e := by
  unfold mixedValid at h
  split at h <;> cases h
  rename_i hx
  exact readError_getD hx

theorem readError_readEdges {mixed directed multi : Bool} {l : List Data} {g : Graph PyKey Data} {e : PyErr}
    (h : readEdges mixed directed multi l g = .error e) : ReadError e := by
  induction l generalizing g with
  | nil => cases h
  | cons x l ih =>
    unfold readEdges at h
    split at h
    · rename_i hx; cases h; exact readError_getD hx
    · split at h
      · rename_i hx; cases h; exact readError_getD hx
      · split at h
        · rename_i hx; cases h; exact readError_item hx
        · split at h
          · rename_i hx; cases h; exact readError_item hx
          · split at h
            · rename_i hx
              cases h
              split at hx
              · exact readError_mixedValid hx
              · cases hx
            · cases h; exact readError_typeError _
            · split at h
              · rename_i hx; cases h; exact readError_asKwargs hx
              · split at h
                · rename_i hx; cases h; exact readError_readAddEdge hx
                · exact ih h

theorem readError_iter {x : Data} {e : PyErr} (h : x.iter = .error e) : ReadError e := by
  cases x <;> cases h <;> exact readError_typeError _

theorem readError_readSome {f : List Data → Graph PyKey Data → Py (Graph PyKey Data)}
    (hf : ∀ l g e, f l g = .error e → ReadError e) {x : Data} {g : Graph PyKey Data} {e : PyErr}
    (h : readSome f x g = .error e) : ReadError e := by
  unfold readSome at h
  split at h
  · cases h
  · split at h
    · rename_i hx
      cases h
      exact readError_iter hx
    · exact hf _ _ _ h

theorem readError_mixedDirected {x : Data} {e : PyErr} (h : mixedDirected x = .error e) : ReadError e := by
  unfold mixedDirected at h
  split at h
  · rename_i ht
    split at h
    · rename_i hx
      cases h
      cases x with
      | list l => cases l with
        | nil => cases ht
        | cons y l => cases hx
      | dict d => exact readError_getItem hx
      | str s =>
        unfold Data.first at hx
        simp only at hx
        split at hx
        · cases hx
        · rename_i hs
          rw [String.toList_eq_nil_iff] at hs
          subst hs
          cases ht
      | _ => cases hx <;> exact readError_typeError _
    · split at h
      · rename_i hx; cases h; exact readError_getD hx
      · cases h
  · cases h

/-- C88.  Whatever the value, reading it raises nothing but `TypeError`, `KeyError`, `AttributeError`, `ValueError` or
`NetworkXError` (the latter for a graph attribute named `incoming_graph_data`). -/
theorem read_raises {x : Data} {e : PyErr} (h : readGraphologyJson x = .error e) : ReadError e := by
  cases x with
  | dict d =>
    simp only [readGraphologyJson] at h
    unfold parseGraphologyJson at h
    split at h
    · cases h; exact readError_typeError _
    · split at h
      · rename_i hx; cases h; exact readError_item hx
      · simp only at h
        split at h
        · rename_i hx
          cases h
          split at hx
          · exact readError_mixedDirected hx
          · cases hx
        · split at h
          · rename_i hx; cases h; exact readError_item hx
          · split at h
            · rename_i hx
              cases h
              unfold newGraph at hx
              split at hx
              · rename_i ha; cases hx; exact readError_asKwargs ha
              · split at hx
                · rename_i ha; cases hx; exact readError_checkKwargs ha
                · split at hx <;> cases hx
                  exact .inr (.inr (.inr (.inl rfl)))
            · split at h
              · rename_i hx; cases h; exact readError_readSome (fun _ _ _ => readError_readNodes) hx
              · exact readError_readSome (fun _ _ _ => readError_readEdges) h
  | _ => cases h; exact readError_typeError _

theorem readNodes_defect {l1 l2 : List Data} {x : Data} {g : Graph PyKey Data} (h : ∀ y ∈ l1, ReadNode y) :
    ∃ g', readNodes (l1 ++ x :: l2) g = readNodes (x :: l2) g' := by
  induction l1 generalizing g with
  | nil => exact ⟨g, rfl⟩
  | cons y l ih =>
    obtain ⟨f, k, a, rfl, h1, h2, h3⟩ := h y List.mem_cons_self
    obtain ⟨g', hg⟩ := ih (g := g.addNodeCore k a) (fun y hy => h y (List.mem_cons_of_mem _ hy))
    refine ⟨g', ?_⟩
    rw [List.cons_append]
    conv_lhs => unfold readNodes
    simp only [Data.getD, Data.item, Dict.getItem, h1, getD_attrs_iff.2 h2, asNode_ofKey]
    rw [addNode_ok_iff.2 ⟨h3, rfl⟩]
    exact hg

/-- C88.  What is raised for the first node that cannot be read, in a document declared directed or undirected: an item that is
not an object is an `AttributeError`, a node without key a `KeyError`, a `null` key a `ValueError`, a key that is an array or
an object a `TypeError`. -/
theorem read_bad_node {d o : Dict PyKey Data} {type multi x : Data} {a : Attrs Data} {l1 l2 : List Data}
    (ho : d.get? (.str "options") = some (.dict o)) (hty : o.get? (.str "type") = some type) (hmx : type ≠ .str "mixed")
    (hmu : o.get? (.str "multi") = some multi) (ha : DescribesAttrs d a)
    (hna : NamesOutside ["self", "incoming_graph_data"] a)
    (hn : d.get? (.str "nodes") = some (.list (l1 ++ x :: l2))) (hl : ∀ y ∈ l1, ReadNode y) :
    ((∀ f, x ≠ .dict f) → readGraphologyJson (.dict d) = .error .attributeError) ∧
    ∀ f : Dict PyKey Data, x = .dict f →
      (f.get? (.str "key") = none → readGraphologyJson (.dict d) = .error .keyError) ∧
      ∀ b, DescribesAttrs f b →
        (f.get? (.str "key") = some .none → readGraphologyJson (.dict d) = .error .valueError) ∧
        (∀ y : Data, ((∃ l, y = .list l) ∨ ∃ m, y = .dict m) → f.get? (.str "key") = some y →
          ∃ t, readGraphologyJson (.dict d) = .error (.typeError t)) ∧
        (∀ k, f.get? (.str "key") = some (Data.ofKey k) → ¬ NamesOutside ["self", "node_for_adding"] b →
          ∃ t, readGraphologyJson (.dict d) = .error (.typeError t)) := by
  have hne : type.eqStr "mixed" = false := by
    cases type with
    | str s => simpa [Data.eqStr] using hmx
    | _ => rfl
  obtain ⟨g0, h0, -⟩ := (newGraph_isOk (directed := type.eqStr "directed") (multi := multi.truthy)).2 ⟨a, ha, hna⟩
  obtain ⟨g', hg⟩ := readNodes_defect (x := x) (l2 := l2) (g := g0) hl
  have key : ∀ e, readNodes (x :: l2) g' = .error e → readGraphologyJson (.dict d) = .error e := by
    intro e he
    simp only [readGraphologyJson]
    unfold parseGraphologyJson
    simp only [ho, Data.item, Dict.getItem, hty, hmu, hne, Bool.false_eq_true, if_false, h0, hn, Option.getD_some, readSome,
      Data.iter, hg, he]
  refine ⟨fun hx => key _ ?_, ?_⟩
  · unfold readNodes
    cases x with
    | dict f => exact absurd rfl (hx f)
    | _ => rfl
  · rintro f rfl
    refine ⟨fun hk => key _ ?_, fun b hb => ⟨fun hk => key _ ?_, ?_, ?_⟩⟩
    · unfold readNodes
      simp only [Data.getD, Data.item, Dict.getItem, hk]
    · unfold readNodes
      simp only [Data.getD, Data.item, Dict.getItem, hk, getD_attrs_iff.2 hb, Data.asNode]
    · rintro y hy hk
      refine ⟨"unhashable type", key _ ?_⟩
      unfold readNodes
      simp only [Data.getD, Data.item, Dict.getItem, hk, getD_attrs_iff.2 hb]
      rcases hy with ⟨l, rfl⟩ | ⟨m, rfl⟩ <;> rfl
    · intro k hk hbad
      have : ∃ t, Graph.addNode g' k b = .error (.typeError t) := by
        unfold Graph.addNode
        cases hc : Graph.checkKwargs ["self", "node_for_adding"] b with
        | ok u => exact absurd (isOk_checkKwargs.1 hc) hbad
        | error e =>
          unfold Graph.checkKwargs at hc
          split at hc
          · split at hc <;> cases hc
            exact ⟨_, rfl⟩
          · cases hc
            exact ⟨_, rfl⟩
      obtain ⟨t, ht⟩ := this
      refine ⟨t, key _ ?_⟩
      unfold readNodes
      simp only [Data.getD, Data.item, Dict.getItem, hk, getD_attrs_iff.2 hb, asNode_ofKey, ht]

/-- A document with loose flags and empty fields, read; the same with a node that is `null`, not read. -/
theorem readDocument_sample :
    ReadDocument (.dict [(.str "options", .dict [(.str "type", .str "mixed"), (.str "multi", .int 1)]),
      (.str "nodes", .str ""),
      (.str "edges", .list [.dict [(.str "source", .int 1), (.str "target", .str "b"), (.str "key", .int 5),
        (.str "undirected", .int 1)], .dict [(.str "source", .int 1), (.str "target", .int 1),
        (.str "undirected", .bool true), (.str "attributes", .dict [(.str "key", .none)])]])]) ∧
    ¬ ReadDocument (.dict [(.str "options", .dict [(.str "type", .str "mixed"), (.str "multi", .int 1)]),
      (.str "nodes", .list [.none])]) := by
  rw [← read_accepts, ← read_accepts]
  exact ⟨⟨_, rfl⟩, fun ⟨_, h⟩ => by cases h⟩

example : readGraphologyJson (.dict [(.str "options", .dict [(.str "type", .str "directed"), (.str "multi", .bool false)]),
    (.str "nodes", .list [.dict [(.str "key", .int 1)], .int 2])]) = .error .attributeError :=
  (read_bad_node (x := .int 2) (l1 := [.dict [(.str "key", .int 1)]]) (l2 := []) (a := []) rfl rfl (by simp) rfl (.inl ⟨rfl, rfl⟩)
    (fun k hk => absurd hk (by simp [Dict.keys])) rfl (by
      intro y hy
      simp only [List.mem_cons, List.not_mem_nil, or_false] at hy
      exact ⟨_, .int 1, [], hy, rfl, .inl ⟨rfl, rfl⟩, fun k hk => absurd hk (by simp [Dict.keys])⟩)).1 (by simp)

end Pelote
