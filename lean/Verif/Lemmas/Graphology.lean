import Verif.Spec.Graphology
import Verif.Model.Graphology
import Verif.Lemmas.MapNodes
import Verif.Lemmas.GraphOps
import Std.Data.String.ToInt

set_option linter.unusedSectionVars false
namespace Pelote
variable {A : Type}

/-! ### Writing -/

theorem toStr_inj {n m : PyKey} (hn : JsonKey n) (hm : JsonKey m) (ht : n.type = m.type) (h : n.toStr = m.toStr) :
    n = m := by
  cases n <;> cases m <;> simp_all [JsonKey, PyKey.type, PyKey.toStr]
  rename_i b c
  cases b <;> cases c <;> simp_all

theorem isStr_iff {k : PyKey} : k.isStr = true ↔ ∃ s, k = .str s := by
  cases k <;> simp [PyKey.isStr]

theorem stringify_of_str {a : Attrs A} (h : StrNames a) : stringify a = a := by
  unfold stringify
  conv => rhs; rw [← List.map_id a]
  apply List.map_congr_left
  rintro ⟨k, v⟩ hp
  obtain ⟨s, rfl⟩ := h k (Dict.mem_keys_of_mem hp)
  rfl

theorem stringify_str (a : Attrs A) : StrNames (stringify a) := by
  intro k hk
  obtain ⟨p, hp, rfl⟩ := List.mem_map.1 hk
  obtain ⟨q, _, rfl⟩ := List.mem_map.1 hp
  exact ⟨_, rfl⟩

theorem coerceLoop_ok (allow : Bool) (a copy : Attrs A) (h : allow = false → StrNames a) :
    coerceLoop allow a copy = .ok (copy.update (stringify a)) := by
  induction a generalizing copy with
  | nil => rfl
  | cons p a ih =>
    obtain ⟨k, v⟩ := p
    have ih := fun c => ih c (fun ha k hk => h ha k (by rw [Dict.keys_cons]; exact List.mem_cons_of_mem _ hk))
    unfold coerceLoop
    have e : stringify ((k, v) :: a) = (keyString k, v) :: stringify a := rfl
    rw [e, Dict.update_cons]
    by_cases hk : k.isStr = true
    · rw [if_pos hk, ih]
      obtain ⟨s, rfl⟩ := isStr_iff.1 hk
      rfl
    · rw [if_neg hk]
      cases allow with
      | true => simp only [if_true]; rw [ih]; rfl
      | false => exact absurd (isStr_iff.2 (h rfl k (by simp [Dict.keys_cons]))) hk

theorem coerceLoop_error (a copy : Attrs A) (h : ¬ StrNames a) :
    ∃ t, coerceLoop false a copy = .error (.typeError t) := by
  induction a generalizing copy with
  | nil => exact absurd (by intro k hk; cases hk) h
  | cons p a ih =>
    obtain ⟨k, v⟩ := p
    unfold coerceLoop
    by_cases hk : k.isStr = true
    · rw [if_pos hk]
      apply ih
      intro hs
      apply h
      intro k' hk'
      rw [Dict.keys_cons] at hk'
      rcases List.mem_cons.1 hk' with rfl | hk'
      · exact isStr_iff.1 hk
      · exact hs k' hk'
    · rw [if_neg hk]
      exact ⟨_, rfl⟩

/-- The `attributes` field as written. -/
def attributesField (a : Attrs Data) : Dict PyKey Data :=
  if a = [] then [] else [(.str "attributes", .dict (Dict.update [] (stringify a)))]

instance (a : Attrs Data) : Decidable (a = []) := match a with
  | [] => isTrue rfl
  | _ :: _ => isFalse (by simp)

theorem withAttributes_ok {allow : Bool} {a : Attrs Data} (h : allow = false → StrNames a) {data : Dict PyKey Data}
    (hd : PyKey.str "attributes" ∉ data.keys) :
    withAttributes allow data a = .ok (.dict (data ++ attributesField a)) := by
  unfold withAttributes attributesField
  cases a with
  | nil => simp
  | cons p a =>
    simp only [List.isEmpty_cons, Bool.false_eq_true, if_false, coerceAttributes, reduceCtorEq]
    rw [coerceLoop_ok allow _ [] h]
    simp only
    rw [Dict.set_of_not_mem _ hd]

theorem withAttributes_error {a : Attrs Data} (h : ¬ StrNames a) {data : Dict PyKey Data} :
    ∃ t, withAttributes false data a = .error (.typeError t) := by
  unfold withAttributes
  cases a with
  | nil => exact absurd (by intro k hk; cases hk) h
  | cons p a =>
    simp only [List.isEmpty_cons, Bool.false_eq_true, if_false, coerceAttributes]
    obtain ⟨t, ht⟩ := coerceLoop_error (p :: a) [] h
    rw [ht]
    exact ⟨t, rfl⟩

/-- A node as written. -/
def nodeJson (p : PyKey × Attrs Data) : Data := .dict ([(.str "key", .str p.1.toStr)] ++ attributesField p.2)

/-- An edge as written. -/
def edgeJson (e : PyKey × PyKey × Attrs Data) : Data :=
  .dict ([(.str "source", .str e.1.toStr), (.str "target", .str e.2.1.toStr)] ++ attributesField e.2.2)

theorem validKeyType_iff {n : PyKey} : validKeyType n = true ↔ JsonKey n := by
  cases n <;> simp [validKeyType, JsonKey]

theorem writeNodes_ok (m i : Bool) (L : Dict PyKey (Attrs Data)) (kt : Option String) (acc : List Data)
    (h1 : ∀ p ∈ L, JsonKey p.1) (h2 : m = false → ∀ p ∈ L, ∀ t, kt = some t → p.1.type = t)
    (h3 : m = false → ∀ p ∈ L, ∀ q ∈ L, p.1.type = q.1.type) (h4 : i = false → ∀ p ∈ L, StrNames p.2) :
    writeNodes m i L kt acc = .ok (acc ++ L.map nodeJson) := by
  induction L generalizing kt acc with
  | nil => simp [writeNodes]
  | cons p L ih =>
    obtain ⟨n, a⟩ := p
    have hmem : (n, a) ∈ (n, a) :: L := List.mem_cons_self
    unfold writeNodes
    rw [if_neg (by simp [validKeyType_iff.2 (h1 _ hmem)]), if_neg, withAttributes_ok (fun hi => h4 hi _ hmem) (by simp [Dict.keys])]
    · simp only
      rw [ih]
      · simp [nodeJson]
      · exact fun p hp => h1 p (List.mem_cons_of_mem _ hp)
      · intro hm p hp t ht
        subst hm
        simp only [Bool.not_false, Bool.true_and] at ht
        split at ht
        · cases ht; exact h3 rfl _ (List.mem_cons_of_mem _ hp) _ hmem
        · exact h2 rfl _ (List.mem_cons_of_mem _ hp) t ht
      · exact fun hm p hp q hq => h3 hm p (List.mem_cons_of_mem _ hp) q (List.mem_cons_of_mem _ hq)
      · exact fun hi p hp => h4 hi p (List.mem_cons_of_mem _ hp)
    · intro hc
      simp only [Bool.and_eq_true, Bool.not_eq_true', decide_eq_true_eq] at hc
      obtain ⟨⟨hm, hs⟩, hne⟩ := hc
      obtain ⟨t, ht⟩ := Option.isSome_iff_exists.1 hs
      exact hne (by rw [ht, h2 hm _ hmem t ht])

theorem writeNodes_error (m i : Bool) (L : Dict PyKey (Attrs Data)) (kt : Option String) (acc : List Data)
    (h : ¬ ((∀ p ∈ L, JsonKey p.1) ∧ (m = false → ∀ p ∈ L, ∀ t, kt = some t → p.1.type = t) ∧
      (m = false → ∀ p ∈ L, ∀ q ∈ L, p.1.type = q.1.type) ∧ (i = false → ∀ p ∈ L, StrNames p.2))) :
    ∃ t, writeNodes m i L kt acc = .error (.typeError t) := by
  induction L generalizing kt acc with
  | nil => exact absurd (by simp) h
  | cons p L ih =>
    obtain ⟨n, a⟩ := p
    unfold writeNodes
    by_cases hv : validKeyType n = true
    · rw [if_neg (by simp [hv])]
      by_cases hk : (!m && kt.isSome && decide (kt ≠ some n.type)) = true
      · rw [if_pos hk]; exact ⟨_, rfl⟩
      · rw [if_neg hk]
        by_cases hs : i = false → StrNames a
        · rw [withAttributes_ok hs (by simp [Dict.keys])]
          simp only
          apply ih
          rintro ⟨g1, g2, g3, g4⟩
          apply h
          have ht : ∀ t, m = false → kt = some t → n.type = t := by
            intro t hm hkt
            subst hm hkt
            simp at hk
            exact hk.symm
          have hkt' : m = false → ∀ p ∈ L, p.1.type = n.type := by
            intro hm p hp
            cases hkt : kt with
            | none => exact g2 hm p hp _ (by simp [hm, hkt])
            | some t => rw [g2 hm p hp t (by simp [hkt]), ht t hm hkt]
          refine ⟨?_, ?_, ?_, ?_⟩
          · intro p hp
            rcases List.mem_cons.1 hp with rfl | hp
            · exact validKeyType_iff.1 hv
            · exact g1 p hp
          · intro hm p hp t hkt
            rcases List.mem_cons.1 hp with rfl | hp
            · exact ht t hm hkt
            · rw [hkt' hm p hp]; exact ht t hm hkt
          · intro hm p hp q hq
            have : ∀ p ∈ (n, a) :: L, p.1.type = n.type := by
              intro p hp
              rcases List.mem_cons.1 hp with rfl | hp
              · rfl
              · exact hkt' hm p hp
            rw [this p hp, this q hq]
          · intro hi p hp
            rcases List.mem_cons.1 hp with rfl | hp
            · exact hs hi
            · exact g4 hi p hp
        · have hi : i = false := by
            cases i
            · rfl
            · exact absurd (fun hc => by cases hc) hs
          subst hi
          obtain ⟨t, ht⟩ := withAttributes_error (a := a) (by simpa using hs) (data := [(.str "key", .str n.toStr)])
          rw [ht]
          exact ⟨t, rfl⟩
    · rw [if_pos (by simp [hv])]
      exact ⟨_, rfl⟩

theorem writeEdges_ok (i : Bool) (E : List (PyKey × PyKey × Attrs Data)) (acc : List Data)
    (h : i = false → ∀ e ∈ E, StrNames e.2.2) : writeEdges i E acc = .ok (acc ++ E.map edgeJson) := by
  induction E generalizing acc with
  | nil => simp [writeEdges]
  | cons e E ih =>
    obtain ⟨u, v, a⟩ := e
    unfold writeEdges
    rw [withAttributes_ok (fun hi => h hi _ List.mem_cons_self) (by simp [Dict.keys])]
    simp only
    rw [ih _ (fun hi e he => h hi e (List.mem_cons_of_mem _ he))]
    simp [edgeJson]

theorem writeEdges_error (E : List (PyKey × PyKey × Attrs Data)) (acc : List Data)
    (h : ¬ ∀ e ∈ E, StrNames e.2.2) : ∃ t, writeEdges false E acc = .error (.typeError t) := by
  induction E generalizing acc with
  | nil => exact absurd (by simp) h
  | cons e E ih =>
    obtain ⟨u, v, a⟩ := e
    unfold writeEdges
    by_cases hs : StrNames a
    · rw [withAttributes_ok (fun _ => hs) (by simp [Dict.keys])]
      simp only
      apply ih
      intro hE
      apply h
      intro e he
      rcases List.mem_cons.1 he with rfl | he
      · exact hs
      · exact hE e he
    · obtain ⟨t, ht⟩ := withAttributes_error hs (data := [(.str "source", .str u.toStr), (.str "target", .str v.toStr)])
      rw [ht]
      exact ⟨t, rfl⟩

/-- The document written for a graph. -/
def graphJson (g : Graph PyKey Data) : Dict PyKey Data :=
  [(.str "options", writeOptions g.directed g.multi), (.str "nodes", .list (g.node.map nodeJson)),
    (.str "edges", .list (g.edgesData.map edgeJson))] ++
    (if g.attrs = [] then [] else [(.str "attributes", .dict g.attrs)])

theorem edgesData_names {g : Graph PyKey A} (hwf : g.WF) {P : Attrs A → Prop} :
    (∀ e ∈ g.edgesData, P e.2.2) ↔ ∀ u v k a, g.edge? u v k = some a → P a := by
  constructor
  · intro h u v k a he
    unfold Graph.edge? at he
    obtain ⟨d, hd, ha⟩ := Option.bind_eq_some_iff.1 he
    obtain ⟨l, hl, hs, rfl⟩ := (Graph.keydict?_eq_some hwf).1 hd
    exact h ((g.orient l).u, (g.orient l).v, a)
      ((Graph.mem_edgesData hwf).2 ⟨l, hl, rfl, rfl, k, Dict.mem_of_get? ha⟩)
  · rintro h ⟨u, v, a⟩ he
    obtain ⟨l, hl, rfl, rfl, k, hk⟩ := (Graph.mem_edgesData hwf).1 he
    refine h (g.orient l).u (g.orient l).v k a ?_
    unfold Graph.edge?
    rw [Option.bind_eq_some_iff]
    exact ⟨l.data, (Graph.keydict?_eq_some hwf).2 ⟨l, hl, g.orient_samePair l, rfl⟩,
      Dict.get?_of_mem (hwf.keys l hl) hk⟩

theorem node_names {g : Graph PyKey A} (hwf : g.WF) {P : Attrs A → Prop} :
    (∀ p ∈ g.node, P p.2) ↔ ∀ n a, g.node.get? n = some a → P a := by
  constructor
  · intro h n a ha; exact h _ (Dict.mem_of_get? ha)
  · rintro h ⟨n, a⟩ hp; exact h n a (Dict.get?_of_mem hwf.nodup hp)

theorem write_ok {g : Graph PyKey Data} (hwf : g.WF) {m i : Bool} (h : Writable g m i) :
    writeGraphologyJson g m i = .ok (graphJson g) := by
  unfold writeGraphologyJson
  rw [writeNodes_ok m i g.node none [] (fun p hp => h.keys p.1 (Dict.mem_keys_of_mem hp)) (by simp)
    (fun hm p hp q hq => h.types hm _ (Dict.mem_keys_of_mem hp) _ (Dict.mem_keys_of_mem hq))
    (fun hi => (node_names hwf).2 (h.nodeNames hi))]
  simp only
  rw [writeEdges_ok i g.edgesData [] (fun hi => (edgesData_names hwf).2 (h.edgeNames hi))]
  simp only [List.nil_append]
  unfold graphJson
  cases ha : g.attrs with
  | nil => simp
  | cons p r =>
    simp only [List.isEmpty_cons, Bool.false_eq_true, if_false, reduceCtorEq]
    rw [Dict.set_of_not_mem _ (by simp [Dict.keys])]

theorem write_error {g : Graph PyKey Data} (hwf : g.WF) {m i : Bool} (h : ¬ Writable g m i) :
    ∃ t, writeGraphologyJson g m i = .error (.typeError t) := by
  unfold writeGraphologyJson
  by_cases hn : ((∀ p ∈ g.node, JsonKey p.1) ∧ (m = false → ∀ p ∈ g.node, ∀ t, (none : Option String) = some t → p.1.type = t) ∧
      (m = false → ∀ p ∈ g.node, ∀ q ∈ g.node, p.1.type = q.1.type) ∧ (i = false → ∀ p ∈ g.node, StrNames p.2))
  · obtain ⟨h1, h2, h3, h4⟩ := hn
    rw [writeNodes_ok m i g.node none [] h1 h2 h3 h4]
    simp only
    have hi : i = false := by
      cases i
      · rfl
      · exfalso
        refine h ⟨?_, ?_, by simp, by simp⟩
        · intro n hn
          obtain ⟨p, hp, rfl⟩ := List.mem_map.1 hn
          exact h1 p hp
        · intro hm n hn k hk
          obtain ⟨p, hp, rfl⟩ := List.mem_map.1 hn
          obtain ⟨q, hq, rfl⟩ := List.mem_map.1 hk
          exact h3 hm p hp q hq
    subst hi
    obtain ⟨t, ht⟩ := writeEdges_error g.edgesData [] (by
      intro he
      refine h ⟨?_, ?_, fun _ => (node_names hwf).1 (h4 rfl), fun _ => (edgesData_names hwf).1 he⟩
      · intro n hn
        obtain ⟨p, hp, rfl⟩ := List.mem_map.1 hn
        exact h1 p hp
      · intro hm n hn k hk
        obtain ⟨p, hp, rfl⟩ := List.mem_map.1 hn
        obtain ⟨q, hq, rfl⟩ := List.mem_map.1 hk
        exact h3 hm p hp q hq)
    rw [ht]
    exact ⟨t, rfl⟩
  · obtain ⟨t, ht⟩ := writeNodes_error m i g.node none [] hn
    rw [ht]
    exact ⟨t, rfl⟩

/-! ### Reading what was written -/

theorem update_stringify {a : Attrs Data} (hn : a.keys.Nodup) (hs : StrNames a) : Dict.update [] (stringify a) = a := by
  rw [stringify_of_str hs, Dict.update_nil_left hn]

theorem getD_attributesField (f : Dict PyKey Data) {a : Attrs Data} (hn : a.keys.Nodup) (hs : StrNames a)
    (hf : PyKey.str "attributes" ∉ f.keys) :
    (Data.dict (f ++ attributesField a)).getD "attributes" (.dict []) = .ok (.dict a) := by
  have hget : ∀ d : Dict PyKey Data, PyKey.str "attributes" ∉ d.keys → ∀ e : Dict PyKey Data,
      Dict.get? (d ++ e) (.str "attributes") = Dict.get? e (.str "attributes") := by
    intro d
    induction d with
    | nil => intro _ e; rfl
    | cons p d ih =>
      intro hd e
      rw [Dict.keys_cons, List.mem_cons, not_or] at hd
      rw [List.cons_append, Dict.get?_cons, if_neg (Ne.symm hd.1)]
      exact ih hd.2 e
  unfold Data.getD
  simp only
  rw [hget f hf]
  unfold attributesField
  split
  · rename_i h; rw [h]; rfl
  · simp [Dict.get?_cons, update_stringify hn hs]

theorem NodeKwSafe.strNames {a : Attrs A} (h : Graph.NodeKwSafe a) : StrNames a := by
  intro k hk; obtain ⟨s, rfl, _⟩ := h k hk; exact ⟨s, rfl⟩

theorem EdgeKwSafe.strNames {m : Bool} {a : Attrs A} (h : Graph.EdgeKwSafe m a) : StrNames a := by
  intro k hk; obtain ⟨s, rfl, _⟩ := h k hk; exact ⟨s, rfl⟩

theorem readNodes_written (L : Dict PyKey (Attrs Data)) (g : Graph PyKey Data) (hkw : ∀ p ∈ L, Graph.NodeKwSafe p.2)
    (hn : ∀ p ∈ L, p.2.keys.Nodup) (hd : (g.nodes ++ L.map (fun p => keyString p.1)).Nodup) :
    readNodes (L.map nodeJson) g = .ok { g with node := g.node ++ L.map (fun p => (keyString p.1, p.2)) } := by
  induction L generalizing g with
  | nil => simp [readNodes]
  | cons p L ih =>
    obtain ⟨n, a⟩ := p
    have hmem : (n, a) ∈ (n, a) :: L := List.mem_cons_self
    have hfresh : keyString n ∉ g.nodes := by
      intro hc
      exact (List.nodup_append.1 hd).2.2 _ hc _ (by simp) rfl
    have hadd : g.addNode (keyString n) a = .ok { g with node := g.node ++ [(keyString n, a)] } := by
      rw [Graph.addNode_ok (hkw _ hmem)]
      unfold Graph.addNodeCore
      rw [Dict.get?_eq_none_iff.2 hfresh, Option.getD_none, Dict.update_nil_left (hn _ hmem), Dict.set_of_not_mem _ hfresh]
    rw [List.map_cons]
    unfold readNodes nodeJson
    rw [getD_attributesField _ (hn _ hmem) (NodeKwSafe.strNames (hkw _ hmem)) (by simp [Dict.keys])]
    have hkey : (Data.dict ([(PyKey.str "key", Data.str n.toStr)] ++ attributesField a)).item "key" =
        .ok (.str n.toStr) := by
      simp [Data.item, Dict.getItem, Dict.get?_cons]
    simp only [hkey, Data.asKwargs, Data.asNode, Data.asHashable]
    have hadd' : g.addNode (PyKey.str n.toStr) a = .ok { g with node := g.node ++ [(keyString n, a)] } := hadd
    rw [hadd']
    simp only
    have := ih { g with node := g.node ++ [(keyString n, a)] } (fun p hp => hkw p (List.mem_cons_of_mem _ hp))
      (fun p hp => hn p (List.mem_cons_of_mem _ hp)) (by
        have e : ({ g with node := g.node ++ [(keyString n, a)] } : Graph PyKey Data).nodes = g.nodes ++ [keyString n] := by
          simp [Graph.nodes, Dict.keys]
        rw [e, List.append_assoc]
        exact hd)
    unfold nodeJson at this
    rw [this]
    simp

theorem readEdges_written (directed : Bool) (E : List (PyKey × PyKey × Attrs Data)) (g : Graph PyKey Data)
    (hkw : ∀ e ∈ E, Graph.EdgeKwSafe g.multi e.2.2) (hn : ∀ e ∈ E, e.2.2.keys.Nodup) :
    readEdges false directed g.multi (E.map edgeJson) g =
      .ok (Graph.addAll g (E.map (fun e => (keyString e.1, keyString e.2.1, e.2.2)))) := by
  induction E generalizing g with
  | nil => rfl
  | cons e E ih =>
    obtain ⟨u, v, a⟩ := e
    have hmem : (u, v, a) ∈ (u, v, a) :: E := List.mem_cons_self
    rw [List.map_cons]
    unfold readEdges edgeJson
    rw [getD_attributesField _ (hn _ hmem) (EdgeKwSafe.strNames (hkw _ hmem)) (by simp [Dict.keys])]
    have hkey : (Data.dict ([(PyKey.str "source", Data.str u.toStr), (PyKey.str "target", Data.str v.toStr)] ++
        attributesField a)).getD "key" .none = .ok .none := by
      unfold attributesField
      split <;> simp [Data.getD, Dict.get?_cons]
    have hsource : (Data.dict ([(PyKey.str "source", Data.str u.toStr), (PyKey.str "target", Data.str v.toStr)] ++
        attributesField a)).item "source" = .ok (.str u.toStr) := by
      simp [Data.item, Dict.getItem, Dict.get?_cons]
    have htarget : (Data.dict ([(PyKey.str "source", Data.str u.toStr), (PyKey.str "target", Data.str v.toStr)] ++
        attributesField a)).item "target" = .ok (.str v.toStr) := by
      simp [Data.item, Dict.getItem, Dict.get?_cons]
    have hadd : g.addEdge (PyKey.str u.toStr) (PyKey.str v.toStr) a =
        .ok (g.addEdgeCore (keyString u) (keyString v) none a) := Graph.addEdge_ok (hkw _ hmem)
    simp only [hkey, hsource, htarget, Bool.false_eq_true, if_false, Data.asKwargs, readAddEdge, Data.asNode,
      Data.asHashable, hadd]
    have hmulti : (g.addEdgeCore (keyString u) (keyString v) none a).multi = g.multi := Graph.addEdgeCore_multi ..
    have := ih (g.addEdgeCore (keyString u) (keyString v) none a) (by
        intro e he; rw [hmulti]; exact hkw e (List.mem_cons_of_mem _ he))
      (fun e he => hn e (List.mem_cons_of_mem _ he))
    rw [hmulti] at this
    unfold edgeJson at this
    rw [this]
    rfl

theorem newGraph_written {directed multi : Bool} {attrs : Attrs Data} (hn : attrs.keys.Nodup)
    (h : ∀ k ∈ attrs.keys, ∃ s, k = .str s ∧ s ∉ ["self", "incoming_graph_data"]) :
    newGraph directed multi (.dict attrs) = .ok (Graph.empty directed multi attrs) := by
  unfold newGraph
  simp only [Data.asKwargs]
  rw [Graph.checkKwargs_ok (fun k hk => by
    obtain ⟨s, rfl, hs⟩ := h k hk
    exact ⟨s, rfl, fun hc => hs (List.mem_cons.2 (.inl (List.mem_singleton.1 hc)))⟩)]
  simp only
  have : attrs.has (.str "incoming_graph_data") = false := by
    rw [← Bool.not_eq_true, Dict.has_iff]
    intro hc
    obtain ⟨s, hs1, hs2⟩ := h _ hc
    cases hs1
    simp at hs2
  simp only [this, Bool.false_eq_true, if_false]
  rw [Dict.update_nil_left hn]

theorem parse_written {g : Graph PyKey Data} (hwf : g.WF) (hr : Readable g) (hf : Graph.InjOn keyString g) :
    parseGraphologyJson (graphJson g) =
      .ok (Graph.addAll (g.mapNodes keyString).createEmptyCopy (g.mapNodes keyString).edgesData) := by
  have hopt : (graphJson g).get? (.str "options") = some (writeOptions g.directed g.multi) := by
    simp [graphJson, Dict.get?_cons]
  have hattr : ((graphJson g).get? (.str "attributes")).getD (.dict []) = .dict g.attrs := by
    unfold graphJson
    split
    · rename_i h; rw [h]; simp [Dict.get?_cons]
    · simp [Dict.get?_cons]
  have hnodes : ((graphJson g).get? (.str "nodes")).getD .none = .list (g.node.map nodeJson) := by
    simp [graphJson, Dict.get?_cons]
  have hedges : ((graphJson g).get? (.str "edges")).getD .none = .list (g.edgesData.map edgeJson) := by
    simp [graphJson, Dict.get?_cons]
  have htype : (writeOptions g.directed g.multi).item "type" =
      .ok (.str (if g.directed then "directed" else "undirected")) := by
    simp [writeOptions, Data.item, Dict.getItem, Dict.get?_cons]
  have hmulti : (writeOptions g.directed g.multi).item "multi" = .ok (.bool g.multi) := by
    simp [writeOptions, Data.item, Dict.getItem, Dict.get?_cons]
  have hmixed : (Data.str (if g.directed then "directed" else "undirected")).eqStr "mixed" = false := by
    cases g.directed <;> decide
  have hdir : (Data.str (if g.directed then "directed" else "undirected")).eqStr "directed" = g.directed := by
    cases g.directed <;> decide
  unfold parseGraphologyJson
  simp only [hopt, htype, hmulti, hattr, hnodes, hedges, hmixed, hdir, Bool.false_eq_true, if_false, Data.truthy,
    newGraph_written hwf.attrs hr.graphNames, readSome, Data.iter]
  rw [readNodes_written g.node _ ((node_names hwf).2 hr.nodeNames) hwf.nodeAttrs (by
    have e : (Graph.empty g.directed g.multi g.attrs : Graph PyKey Data).nodes = [] := rfl
    rw [e, List.nil_append]
    have := (Graph.WF.mapNodes hwf hf).nodup
    rw [Graph.mapNodes_nodes] at this
    rw [Graph.nodes, Dict.keys, List.map_map] at this
    exact this)]
  simp only
  have hstart : ({ (Graph.empty g.directed g.multi g.attrs : Graph PyKey Data) with
      node := (Graph.empty g.directed g.multi g.attrs : Graph PyKey Data).node ++ g.node.map (fun p => (keyString p.1, p.2)) } :
      Graph PyKey Data) = (g.mapNodes keyString).createEmptyCopy := by
    simp [Graph.empty, Graph.mapNodes, Graph.createEmptyCopy]
  rw [hstart, Graph.edgesData_mapNodes hwf hf]
  refine readEdges_written g.directed g.edgesData (g.mapNodes keyString).createEmptyCopy
    ((edgesData_names hwf).2 hr.edgeNames) ?_
  rintro ⟨u, v, a⟩ he
  obtain ⟨l, hl, _, _, k, hk⟩ := (Graph.mem_edgesData hwf).1 he
  exact hwf.edgeAttrs l hl (k, a) hk

end Pelote
