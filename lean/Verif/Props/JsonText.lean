import Verif.Lemmas.JsonEncode
import Verif.Lemmas.MapAttrs
import Verif.Props.Graphology

/-! C83: a graphology document in a file. -/
namespace Pelote
open Json

/-! ### Texts -/

/-- C83: the reader of JSON accepts exactly the JSON texts, in any layout and with any escapes, and reads the data
they stand for. -/
theorem json_loads_exact (s : String) (x : Data) : loads s = .ok x ↔ IsText x s := loads_iff s x

/-- C83: any other text raises a `ValueError`. -/
theorem json_loads_error (s : String) : (∀ x, ¬ IsText x s) ↔ loads s = .error .valueError := by
  refine ⟨loads_error, fun h x hx => ?_⟩
  rw [(loads_iff s x).2 hx] at h
  cases h

/-- A text stands for one value at most. -/
theorem isText_unique {s : String} {x y : Data} (hx : IsText x s) (hy : IsText y s) : x = y := by
  have h1 := (loads_iff s x).2 hx
  rw [(loads_iff s y).2 hy] at h1
  cases h1
  rfl

/-- C83: what can be written as JSON: `None`, booleans, numbers, strings, lists and dicts; any other value raises a
`TypeError`. -/
theorem json_dumps_iff (x : Data) : (∃ s, dumps x = .ok s) ↔ Serializable x := by
  constructor
  · rintro ⟨s, hs⟩
    by_contra h
    obtain ⟨t, ht⟩ := encode_error x h
    unfold dumps at hs
    rw [ht] at hs
    cases hs
  · intro h
    obtain ⟨s, hs, -⟩ := encode_ok x h
    exact ⟨String.ofList s, by unfold dumps; rw [hs]⟩

theorem json_dumps_error {x : Data} (h : ¬ Serializable x) : ∃ t, dumps x = .error (.typeError t) := by
  obtain ⟨t, ht⟩ := encode_error x h
  exact ⟨t, by unfold dumps; rw [ht]⟩

/-- C83: what is written is a JSON text of the value, the names of its dicts being cast to strings. -/
theorem json_dumps_text {x : Data} (h : Serializable x) (hp : ProperFloats x) :
    ∃ s, dumps x = .ok s ∧ IsText (image x) s := by
  obtain ⟨s, hs, hr⟩ := encode_ok x h
  refine ⟨String.ofList s, by unfold dumps; rw [hs], [], s, [], ?_, ws_nil, hr hp, ws_nil⟩
  rw [String.toList_ofList]
  simp

theorem image_dict_str {d : List (PyKey × Data)} (hn : (Dict.keys d).Nodup) (hs : ∀ p ∈ d, ∃ s, p.1 = .str s) :
    image (.dict d) = .dict (d.map (fun p => (p.1, image p.2))) := by
  have h1 : imagePairs d = d.map (fun p => (p.1, image p.2)) := by
    rw [imagePairs_eq]
    apply List.map_congr_left
    intro p hp
    obtain ⟨s, h⟩ := hs p hp
    rw [h]
    rfl
  rw [image, h1, Dict.update_nil_left]
  rw [keys_mapSnd]
  exact hn

/-- C83: a value whose dicts have strings for names is left as it is. -/
theorem image_plain {x : Data} (h : Plain x) : image x = x := by
  induction h with
  | list _ ih =>
    rw [image, imageList_eq]
    congr 1
    exact (List.map_congr_left (fun y hy => ih y hy)).trans (List.map_id _)
  | dict hn hs _ ih =>
    rw [image_dict_str hn hs]
    congr 1
    exact (List.map_congr_left (fun p hp => by rw [ih p hp]; rfl)).trans (List.map_id _)
  | _ => rfl

/-! ### Reading a file -/

/-- C83: reading a file which contains a document, however the document is laid out, is reading the document; a path is
read as the file it leads to. -/
theorem read_file_text {doc : Dict PyKey Data} {s : String} (h : IsText (.dict doc) s) (fs : String → Py String) :
    readTarget fs (.file s) = readTarget fs (.value (.dict doc)) ∧
      ∀ p, fs p = .ok s → readTarget fs (.path p) = readTarget fs (.value (.dict doc)) ∧
        readTarget fs (.value (.str p)) = readTarget fs (.value (.dict doc)) := by
  have h1 : readText s = readGraphologyJson (.dict doc) := by
    unfold readText
    rw [(loads_iff s _).2 h]
    rfl
  refine ⟨h1, fun p hp => ⟨?_, ?_⟩⟩
  · simp only [readTarget, hp]
    exact h1
  · simp only [readTarget, hp]
    exact h1

/-- C83: a file which is not JSON raises a `ValueError`, and a file of JSON which is not a dict a `TypeError`. -/
theorem read_file_error (s : String) (fs : String → Py String) :
    ((∀ x, ¬ IsText x s) → readTarget fs (.file s) = .error .valueError) ∧
      ∀ x, IsText x s → (∀ d, x ≠ .dict d) → ∃ t, readTarget fs (.file s) = .error (.typeError t) := by
  constructor
  · intro h
    simp only [readTarget, readText, loads_error h]
  · intro x hx hd
    simp only [readTarget, readText, (loads_iff s x).2 hx]
    cases x with
    | dict d => exact absurd rfl (hd d)
    | _ => exact ⟨_, rfl⟩

/-- C83: whatever the file system answers for a path is raised. -/
theorem read_path_error {fs : String → Py String} {p : String} {e : PyErr} (h : fs p = .error e) :
    readTarget fs (.path p) = .error e ∧ readTarget fs (.value (.str p)) = .error e := by
  simp only [readTarget, h, and_self]

/-! ### Writing a graph to a file, and reading it -/

/-- A graph as read back from a file, before its keys are cast to strings: the names inside its attribute values, and
the names of its own attributes, are strings. -/
def Graph.jsonImage {V : Type} (g : Graph V Data) : Graph V Data :=
  { g.mapAttrs image with attrs := Dict.update [] (imagePairs g.attrs) }

namespace Graph
variable {V A B : Type} [DecidableEq V] (f : A → B)

theorem adj_mapAttrs (g : Graph V A) (n : V) :
    (g.mapAttrs f).adj n =
      (g.adj n).map (fun p => (p.1, p.2.map (fun q => (q.1, q.2.map (fun r => (r.1, f r.2)))))) := by
  unfold adj mapAttrs
  rw [List.filterMap_map, List.map_filterMap]
  congr 1
  funext l
  simp only [Function.comp, Link.from?]
  split
  · rfl
  · split <;> rfl

theorem edgesFrom_mapAttrs (g : Graph V A) (seen ns : List V) :
    (g.mapAttrs f).edgesFrom seen ns =
      (g.edgesFrom seen ns).map (fun e => (e.1, e.2.1, e.2.2.1, e.2.2.2.map (fun r => (r.1, f r.2)))) := by
  induction ns generalizing seen with
  | nil => rfl
  | cons n ns ih =>
    simp only [edgesFrom, List.map_append, ih, adj_mapAttrs]
    congr 1
    rw [List.filter_map, List.flatMap_map, List.map_flatMap]
    congr 1
    funext p
    simp [List.map_map, Function.comp_def]

theorem edgesData_mapAttrs (g : Graph V A) :
    (g.mapAttrs f).edgesData = g.edgesData.map (fun e => (e.1, e.2.1, e.2.2.map (fun r => (r.1, f r.2)))) := by
  unfold edgesData edgesKeys
  rw [nodes_mapAttrs, edgesFrom_mapAttrs, List.map_map, List.map_map]
  rfl

theorem edgesFrom_attrs (g : Graph V A) (a : Attrs A) (seen ns : List V) :
    ({ g with attrs := a } : Graph V A).edgesFrom seen ns = g.edgesFrom seen ns := by
  induction ns generalizing seen with
  | nil => rfl
  | cons n ns ih =>
    simp only [edgesFrom, ih]
    rfl

end Graph

theorem jsonImage_edgesData {g : Graph PyKey Data} :
    g.jsonImage.edgesData = g.edgesData.map (fun e => (e.1, e.2.1, e.2.2.map (fun r => (r.1, image r.2)))) :=
  (congrArg (List.map _) (Graph.edgesFrom_attrs (g.mapAttrs image) _ [] g.jsonImage.nodes)).trans
    (Graph.edgesData_mapAttrs image g)

theorem jsonImage_wf {g : Graph PyKey Data} (h : g.WF) : g.jsonImage.WF := by
  have := Graph.wf_mapAttrs image h
  exact { this with attrs := Dict.nodup_update _ (by simp [Dict.keys]) }

theorem update_map (f : Data → Data) (d e : Dict PyKey Data) :
    Dict.update (d.map (fun p => (p.1, f p.2))) (e.map (fun p => (p.1, f p.2))) =
      (Dict.update d e).map (fun p => (p.1, f p.2)) := by
  have hset : ∀ (d : Dict PyKey Data) k v, Dict.set (d.map (fun p => (p.1, f p.2))) k (f v) =
      (Dict.set d k v).map (fun p => (p.1, f p.2)) := by
    intro d k v
    induction d with
    | nil => rfl
    | cons p d ih =>
      simp only [List.map_cons, Dict.set]
      split
      · rfl
      · rw [ih]; rfl
  induction e generalizing d with
  | nil => rfl
  | cons p e ih =>
    rw [List.map_cons, Dict.update_cons, Dict.update_cons, hset, ih]

theorem update_ne_nil (e : Dict PyKey Data) : Dict.update [] e = [] ↔ e = [] := by
  constructor
  · intro h
    cases e with
    | nil => rfl
    | cons p e =>
      have : p.1 ∈ Dict.keys (Dict.update [] (p :: e)) :=
        Dict.mem_keys_update.2 (Or.inr (by simp [Dict.keys]))
      rw [h] at this
      cases this
  · rintro rfl; rfl

/-- The dict of strings of some attributes. -/
theorem image_attributes (a : Attrs Data) :
    image (.dict (Dict.update [] (stringify a))) =
      .dict (Dict.update [] (stringify (a.map (fun p => (p.1, image p.2))))) := by
  rw [image_dict_str (Dict.nodup_update _ (by simp [Dict.keys]))]
  · have := update_map image [] (stringify a)
    rw [List.map_nil] at this
    rw [← this]
    congr 2
    simp [stringify]
  · intro p hp
    have := Dict.mem_keys_update.1 (Dict.mem_keys_of_mem hp)
    rcases this with h | h
    · cases h
    · exact stringify_str a _ h

theorem image_fields (f : Dict PyKey Data) (a : Attrs Data) (hf : ∀ p ∈ f, ∃ s t, p = (.str s, .str t))
    (hn : (f.keys ++ [PyKey.str "attributes"]).Nodup) :
    image (.dict (f ++ attributesField a)) = .dict (f ++ attributesField (a.map (fun p => (p.1, image p.2)))) := by
  have hmap : f.map (fun p => (p.1, image p.2)) = f := by
    conv => rhs; rw [← List.map_id f]
    apply List.map_congr_left
    intro p hp
    obtain ⟨s, t, rfl⟩ := hf p hp
    rfl
  unfold attributesField
  by_cases ha : a = []
  · subst ha
    simp only [List.map_nil, if_true, List.append_nil]
    rw [image_dict_str (List.nodup_append.1 hn).1, hmap]
    intro p hp
    obtain ⟨s, t, rfl⟩ := hf p hp
    exact ⟨s, rfl⟩
  · have ha' : ¬ (a.map (fun p => (p.1, image p.2))) = [] := by simpa using ha
    rw [if_neg ha, if_neg ha', image_dict_str]
    · rw [List.map_append, hmap]
      simp only [List.map_cons, List.map_nil]
      rw [image_attributes]
    · simpa [Dict.keys] using hn
    · intro p hp
      rcases List.mem_append.1 hp with hp | hp
      · obtain ⟨s, t, rfl⟩ := hf p hp
        exact ⟨s, rfl⟩
      · simp only [List.mem_cons, List.not_mem_nil, or_false] at hp
        subst hp
        exact ⟨_, rfl⟩

/-- Casting the names of a written document is writing the graph whose names are cast. -/
theorem image_graphJson (g : Graph PyKey Data) : image (.dict (graphJson g)) = .dict (graphJson g.jsonImage) := by
  have hnode : (g.node.map nodeJson).map image = g.jsonImage.node.map nodeJson := by
    show _ = (g.node.map _).map nodeJson
    rw [List.map_map, List.map_map]
    apply List.map_congr_left
    intro p _
    simp only [Function.comp, nodeJson]
    exact image_fields _ _ (by simp) (by simp [Dict.keys])
  have hedge : (g.edgesData.map edgeJson).map image = g.jsonImage.edgesData.map edgeJson := by
    rw [jsonImage_edgesData, List.map_map, List.map_map]
    apply List.map_congr_left
    intro p _
    simp only [Function.comp, edgeJson]
    exact image_fields _ _ (by simp) (by simp [Dict.keys])
  have hopt : image (writeOptions g.directed g.multi) = writeOptions g.jsonImage.directed g.jsonImage.multi := rfl
  have hattr : g.jsonImage.attrs = Dict.update [] (imagePairs g.attrs) := rfl
  have hnil : g.jsonImage.attrs = [] ↔ g.attrs = [] := by
    rw [hattr, update_ne_nil, imagePairs_eq, List.map_eq_nil_iff]
  unfold graphJson
  by_cases ha : g.attrs = []
  · rw [if_pos ha, if_pos (hnil.2 ha), image_dict_str (by simp [Dict.keys]) (by simp)]
    simp only [List.map_cons, List.map_nil, List.append_nil, hopt]
    rw [image, imageList_eq, hnode, image, imageList_eq, hedge]
  · rw [if_neg ha, if_neg (fun h => ha (hnil.1 h)), image_dict_str (by simp [Dict.keys]) (by simp)]
    simp only [List.map_cons, List.map_nil, List.cons_append, List.nil_append, hopt]
    rw [image, imageList_eq, hnode, image, imageList_eq, hedge, image, hattr]

/-- Every attribute of a graph satisfies a property: the name and value of the attributes of the graph, of its nodes
and of its edges. -/
structure Graph.EachAttr {V : Type} [DecidableEq V] (g : Graph V Data) (P : PyKey → Data → Prop) : Prop where
  graph : ∀ p ∈ g.attrs, P p.1 p.2
  node : ∀ n a, g.node.get? n = some a → ∀ p ∈ a, P p.1 p.2
  edge : ∀ u v k a, g.edge? u v k = some a → ∀ p ∈ a, P p.1 p.2

/-- A property of the values of which a document is made. -/
structure DocumentProp (Q : Data → Prop) : Prop where
  bool : ∀ b, Q (.bool b)
  str : ∀ s, Q (.str s)
  list : ∀ l : List Data, (∀ x ∈ l, Q x) → Q (.list l)
  dict : ∀ d : List (PyKey × Data), (∀ p ∈ d, WritableName p.1) → (∀ p ∈ d, Q p.2) → Q (.dict d)

theorem documentProp_serializable : DocumentProp Serializable := ⟨.bool, .str, fun _ => .list, fun _ => .dict⟩

theorem documentProp_properFloats : DocumentProp ProperFloats := ⟨.bool, .str, fun _ => .list, fun _ _ => .dict⟩

theorem DocumentProp.fields {Q : Data → Prop} (hQ : DocumentProp Q) (f : Dict PyKey Data) (a : Attrs Data)
    (hf : ∀ p ∈ f, ∃ s t, p = (.str s, .str t)) (ha : ∀ p ∈ a, Q p.2) : Q (.dict (f ++ attributesField a)) := by
  have hmem : ∀ p ∈ Dict.update [] (stringify a), (∃ s, p.1 = .str s) ∧ Q p.2 := by
    intro p hp
    have h2 : ∀ (e d : Dict PyKey Data), (∀ p ∈ d, (∃ s, p.1 = PyKey.str s) ∧ Q p.2) →
        (∀ p ∈ e, (∃ s, p.1 = PyKey.str s) ∧ Q p.2) →
        ∀ p ∈ Dict.update d e, (∃ s, p.1 = PyKey.str s) ∧ Q p.2 := by
      intro e
      induction e with
      | nil => intro d hd _; exact hd
      | cons q e ih =>
        intro d hd he
        rw [Dict.update_cons]
        refine ih _ ?_ (fun p hp => he p (List.mem_cons_of_mem _ hp))
        intro p hp
        have hset : ∀ d : Dict PyKey Data, p ∈ Dict.set d q.1 q.2 → p ∈ d ∨ p = q := by
          intro d
          induction d with
          | nil => intro h; right; simpa [Dict.set] using h
          | cons r d ihd =>
            intro h
            simp only [Dict.set] at h
            split at h
            · next hk =>
              rcases List.mem_cons.1 h with h | h
              · right; rw [h, hk]
              · left; exact List.mem_cons_of_mem _ h
            · rcases List.mem_cons.1 h with h | h
              · left; rw [h]; exact List.mem_cons_self
              · rcases ihd h with h | h
                · left; exact List.mem_cons_of_mem _ h
                · right; exact h
        rcases hset d hp with h | h
        · exact hd p h
        · rw [h]; exact he q List.mem_cons_self
    refine h2 (stringify a) [] (by simp) ?_ p hp
    intro q hq
    obtain ⟨r, hr, rfl⟩ := List.mem_map.1 hq
    exact ⟨⟨_, rfl⟩, ha r hr⟩
  have hall : ∀ p ∈ f ++ attributesField a, WritableName p.1 ∧ Q p.2 := by
    intro p hp
    rcases List.mem_append.1 hp with hp | hp
    · obtain ⟨s, t, rfl⟩ := hf p hp
      exact ⟨trivial, hQ.str t⟩
    · unfold attributesField at hp
      split at hp
      · cases hp
      · simp only [List.mem_cons, List.not_mem_nil, or_false] at hp
        subst hp
        refine ⟨trivial, hQ.dict _ (fun q hq => ?_) (fun q hq => (hmem q hq).2)⟩
        obtain ⟨s, hs⟩ := (hmem q hq).1
        rw [hs]
        trivial
  exact hQ.dict _ (fun p hp => (hall p hp).1) (fun p hp => (hall p hp).2)

theorem DocumentProp.graphJson {Q : Data → Prop} (hQ : DocumentProp Q) {g : Graph PyKey Data} (hwf : g.WF)
    (hs : g.EachAttr (fun _ x => Q x)) (hn : ∀ k ∈ g.attrs.keys, WritableName k) : Q (.dict (graphJson g)) := by
  have hnode : ∀ x ∈ g.node.map nodeJson, Q x := by
    intro x hx
    obtain ⟨p, hp, rfl⟩ := List.mem_map.1 hx
    exact hQ.fields _ _ (by simp) ((node_names hwf).2 hs.node p hp)
  have hedge : ∀ x ∈ g.edgesData.map edgeJson, Q x := by
    intro x hx
    obtain ⟨p, hp, rfl⟩ := List.mem_map.1 hx
    exact hQ.fields _ _ (by simp) ((edgesData_names hwf).2 hs.edge p hp)
  have hall : ∀ p ∈ Pelote.graphJson g, WritableName p.1 ∧ Q p.2 := by
    intro p hp
    unfold Pelote.graphJson at hp
    rcases List.mem_append.1 hp with hp | hp
    · simp only [List.mem_cons, List.not_mem_nil, or_false] at hp
      rcases hp with rfl | rfl | rfl
      · refine ⟨trivial, hQ.dict _ ?_ ?_⟩
        · simp [WritableName]
        · simp only [List.mem_cons, List.not_mem_nil, or_false]
          rintro q (rfl | rfl | rfl)
          · exact hQ.bool _
          · exact hQ.bool _
          · exact hQ.str _
      · exact ⟨trivial, hQ.list _ hnode⟩
      · exact ⟨trivial, hQ.list _ hedge⟩
    · split at hp
      · cases hp
      · simp only [List.mem_cons, List.not_mem_nil, or_false] at hp
        subst hp
        exact ⟨trivial, hQ.dict _ (fun q hq => hn _ (Dict.mem_keys_of_mem hq)) hs.graph⟩
  exact hQ.dict _ (fun p hp => (hall p hp).1) (fun p hp => (hall p hp).2)

theorem serializable_graphJson {g : Graph PyKey Data} (hwf : g.WF)
    (hs : g.EachAttr (fun _ x => Serializable x ∧ ProperFloats x)) (hn : ∀ k ∈ g.attrs.keys, WritableName k) :
    Serializable (.dict (graphJson g)) ∧ ProperFloats (.dict (graphJson g)) :=
  ⟨documentProp_serializable.graphJson hwf
      ⟨fun p hp => (hs.graph p hp).1, fun n a ha p hp => (hs.node n a ha p hp).1,
        fun u v k a ha p hp => (hs.edge u v k a ha p hp).1⟩ hn,
    documentProp_properFloats.graphJson hwf
      ⟨fun p hp => (hs.graph p hp).2, fun n a ha p hp => (hs.node n a ha p hp).2,
        fun u v k a ha p hp => (hs.edge u v k a ha p hp).2⟩ hn⟩

/-- C83: a graph whose attribute values can be written as JSON goes through a file.  What is written by `json.dumps`, or
by any other writer of JSON, in any layout, is read as the graph `g` with its node keys cast to strings, the names
inside its attribute values and the names of its own attributes also being cast to strings. -/
theorem graphology_file_roundtrip {g : Graph PyKey Data} (hwf : g.WF) {m i : Bool} (hw : Writable g m i)
    (hr : Readable g.jsonImage) (hf : m = true → Graph.InjOn keyString g)
    (hs : g.EachAttr (fun _ x => Serializable x ∧ ProperFloats x)) (hn : ∀ k ∈ g.attrs.keys, WritableName k)
    (fs : String → Py String) :
    ∃ doc text h, writeGraphologyJson g m i = .ok doc ∧ dumps (.dict doc) = .ok text ∧
      IsText (image (.dict doc)) text ∧ readTarget fs (.file text) = .ok h ∧
      (∀ t, IsText (image (.dict doc)) t → readTarget fs (.file t) = .ok h) ∧ h.WF ∧
      h.directed = g.directed ∧ h.multi = g.multi ∧ h.attrs = Dict.update [] (imagePairs g.attrs) ∧
      h.node = g.node.map (fun p => (keyString p.1, p.2.map (fun q => (q.1, image q.2)))) ∧
      h.edgesData =
        g.edgesData.map (fun e => (keyString e.1, keyString e.2.1, e.2.2.map (fun q => (q.1, image q.2)))) := by
  have hwf' := jsonImage_wf hwf
  have hnodes : g.jsonImage.nodes = g.nodes := Graph.nodes_mapAttrs image g
  have hw' : Writable g.jsonImage m i := by
    refine ⟨by rw [hnodes]; exact hw.keys, by rw [hnodes]; exact hw.types, ?_, ?_⟩
    · exact fun _ n a ha => NodeKwSafe.strNames (hr.nodeNames n a ha)
    · exact fun _ u v k a ha => EdgeKwSafe.strNames (hr.edgeNames u v k a ha)
  have hf' : m = true → Graph.InjOn keyString g.jsonImage := by
    intro hm
    have := hf hm
    unfold Graph.InjOn at this ⊢
    rw [hnodes]
    exact this
  obtain ⟨doc', h, hwr, hrd, h1, h2, h3, h4, h5, h6, -⟩ := graphology_roundtrip hwf' hw' hr hf'
  rw [write_ok hwf' hw'] at hwr
  cases hwr
  obtain ⟨hser, hpf⟩ := serializable_graphJson hwf hs hn
  obtain ⟨text, ht, hit⟩ := json_dumps_text hser hpf
  have hread : ∀ t, IsText (image (.dict (graphJson g))) t → readTarget fs (.file t) = .ok h := by
    intro t hit
    rw [image_graphJson] at hit
    rw [(read_file_text hit fs).1]
    exact hrd
  refine ⟨graphJson g, text, h, write_ok hwf hw, ht, hit, hread text hit, hread, h1, h2, h3, h4, ?_, ?_⟩
  · rw [h5]
    show (g.node.map _).map _ = _
    rw [List.map_map]
    rfl
  · rw [h6, jsonImage_edgesData, List.map_map]
    rfl

/-- C83: when the names inside the attribute values and the names of the attributes of the graph are strings, reading
the file is reading what was written. -/
theorem graphology_file_same {g : Graph PyKey Data} (hwf : g.WF) {m i : Bool} {doc : Dict PyKey Data}
    (hw : writeGraphologyJson g m i = .ok doc)
    (hs : g.EachAttr (fun _ x => Serializable x ∧ ProperFloats x ∧ Plain x)) (hn : StrNames g.attrs)
    (fs : String → Py String) :
    ∃ text, dumps (.dict doc) = .ok text ∧ IsText (.dict doc) text ∧
      ∀ t, IsText (.dict doc) t → readTarget fs (.file t) = readTarget fs (.value (.dict doc)) := by
  have hwr : Writable g m i := (write_ok_iff hwf m i).1 ⟨doc, hw⟩
  rw [write_ok hwf hwr] at hw
  cases hw
  have hmapId : ∀ a : Attrs Data, (∀ p ∈ a, Plain p.2) → a.map (fun q => (q.1, image q.2)) = a := by
    intro a ha
    exact (List.map_congr_left (fun p hp => by rw [image_plain (ha p hp)]; rfl)).trans (List.map_id _)
  have himg : graphJson g.jsonImage = graphJson g := by
    have h1 : g.jsonImage.attrs = g.attrs := by
      have := image_dict_str hwf.attrs (fun p hp => hn p.1 (Dict.mem_keys_of_mem hp))
      rw [image] at this
      have h2 : Dict.update [] (imagePairs g.attrs) = g.attrs.map (fun p => (p.1, image p.2)) := by
        injection this
      show Dict.update [] (imagePairs g.attrs) = g.attrs
      rw [h2]
      exact hmapId g.attrs (fun p hp => (hs.graph p hp).2.2)
    have h2 : g.jsonImage.node = g.node := by
      show g.node.map _ = _
      refine (List.map_congr_left (fun p hp => ?_)).trans (List.map_id _)
      rw [hmapId p.2 (fun q hq => ((node_names hwf).2 hs.node p hp q hq).2.2)]
      rfl
    have h3 : g.jsonImage.edgesData = g.edgesData := by
      rw [jsonImage_edgesData]
      refine (List.map_congr_left (fun e he => ?_)).trans (List.map_id _)
      rw [hmapId e.2.2 (fun q hq => ((edgesData_names hwf).2 hs.edge e he q hq).2.2)]
      rfl
    unfold graphJson
    rw [h1, h2, h3]
    rfl
  obtain ⟨hser, hpf⟩ := serializable_graphJson hwf
    ⟨fun p hp => ⟨(hs.graph p hp).1, (hs.graph p hp).2.1⟩,
      fun n a ha p hp => ⟨(hs.node n a ha p hp).1, (hs.node n a ha p hp).2.1⟩,
      fun u v k a ha p hp => ⟨(hs.edge u v k a ha p hp).1, (hs.edge u v k a ha p hp).2.1⟩⟩
    (fun k hk => by obtain ⟨s, rfl⟩ := hn k hk; trivial)
  obtain ⟨text, ht, hit⟩ := json_dumps_text hser hpf
  rw [image_graphJson, himg] at hit
  exact ⟨text, ht, hit, fun t hit => (read_file_text hit fs).1⟩

theorem serializable_item {l : List Data} (h : Serializable (.list l)) : ∀ x ∈ l, Serializable x := by
  cases h with | list h => exact h

theorem serializable_field {d : List (PyKey × Data)} (h : Serializable (.dict d)) :
    ∀ p ∈ d, WritableName p.1 ∧ Serializable p.2 := by
  cases h with | dict hn h => exact fun p hp => ⟨hn p hp, h p hp⟩

/-- The attributes in the fields of a node or of an edge. -/
theorem serializable_attributes {f : Dict PyKey Data} {a : Attrs Data} (hn : a.keys.Nodup) (hs : StrNames a)
    (h : Serializable (.dict (f ++ attributesField a))) : ∀ p ∈ a, Serializable p.2 := by
  intro p hp
  have hne : a ≠ [] := List.ne_nil_of_mem hp
  have hmem : (PyKey.str "attributes", Data.dict a) ∈ f ++ attributesField a := by
    unfold attributesField
    rw [if_neg hne, update_stringify hn hs]
    simp
  exact (serializable_field ((serializable_field h _ hmem).2) p hp).2

/-- C83: the document written for a graph can be put in a file if and only if its attribute values are made of `None`,
booleans, numbers, strings, lists and dicts: the writer does not check them, and `json.dumps` raises a `TypeError`. -/
theorem graphology_file_iff {g : Graph PyKey Data} (hwf : g.WF) {m : Bool} {doc : Dict PyKey Data}
    (hw : writeGraphologyJson g m false = .ok doc) :
    ((∃ text, dumps (.dict doc) = .ok text) ↔
      g.EachAttr (fun _ x => Serializable x) ∧ ∀ k ∈ g.attrs.keys, WritableName k) ∧
    ((¬ ∃ text, dumps (.dict doc) = .ok text) → ∃ t, dumps (.dict doc) = .error (.typeError t)) := by
  have hwr : Writable g m false := (write_ok_iff hwf m false).1 ⟨doc, hw⟩
  rw [write_ok hwf hwr] at hw
  cases hw
  refine ⟨(json_dumps_iff _).trans ⟨fun h => ?_, fun ⟨hs, hn⟩ => ?_⟩,
    fun h => json_dumps_error (fun hs => h ((json_dumps_iff _).2 hs))⟩
  · have hfield := serializable_field h
    have hnode := serializable_item (hfield (.str "nodes", .list (g.node.map nodeJson)) (by simp [graphJson])).2
    have hedge := serializable_item (hfield (.str "edges", .list (g.edgesData.map edgeJson)) (by simp [graphJson])).2
    have hattr : ∀ p ∈ g.attrs, WritableName p.1 ∧ Serializable p.2 := by
      intro p hp
      have hne : g.attrs ≠ [] := List.ne_nil_of_mem hp
      have := hfield (.str "attributes", .dict g.attrs) (by simp [graphJson, hne])
      exact serializable_field this.2 p hp
    refine ⟨⟨fun p hp => (hattr p hp).2, ?_, ?_⟩, ?_⟩
    · refine (node_names hwf (P := fun a => ∀ p ∈ a, Serializable p.2)).1 (fun q hq => ?_)
      exact serializable_attributes (hwf.nodeAttrs q hq) ((node_names hwf).2 (hwr.nodeNames rfl) q hq)
        (hnode _ (List.mem_map_of_mem hq))
    · refine (edgesData_names hwf (P := fun a => ∀ p ∈ a, Serializable p.2)).1 (fun e he => ?_)
      have hnd : ∀ e ∈ g.edgesData, e.2.2.keys.Nodup := by
        refine (edgesData_names hwf (P := fun a => a.keys.Nodup)).2 (fun u v k a ha => ?_)
        unfold Graph.edge? at ha
        obtain ⟨d, hd, ha⟩ := Option.bind_eq_some_iff.1 ha
        obtain ⟨l, hl, -, rfl⟩ := (Graph.keydict?_eq_some hwf).1 hd
        exact hwf.edgeAttrs l hl _ (Dict.mem_of_get? ha)
      exact serializable_attributes (hnd e he) ((edgesData_names hwf).2 (hwr.edgeNames rfl) e he)
        (hedge _ (List.mem_map_of_mem he))
    · intro k hk
      obtain ⟨p, hp, rfl⟩ := List.mem_map.1 hk
      exact (hattr p hp).1
  · exact documentProp_serializable.graphJson hwf hs hn

/-! ### Concrete cases -/

/-- A graph with attributes of several types. -/
def fileGraph : Graph PyKey Data where
  directed := false
  multi := false
  attrs := [(.str "name", .str "é\n")]
  node := [(.int 1, [(.str "tags", .list [.str "a", .none]), (.str "by", .dict [(.int 3, .bool true)])]), (.int 2, [])]
  links := [⟨.int 1, .int 2, [(.int 0, [(.str "weight", .obj "float" "0.5")])]⟩]

/-- The text of its document. -/
def fileText : String :=
  "{\"options\": {\"allowSelfLoops\": true, \"multi\": false, \"type\": \"undirected\"}, " ++
  "\"nodes\": [{\"key\": \"1\", \"attributes\": {\"tags\": [\"a\", null], \"by\": {\"3\": true}}}, {\"key\": \"2\"}], " ++
  "\"edges\": [{\"source\": \"1\", \"target\": \"2\", \"attributes\": {\"weight\": 0.5}}], " ++
  "\"attributes\": {\"name\": \"\\u00e9\\n\"}}"

example : (writeGraphologyJson fileGraph false false).bind (fun doc => dumps (.dict doc)) = .ok fileText := by
  decide +kernel

theorem fileGraph_ok : fileGraph.WF ∧ Writable fileGraph false false ∧ Readable fileGraph.jsonImage ∧
    fileGraph.EachAttr (fun _ x => Serializable x ∧ ProperFloats x) ∧
    ∀ k ∈ fileGraph.attrs.keys, WritableName k := by
  have hwf : fileGraph.WF := by constructor <;> decide
  have hE : fileGraph.edgesData = [(.int 1, .int 2, [(.str "weight", .obj "float" "0.5")])] := rfl
  have hfloat : FloatRepr "0.5" := Or.inr ⟨false, ['0'], ['.', '5'], [], rfl, by
    refine ⟨⟨⟨by simp, by simp⟩, by simp⟩, Or.inr ⟨['5'], rfl, by simp, by simp⟩, Or.inl rfl, by simp⟩⟩
  refine ⟨hwf, (write_ok_iff hwf false false).1 ⟨_, rfl⟩, ⟨?_, ?_, ?_⟩, ⟨?_, ?_, ?_⟩, ?_⟩
  · intro k hk
    have : fileGraph.jsonImage.attrs.keys = [.str "name"] := rfl
    rw [this] at hk
    simp only [List.mem_cons, List.not_mem_nil, or_false] at hk
    exact ⟨"name", hk, by simp⟩
  · refine (node_names (jsonImage_wf hwf)).1 ?_
    intro p hp k hk
    have : fileGraph.jsonImage.node = [(.int 1, [(.str "tags", .list [.str "a", .none]),
      (.str "by", .dict [(.str (jsonName (.int 3)), .bool true)])]), (.int 2, [])] := rfl
    rw [this] at hp
    simp only [List.mem_cons, List.not_mem_nil, or_false] at hp
    rcases hp with rfl | rfl
    · simp only [Dict.keys_cons, Dict.keys_nil, List.mem_cons, List.not_mem_nil, or_false] at hk
      rcases hk with rfl | rfl
      · exact ⟨_, rfl, by simp⟩
      · exact ⟨_, rfl, by simp⟩
    · cases hk
  · refine (edgesData_names (jsonImage_wf hwf)).1 ?_
    intro e he k hk
    rw [jsonImage_edgesData, hE] at he
    simp only [List.map_cons, List.map_nil, List.mem_cons, List.not_mem_nil, or_false] at he
    subst he
    simp only [Dict.keys_cons, Dict.keys_nil, List.mem_cons, List.not_mem_nil, or_false] at hk
    exact ⟨"weight", hk, by decide⟩
  · simp only [fileGraph, List.mem_cons, List.not_mem_nil, or_false]
    rintro p rfl
    exact ⟨.str _, .str _⟩
  · refine (node_names hwf (P := fun a => ∀ p ∈ a, Serializable p.2 ∧ ProperFloats p.2)).1 ?_
    simp only [fileGraph, List.mem_cons, List.not_mem_nil, or_false]
    rintro p (rfl | rfl) q hq
    · simp only [List.mem_cons, List.not_mem_nil, or_false] at hq
      rcases hq with rfl | rfl
      · constructor
        · refine .list ?_
          simp only [List.mem_cons, List.not_mem_nil, or_false]
          rintro x (rfl | rfl)
          · exact .str _
          · exact .none
        · refine .list ?_
          simp only [List.mem_cons, List.not_mem_nil, or_false]
          rintro x (rfl | rfl)
          · exact .str _
          · exact .none
      · constructor
        · refine .dict (by simp [WritableName]) ?_
          simp only [List.mem_cons, List.not_mem_nil, or_false]
          rintro x rfl
          exact .bool _
        · refine .dict ?_
          simp only [List.mem_cons, List.not_mem_nil, or_false]
          rintro x rfl
          exact .bool _
    · cases hq
  · refine (edgesData_names hwf (P := fun a => ∀ p ∈ a, Serializable p.2 ∧ ProperFloats p.2)).1 ?_
    rw [hE]
    simp only [List.mem_cons, List.not_mem_nil, or_false]
    rintro e rfl q hq
    simp only [List.mem_cons, List.not_mem_nil, or_false] at hq
    subst hq
    exact ⟨.float _, .obj (fun _ => hfloat)⟩
  · intro k hk
    have : fileGraph.attrs.keys = [.str "name"] := rfl
    rw [this] at hk
    simp only [List.mem_cons, List.not_mem_nil, or_false] at hk
    subst hk
    trivial

/-- C83, refuted without `Plain`: integer names inside an attribute value become strings, and two names can become
the same. -/
theorem graphology_file_names_cast :
    let x : Data := .dict [(.int 1, .str "a"), (.str "1", .str "b")]
    (Dict.keys [(PyKey.int 1, Data.str "a"), (PyKey.str "1", Data.str "b")]).Nodup ∧
      dumps x = .ok "{\"1\": \"a\", \"1\": \"b\"}" ∧
      loads "{\"1\": \"a\", \"1\": \"b\"}" = .ok (.dict [(.str "1", .str "b")]) := by
  refine ⟨by decide, by decide +kernel, ?_⟩
  rw [loads_iff]
  have hchar : ∀ c : Char, c ≠ '"' → c ≠ '\\' → 0x20 ≤ c.toNat → RendersChars [c] [c] := by
    intro c h1 h2 h3
    have := RendersChars.cons (RendersChar.raw h1 h2 h3) .nil
    simpa using this
  have ha := RendersPairs.cons (k := ['1']) (r := ['1']) (x := .str "a") (s := "\"a\"".toList) (w := []) (w' := [' '])
    (w'' := []) (v := [' ']) (hchar '1' (by decide) (by decide) (by decide)) ws_nil ws_space
    (Renders.str (t := ['a']) (hchar 'a' (by decide) (by decide) (by decide))) ws_nil ws_space
    (RendersPairs.last (k := ['1']) (r := ['1']) (x := .str "b") (s := "\"b\"".toList) (w := []) (w' := [' '])
      (w'' := []) (hchar '1' (by decide) (by decide) (by decide)) ws_nil ws_space
      (Renders.str (t := ['b']) (hchar 'b' (by decide) (by decide) (by decide))) ws_nil)
  exact ⟨[], _, [], by simp, ws_nil, Renders.dict ws_nil ha, ws_nil⟩

/-- C83: a graph attribute whose name is not a string makes what is written unreadable as it is, but readable through
a file, where its name is a string. -/
theorem graphology_file_graph_names :
    let g : Graph PyKey Data := ⟨false, false, [(.int 1, .str "v")], [], []⟩
    ∃ doc text h, writeGraphologyJson g false false = .ok doc ∧
      (∃ t, readTarget (fun _ => .error .valueError) (.value (.dict doc)) = .error (.typeError t)) ∧
      dumps (.dict doc) = .ok text ∧ readTarget (fun _ => .error .valueError) (.file text) = .ok h ∧
      h.attrs = [(.str "1", .str "v")] := by
  intro g
  have hwf : g.WF := by constructor <;> decide
  obtain ⟨doc, text, h, h1, h2, -, h3, -, -, -, -, h4, -⟩ := graphology_file_roundtrip (g := g) hwf
    (m := false) (i := false) ((write_ok_iff hwf false false).1 ⟨_, rfl⟩)
    ⟨by
      intro k hk
      have : g.jsonImage.attrs.keys = [.str (jsonName (.int 1))] := rfl
      rw [this] at hk
      simp only [List.mem_cons, List.not_mem_nil, or_false] at hk
      exact ⟨_, hk, by decide⟩, (by intro n a ha; cases ha), (by intro u v k a ha; cases ha)⟩ (by simp)
    ⟨by
      intro p hp
      have : g.attrs = [(.int 1, .str "v")] := rfl
      rw [this] at hp
      simp only [List.mem_cons, List.not_mem_nil, or_false] at hp
      subst hp
      exact ⟨.str _, .str _⟩, (by intro n a ha; cases ha), (by intro u v k a ha; cases ha)⟩
    (by
      intro k hk
      have : g.attrs.keys = [.int 1] := rfl
      rw [this] at hk
      simp only [List.mem_cons, List.not_mem_nil, or_false] at hk
      subst hk
      trivial) (fun _ => .error .valueError)
  have hdoc : writeGraphologyJson g false false =
      .ok [(.str "options", writeOptions false false), (.str "nodes", .list []), (.str "edges", .list []),
        (.str "attributes", .dict [(.int 1, .str "v")])] := rfl
  rw [hdoc] at h1
  cases h1
  exact ⟨_, text, h, hdoc, ⟨_, rfl⟩, h2, h3, h4⟩

/-- C83, refuted: the writer accepts a value, here a set, which cannot be put in a file. -/
theorem graphology_file_set_refused :
    let g : Graph PyKey Data := ⟨false, false, [], [(.str "a", [(.str "tags", .obj "set" "{1}")])], []⟩
    ∃ doc t, writeGraphologyJson g false false = .ok doc ∧ dumps (.dict doc) = .error (.typeError t) := by
  exact ⟨_, _, rfl, rfl⟩

/-- Concrete texts. -/
example : (loads " [1, -2.5e3 ,\"\\ud83d\\ude00\"]\n").toOption.isSome = true := by decide +kernel

example : (loads "[1,]").toOption.isNone = true ∧ (loads "{\"a\":1,}").toOption.isNone = true ∧
    (loads "01").toOption.isNone = true ∧ (loads "[1] 2").toOption.isNone = true ∧
    (loads "'a'").toOption.isNone = true ∧ (loads "").toOption.isNone = true := by decide +kernel

end Pelote
