import Verif.Lemmas.ToTabular

/-! Properties C53, C54, C60: DataFrames made from graphs, and read again. -/
namespace Pelote

/-! ### C53 -/

/-- Without pandas these functions raise `MissingPandasException`. -/
theorem dataframes_missing_pandas (g : Graph PyKey Data) (key : Option PyKey) (s t : PyKey)
    (sd td : Option NodeDataSpec) :
    graphToNodesDataframe false g key = .error .missingPandas ∧
    graphToEdgesDataframe false g s t sd td = .error .missingPandas ∧
    graphToDataframes false g key s t sd td = .error .missingPandas :=
  ⟨rfl, rfl, rfl⟩

/-- One row per node, in order, with its key and its attributes.  An attribute named as the key column replaces the
key. -/
theorem nodes_dataframe {g : Graph PyKey Data} (h : g.WF) (key : PyKey) :
    ∃ f, graphToNodesDataframe true g (some key) = .ok f ∧ f.index = none ∧ f.columns.keys.Nodup ∧
      ∀ c, f.columns.get? c =
        if g.node ≠ [] ∧ (c = key ∨ ∃ p ∈ g.node, c ∈ p.2.keys) then
          some (g.node.map (fun p => (p.2.get? c).getD (if c = key then Data.ofKey p.1 else nan)))
        else none := by
  refine ⟨_, rfl, rfl, by rw [dataFrame_keys]; exact nodup_recordColumns _, ?_⟩
  intro c
  simp only
  rw [dataFrame_get?]
  have hget : ∀ p ∈ g.node, ∀ c, (nodeRecord key p.1 p.2).get? c =
      (p.2.get? c).or (if c = key then some (Data.ofKey p.1) else none) :=
    fun p hp c => nodeRecord_get? (h.nodeAttrs p hp) c
  have hcond : (∃ r ∈ g.node.map (fun p => nodeRecord key p.1 p.2), c ∈ r.keys) ↔
      (g.node ≠ [] ∧ (c = key ∨ ∃ p ∈ g.node, c ∈ p.2.keys)) := by
    have hmem : ∀ p : PyKey × Attrs Data, c ∈ (nodeRecord key p.1 p.2).keys ↔ c = key ∨ c ∈ p.2.keys := by
      intro p
      unfold nodeRecord
      rw [Dict.mem_keys_update]
      simp [Dict.keys]
    constructor
    · rintro ⟨r, hr, hc⟩
      obtain ⟨p, hp, rfl⟩ := List.mem_map.1 hr
      refine ⟨List.ne_nil_of_mem hp, ?_⟩
      rcases (hmem p).1 hc with hc | hc
      · exact .inl hc
      · exact .inr ⟨p, hp, hc⟩
    · rintro ⟨hne, hc | ⟨p, hp, hc⟩⟩
      · obtain ⟨p, L, hp⟩ := List.exists_cons_of_ne_nil hne
        have hp' : p ∈ g.node := by rw [hp]; exact List.mem_cons_self
        exact ⟨_, List.mem_map.2 ⟨p, hp', rfl⟩, (hmem p).2 (.inl hc)⟩
      · exact ⟨_, List.mem_map.2 ⟨p, hp, rfl⟩, (hmem p).2 (.inr hc)⟩
  simp only [hcond]
  split
  · congr 1
    rw [List.map_map]
    apply List.map_congr_left
    intro p hp
    simp only [Function.comp_apply]
    rw [hget p hp c]
    cases p.2.get? c with
    | some x => rfl
    | none => split <;> rfl
  · rfl

/-- So the key column holds the keys, when no attribute has its name. -/
theorem nodes_dataframe_key {g : Graph PyKey Data} (h : g.WF) {key : PyKey} (hne : g.node ≠ [])
    (hk : ∀ p ∈ g.node, key ∉ p.2.keys) {f : Frame} (hf : graphToNodesDataframe true g (some key) = .ok f) :
    f.columns.get? key = some (g.nodes.map Data.ofKey) := by
  obtain ⟨f', hf', _, _, hc⟩ := nodes_dataframe h key
  rw [hf] at hf'; cases hf'
  rw [hc, if_pos ⟨hne, .inl rfl⟩]
  congr 1
  unfold Graph.nodes Dict.keys
  rw [List.map_map]
  apply List.map_congr_left
  intro p hp
  rw [Dict.get?_eq_none_iff.2 (hk p hp)]
  simp

/-- Without a key column, the keys are the index. -/
theorem nodes_dataframe_index (g : Graph PyKey Data) :
    ∃ f, graphToNodesDataframe true g none = .ok f ∧ f.index = some g.nodes ∧ f.columns.keys.Nodup ∧
      ∀ c, f.columns.get? c =
        if ∃ p ∈ g.node, c ∈ p.2.keys then some (g.node.map (fun p => (p.2.get? c).getD nan)) else none := by
  refine ⟨_, rfl, rfl, by rw [dataFrame_keys]; exact nodup_recordColumns _, ?_⟩
  intro c
  simp only
  rw [dataFrame_get?, List.map_map]
  have : (∃ r ∈ g.node.map Prod.snd, c ∈ Dict.keys r) ↔ ∃ p ∈ g.node, c ∈ p.2.keys := by
    constructor
    · rintro ⟨r, hr, hc⟩
      obtain ⟨p, hp, rfl⟩ := List.mem_map.1 hr
      exact ⟨p, hp, hc⟩
    · rintro ⟨p, hp, hc⟩
      exact ⟨_, List.mem_map.2 ⟨p, hp, rfl⟩, hc⟩
  simp only [this]
  rfl

/-- One row per edge, in order, with its ends, its attributes and the requested data of its ends. -/
theorem edges_dataframe {g : Graph PyKey Data} (h : g.WF) (source target : PyKey) {sd td : Option NodeDataSpec}
    (hs : sd ≠ some .other) (ht : td ≠ some .other) :
    ∃ f, graphToEdgesDataframe true g source target sd td = .ok f ∧ f.index = none ∧ f.columns.keys.Nodup ∧
      ∀ c, f.columns.get? c =
        if ∃ e ∈ g.edgesData, (edgeCell source target sd td g e c).isSome then
          some (g.edgesData.map (fun e => (edgeCell source target sd td g e c).getD nan))
        else none := by
  have hcol : ∀ d : Option NodeDataSpec, d ≠ some .other → ∃ s, NodeDataSpec.columns d = .ok s := by
    intro d hd
    match d, hd with
    | none, _ => exact ⟨_, rfl⟩
    | some (.mapping m), _ => exact ⟨_, rfl⟩
    | some (.iterable l), _ => exact ⟨_, rfl⟩
    | some .other, hd => exact absurd rfl hd
  obtain ⟨s, hs'⟩ := hcol sd hs
  obtain ⟨t, ht'⟩ := hcol td ht
  unfold graphToEdgesDataframe
  rw [if_pos rfl, hs', ht']
  refine ⟨_, rfl, rfl, by rw [dataFrame_keys]; exact nodup_recordColumns _, ?_⟩
  intro c
  simp only
  rw [dataFrame_get?, List.map_map]
  have hrec : ∀ e ∈ g.edgesData, (edgeRecord source target s t g e).get? c = edgeCell source target sd td g e c :=
    fun e he => edgeRecord_get? hs' ht' g (edgesData_nodup h he) c
  have hcond : (∃ r ∈ g.edgesData.map (edgeRecord source target s t g), c ∈ r.keys) ↔
      ∃ e ∈ g.edgesData, (edgeCell source target sd td g e c).isSome = true := by
    constructor
    · rintro ⟨r, hr, hc⟩
      obtain ⟨e, he, rfl⟩ := List.mem_map.1 hr
      obtain ⟨v, hv⟩ := Dict.exists_get?_of_mem_keys hc
      rw [hrec e he] at hv
      exact ⟨e, he, by rw [hv]; rfl⟩
    · rintro ⟨e, he, hc⟩
      refine ⟨_, List.mem_map.2 ⟨e, he, rfl⟩, ?_⟩
      by_contra hn
      rw [← hrec e he, Dict.get?_eq_none_iff.2 hn] at hc
      cases hc
  simp only [hcond]
  split
  · congr 1
    apply List.map_congr_left
    intro e he
    simp only [Function.comp_apply]
    rw [hrec e he]
  · rfl

/-- Data specifications which are not iterable raise `TypeError`. -/
theorem edges_dataframe_typeError (g : Graph PyKey Data) (source target : PyKey) {sd td : Option NodeDataSpec}
    (h : sd = some .other ∨ td = some .other) :
    ∃ m, graphToEdgesDataframe true g source target sd td = .error (.typeError m) := by
  unfold graphToEdgesDataframe
  rw [if_pos rfl]
  rcases h with rfl | rfl
  · exact ⟨_, rfl⟩
  · match sd with
    | none => exact ⟨_, rfl⟩
    | some (.mapping m) => exact ⟨_, rfl⟩
    | some (.iterable l) => exact ⟨_, rfl⟩
    | some .other => exact ⟨_, rfl⟩

/-- `graph_to_dataframes` returns both DataFrames. -/
theorem both_dataframes {g : Graph PyKey Data} {key : Option PyKey} {source target : PyKey}
    {sd td : Option NodeDataSpec} {fn fe : Frame}
    (h : graphToDataframes true g key source target sd td = .ok (fn, fe)) :
    graphToNodesDataframe true g key = .ok fn ∧ graphToEdgesDataframe true g source target sd td = .ok fe := by
  unfold graphToDataframes at h
  split at h
  · cases h
  · rename_i h1
    split at h
    · cases h
    · rename_i h2
      cases h
      exact ⟨h1, h2⟩

/-- An attribute named as the key column hides the key of the node. -/
theorem nodes_dataframe_hidden_key :
    ∃ (g : Graph PyKey Data) (f : Frame), g.WF ∧ g.nodes = [.str "x"] ∧
      graphToNodesDataframe true g (some (.str "key")) = .ok f ∧
      f.columns = [(.str "key", [.str "other"])] := by
  refine ⟨⟨false, false, [], [(.str "x", [(.str "key", .str "other")])], []⟩, _, ?_, rfl, rfl, rfl⟩
  constructor <;> decide

/-! ### C60 -/

/-- A DataFrame is read as its rows: as many as its length, each with the values of the columns. -/
theorem dataframe_rows {f : Dict PyKey (List Data)} {cols : List PyKey} {n : Nat} (hne : cols ≠ [])
    (hc : ∀ c ∈ cols, c ∈ f.keys) (hn : ∀ c vs, f.get? c = some vs → vs.length = n) :
    ∃ rows, iteratorFromDataframe (.frame f) (some cols) = .ok rows ∧ rows.length = n ∧
      ∀ (i : Nat) (row : Row), rows[i]? = some row →
        ∀ c ∈ cols, ∃ vs v, f.get? c = some vs ∧ vs[i]? = some v ∧ row.item c = .ok v :=
  frame_rows hne hc hn

/-- By default all columns are read. -/
theorem dataframe_rows_all {f : Dict PyKey (List Data)} {n : Nat} (hne : f ≠ [])
    (hn : ∀ c vs, f.get? c = some vs → vs.length = n) :
    ∃ rows, iteratorFromDataframe (.frame f) none = .ok rows ∧ rows.length = n ∧
      ∀ (i : Nat) (row : Row), rows[i]? = some row →
        ∀ c ∈ f.keys, ∃ vs v, f.get? c = some vs ∧ vs[i]? = some v ∧ row.item c = .ok v := by
  have : iteratorFromDataframe (.frame f) none = iteratorFromDataframe (.frame f) (some f.keys) := rfl
  rw [this]
  exact frame_rows (by simpa [Dict.keys] using hne) (fun _ h => h) hn

/-- A missing column raises `KeyError`. -/
theorem dataframe_missing_column {f : Dict PyKey (List Data)} {cols : List PyKey} (h : ∃ c ∈ cols, c ∉ f.keys) :
    iteratorFromDataframe (.frame f) (some cols) = .error .keyError := by
  unfold iteratorFromDataframe
  simp only [Option.getD_some]
  rw [frameColumns_missing h]

/-- Other tables are used as they are. -/
theorem table_rows (rows : List Row) (cols : Option (List PyKey)) :
    iteratorFromDataframe (.rows rows) cols = .ok rows := rfl

/-- A DataFrame meeting the hypotheses above. -/
theorem sample_dataframe :
    ∃ (f : Dict PyKey (List Data)) (rows : List Row), f ≠ [] ∧ (∀ c vs, f.get? c = some vs → vs.length = 2) ∧
      iteratorFromDataframe (.frame f) none = .ok rows ∧ rows.length = 2 := by
  refine ⟨[(.str "a", [.int 1, .int 2]), (.str "b", [.str "x", .str "y"])], _, by simp, ?_, rfl, rfl⟩
  intro c vs hv
  rw [Dict.get?_cons] at hv
  split at hv
  · cases hv; rfl
  · rw [Dict.get?_cons] at hv
    split at hv
    · cases hv; rfl
    · cases hv

/-! ### C54 -/

theorem columnValue_str {A : List PyKey} {row : Row} {a : Attrs Data} (hs : ∀ c ∈ A, ∃ s, c = .str s)
    (ha : ∀ k, k ∈ a.keys ↔ k ∈ A) (hr : ∀ c ∈ A, row.item c = .ok ((a.get? c).getD nan)) (k : PyKey) :
    columnValue A row k = a.get? k := by
  unfold columnValue
  have hf : A.filter (fun c => decide (PyKey.str c.toStr = k)) = A.filter (fun c => decide (c = k)) := by
    apply List.filter_congr
    intro c hc
    obtain ⟨s, rfl⟩ := hs c hc
    rfl
  rw [hf]
  cases hl : (A.filter (fun c => decide (c = k))).getLast? with
  | none =>
    rw [List.getLast?_eq_none_iff, List.filter_eq_nil_iff] at hl
    have : k ∉ a.keys := fun hk => hl k ((ha k).1 hk) (by simp)
    rw [Dict.get?_eq_none_iff.2 this]; rfl
  | some c =>
    have hm := List.mem_filter.1 (List.mem_of_getLast? hl)
    have e : c = k := by simpa using hm.2
    subst e
    obtain ⟨v, hv⟩ := Dict.exists_get?_of_mem_keys ((ha c).2 hm.1)
    simp [hr c hm.1, hv, Except.toOption]

/-- A graph all of whose nodes, and all of whose edges, have the same attribute names is given back by
`tables_to_graph` from the DataFrames of `graph_to_dataframes`. -/
theorem tabular_roundtrip {g : Graph PyKey Data} {A B : List PyKey} {key source target : PyKey}
    (h : Tabular g A B key source target) (hA : NodeColumnsSafe A)
    (hB : ∀ c ∈ B, c.toStr ∉ ["self", "u_of_edge", "v_of_edge"]) (weight : String) (add : Bool) :
    ∃ fn fe g', graphToDataframes true g (some key) source target none none = .ok (fn, fe) ∧
      tablesToGraph (.frame fn.columns) (.frame fe.columns) key A ⟨source, target, B, false, weight, add⟩ g.directed =
        .ok g' ∧ SameData g' g := by
  have hwf := h.wf
  let o : EdgeOptions := ⟨source, target, B, false, weight, add⟩
  -- the rows of both frames
  have hnkey : ∀ p ∈ g.node, key ∈ (nodeRecord key p.1 p.2).keys := by
    intro p _
    unfold nodeRecord
    rw [Dict.mem_keys_update]
    exact .inl (by simp [Dict.keys])
  have hnattr : ∀ p ∈ g.node, ∀ c ∈ A, c ∈ (nodeRecord key p.1 p.2).keys := by
    intro p hp c hc
    unfold nodeRecord
    rw [Dict.mem_keys_update]
    exact .inr ((h.nodeKeys p hp c).2 hc)
  obtain ⟨nrows, hn1, hn2⟩ := dataFrame_rows (records := g.node.map (fun p => nodeRecord key p.1 p.2))
    (cols := key :: A) (by simp) (by
      obtain ⟨p, L, hp⟩ := List.exists_cons_of_ne_nil h.nodes
      have hp' : p ∈ g.node := by rw [hp]; exact List.mem_cons_self
      intro c hc
      refine ⟨_, List.mem_map.2 ⟨p, hp', rfl⟩, ?_⟩
      rcases List.mem_cons.1 hc with rfl | hc
      · exact hnkey p hp'
      · exact hnattr p hp' c hc)
  have hcell : ∀ e ∈ g.edgesData, ∀ c, (edgeRecord source target none none g e).get? c =
      (e.2.2.get? c).or (if c = target then some (Data.ofKey e.2.1)
          else if c = source then some (Data.ofKey e.1) else none) := by
    intro e he c
    rw [edgeRecord_get? (sd := none) (td := none) rfl rfl g (edgesData_nodup hwf he)]
    simp [edgeCell, requested]
  have hattr : ∀ e ∈ g.edgesData, ∀ c ∈ B, (edgeRecord source target none none g e).get? c = e.2.2.get? c := by
    intro e he c hc
    obtain ⟨v, hv⟩ := Dict.exists_get?_of_mem_keys ((h.edgeKeys e he c).2 hc)
    rw [hcell e he, hv]; rfl
  have hsrc : ∀ e ∈ g.edgesData, (edgeRecord source target none none g e).get? source = some (Data.ofKey e.1) := by
    intro e he
    have : source ∉ e.2.2.keys := fun hc => h.sourceCol ((h.edgeKeys e he _).1 hc)
    rw [hcell e he, Dict.get?_eq_none_iff.2 this, if_neg h.ends, if_pos rfl]; rfl
  have htgt : ∀ e ∈ g.edgesData, (edgeRecord source target none none g e).get? target = some (Data.ofKey e.2.1) := by
    intro e he
    have : target ∉ e.2.2.keys := fun hc => h.targetCol ((h.edgeKeys e he _).1 hc)
    rw [hcell e he, Dict.get?_eq_none_iff.2 this, if_pos rfl]; rfl
  have hmemk : ∀ (r : Attrs Data) (c : PyKey) (v : Data), r.get? c = some v → c ∈ r.keys := by
    intro r c v hv
    by_contra hc
    rw [Dict.get?_eq_none_iff.2 hc] at hv; cases hv
  obtain ⟨erows, he1, he2⟩ := dataFrame_rows (records := g.edgesData.map (edgeRecord source target none none g))
    (cols := [source, target] ++ B) (by simp) (by
      obtain ⟨e, L, hp⟩ := List.exists_cons_of_ne_nil h.edges
      have hp' : e ∈ g.edgesData := by rw [hp]; exact List.mem_cons_self
      intro c hc
      refine ⟨_, List.mem_map.2 ⟨e, hp', rfl⟩, ?_⟩
      rcases List.mem_append.1 hc with hc | hc
      · simp only [List.mem_cons, List.not_mem_nil, or_false] at hc
        rcases hc with rfl | rfl
        · exact hmemk _ _ _ (hsrc e hp')
        · exact hmemk _ _ _ (htgt e hp')
      · obtain ⟨v, hv⟩ := Dict.exists_get?_of_mem_keys ((h.edgeKeys e hp' c).2 hc)
        exact hmemk _ _ v (by rw [hattr e hp' c hc, hv]))
  -- what the rows hold
  have hnrows : List.Forall₂ (fun (row : Row) (p : PyKey × Attrs Data) => RowNode key row p.1 ∧
      ∀ c ∈ A, row.item c = .ok ((p.2.get? c).getD nan)) nrows g.node := by
    have hmem : ∀ p ∈ g.node, p ∈ g.node := fun _ hp => hp
    rw [List.forall₂_map_right_iff] at hn2
    generalize hL : g.node = L at hn2
    have hsub : ∀ p ∈ L, p ∈ g.node := by rw [hL]; exact fun _ hp => hp
    clear hL hn1
    induction hn2 with
    | nil => exact .nil
    | cons hd _ ih =>
      rename_i row p rows L _h
      have hp := hsub p List.mem_cons_self
      refine .cons ⟨⟨Data.ofKey p.1, ?_, asNode_ofKey _⟩, ?_⟩ (ih (fun q hq => hsub q (List.mem_cons_of_mem _ hq)))
      · rw [hd key List.mem_cons_self, nodeRecord_get? (hwf.nodeAttrs p hp)]
        have : key ∉ p.2.keys := fun hc => h.keyCol ((h.nodeKeys p hp _).1 hc)
        rw [Dict.get?_eq_none_iff.2 this]; simp
      · intro c hc
        rw [hd c (List.mem_cons_of_mem _ hc), nodeRecord_get? (hwf.nodeAttrs p hp)]
        obtain ⟨v, hv⟩ := Dict.exists_get?_of_mem_keys ((h.nodeKeys p hp c).2 hc)
        rw [hv]; rfl
  have herows : List.Forall₂ (fun (row : Row) (e : PyKey × PyKey × Attrs Data) => RowEnds o row (e.1, e.2.1) ∧
      ∀ c ∈ B, row.item c = .ok ((e.2.2.get? c).getD nan)) erows g.edgesData := by
    rw [List.forall₂_map_right_iff] at he2
    generalize hL : g.edgesData = L at he2
    have hsub : ∀ p ∈ L, p ∈ g.edgesData := by rw [hL]; exact fun _ hp => hp
    clear hL he1
    induction he2 with
    | nil => exact .nil
    | cons hd _ ih =>
      rename_i row e rows L _h
      have hp := hsub e List.mem_cons_self
      refine .cons ⟨⟨⟨Data.ofKey e.1, ?_, asNode_ofKey _⟩, Data.ofKey e.2.1, ?_, asNode_ofKey _⟩, ?_⟩
        (ih (fun q hq => hsub q (List.mem_cons_of_mem _ hq)))
      · show row.item source = _
        rw [hd source (by simp), hsrc e hp]; rfl
      · show row.item target = _
        rw [hd target (by simp), htgt e hp]; rfl
      · intro c hc
        rw [hd c (List.mem_append_right _ hc), hattr e hp c hc]
  have hN : List.Forall₂ (RowNode key) nrows (g.node.map Prod.fst) := by
    rw [List.forall₂_map_right_iff]
    exact hnrows.imp (fun _ _ hx => hx.1)
  have hE : List.Forall₂ (RowEnds o) erows (g.edgesData.map (fun e => (e.1, e.2.1))) := by
    rw [List.forall₂_map_right_iff]
    exact herows.imp (fun _ _ hx => hx.1)
  have colsOf : ∀ {β : Type} {R : Row → β → Prop} {cols : List PyKey} {rows : List Row} {L : List β}
      (val : β → PyKey → Data), List.Forall₂ R rows L → (∀ row x, R row x → ∀ c ∈ cols, row.item c = .ok (val x c)) →
      ∀ row ∈ rows, HasColumns cols row := by
    intro β R cols rows L val hF hR
    induction hF with
    | nil => intro row hr; cases hr
    | cons hd _ ih =>
      intro row hr
      rcases List.mem_cons.1 hr with rfl | hr
      · exact fun c hc => ⟨_, hR _ _ hd c hc⟩
      · exact ih row hr
  have hNc : ∀ row ∈ nrows, HasColumns A row :=
    colsOf (fun p c => (Dict.get? p.2 c).getD nan) hnrows (fun _ _ hx c hc => hx.2 c hc)
  have hEc : ∀ row ∈ erows, HasColumns o.edgeData row :=
    colsOf (fun e c => (Dict.get? e.2.2 c).getD nan) herows (fun _ _ hx c hc => hx.2 c hc)
  have hends : ∀ e ∈ g.edgesData.map (fun e => (e.1, e.2.1)), e.1 ∈ g.node.map Prod.fst ∧ e.2 ∈ g.node.map Prod.fst := by
    intro e he
    obtain ⟨⟨u, v, a⟩, hf, rfl⟩ := List.mem_map.1 he
    obtain ⟨l, hl, rfl, rfl, _⟩ := (Graph.mem_edgesData hwf).1 hf
    have := hwf.ends l hl
    rcases g.orient_cases l with hx | ⟨_, hx⟩ <;> rw [hx]
    · exact this
    · exact this.symm
  obtain ⟨g', hg'⟩ := tables_total_add (directed := g.directed) hN hNc hA hE hEc ⟨hB, fun hc => by cases hc⟩ (.inr hends)
  refine ⟨_, _, g', rfl, ?_, ?_⟩
  · rw [tables_frame hn1 he1]
    exact hg'
  · obtain ⟨c1, c2, c3, c4⟩ := tables_class hg'
    have hnodes : ∀ n, n ∈ g'.nodes ↔ n ∈ g.nodes := by
      intro n
      rw [tables_nodes hN hE hg']
      constructor
      · rintro (hn | ⟨_, e, he, rfl | rfl⟩)
        · exact hn
        · exact (hends e he).1
        · exact (hends e he).2
      · exact .inl
    have hhas : ∀ u v, g'.hasEdge u v = true ↔ g.hasEdge u v = true := by
      intro u v
      rw [tables_edges hE hg', hasEdge_edgesData hwf]
      constructor
      · rintro ⟨e, he, hs⟩
        obtain ⟨f, hf, rfl⟩ := List.mem_map.1 he
        exact ⟨f, hf, samePair_sameEnds.2 hs⟩
      · rintro ⟨f, hf, hs⟩
        exact ⟨_, List.mem_map.2 ⟨f, hf, rfl⟩, samePair_sameEnds.1 hs⟩
    -- the data of an edge
    have hkd : ∀ u v a, g.keydict? u v = some [(.int 0, a)] →
        ∃ b : Attrs Data, g'.keydict? u v = some [(.int 0, b)] ∧ ∀ k, b.get? k = a.get? k := by
      intro u v a ha
      have hex : g.hasEdge u v = true := by unfold Graph.hasEdge; rw [ha]; rfl
      obtain ⟨e, he, hs⟩ := (hasEdge_edgesData hwf u v).1 hex
      have hek := simple_edgesData_keydict hwf h.multi he
      rw [Graph.keydict?_samePair hs, ha] at hek
      have ea : a = e.2.2 := by simpa using hek
      obtain ⟨pre, post, hsplit⟩ := List.append_of_mem he
      have hpw := simple_edgesData_pairwise hwf h.multi
      rw [hsplit] at herows hpw
      obtain ⟨rpre, row, rpost, hrows, _, hrow, hrpost⟩ := forall₂_split herows.flip
      have hlast : ∀ f ∈ post.map (fun e => (e.1, e.2.1)), ¬ SameEnds g.directed f (e.1, e.2.1) := by
        intro f hf hsame
        obtain ⟨x, hx, rfl⟩ := List.mem_map.1 hf
        have := (List.pairwise_append.1 hpw).2.1
        rw [List.pairwise_cons] at this
        have := this.1 x hx
        rw [samePair_comm] at this
        have h2 := samePair_sameEnds.2 hsame
        rw [this] at h2; cases h2
      have hpostE : List.Forall₂ (RowEnds o) rpost (post.map (fun e => (e.1, e.2.1))) := by
        rw [List.forall₂_map_right_iff]
        exact hrpost.flip.imp (fun _ _ hx => hx.1)
      rw [hrows] at hg'
      obtain ⟨b, hb, hbk⟩ := tables_edge_last rfl hrow.1 hpostE hlast hg'
      refine ⟨b, ?_, fun k => ?_⟩
      · rw [← hb]
        exact (Graph.keydict?_samePair (by rw [c2]; exact hs)).symm
      · rw [hbk, ea]
        exact columnValue_str h.edgeStr (h.edgeKeys e he) hrow.2 k
    have hedge0 : ∀ u v key, g.edge? u v key ≠ none → ∃ a, g.keydict? u v = some [(.int 0, a)] ∧ key = .int 0 ∧
        g.edge? u v key = some a := by
      intro u v key hne
      unfold Graph.edge? at hne ⊢
      cases hk : g.keydict? u v with
      | none => rw [hk] at hne; exact absurd rfl hne
      | some d =>
        obtain ⟨l, hl, _, hd⟩ := (Graph.keydict?_eq_some hwf).1 hk
        obtain ⟨a, ha⟩ := simple_data hwf h.multi hl
        rw [← hd, ha] at hk ⊢
        rw [hk] at hne
        simp only [Option.bind_some, Dict.get?_cons, Dict.get?_nil] at hne ⊢
        split at hne
        · rename_i hx
          exact ⟨a, rfl, hx.symm, by rw [if_pos hx]⟩
        · exact absurd rfl hne
    have hedge1 : ∀ u v key, g'.edge? u v key ≠ none → g'.hasEdge u v = true ∧ key = .int 0 := by
      intro u v key hne
      unfold Graph.edge? at hne
      cases hk : g'.keydict? u v with
      | none => rw [hk] at hne; exact absurd rfl hne
      | some d =>
        refine ⟨by unfold Graph.hasEdge; rw [hk]; rfl, ?_⟩
        obtain ⟨l, hl, _, hd⟩ := (Graph.keydict?_eq_some c1).1 hk
        obtain ⟨a, ha⟩ := simple_data c1 c3 hl
        rw [← hd, ha] at hk
        rw [hk] at hne
        simp only [Option.bind_some, Dict.get?_cons, Dict.get?_nil] at hne
        split at hne
        · rename_i hx; exact hx.symm
        · exact absurd rfl hne
    refine ⟨c2, c3.trans h.multi.symm, c4.trans h.attrs.symm, hnodes, ?_, ?_, ?_⟩
    · intro n a b ha hb k
      have hmem : (n, b) ∈ g.node := Dict.mem_of_get? hb
      obtain ⟨pre, post, hsplit⟩ := List.append_of_mem hmem
      have hnd := hwf.nodup
      unfold Graph.nodes Dict.keys at hnd
      rw [hsplit] at hnrows hnd
      obtain ⟨rpre, row, rpost, hrows, _, hrow, hrpost⟩ := forall₂_split hnrows.flip
      have hpostN : List.Forall₂ (RowNode key) rpost (post.map Prod.fst) := by
        rw [List.forall₂_map_right_iff]
        exact hrpost.flip.imp (fun _ _ hx => hx.1)
      have hnot : n ∉ post.map Prod.fst := by
        rw [List.map_append, List.map_cons, List.nodup_append] at hnd
        exact (List.nodup_cons.1 hnd.2.1).1
      rw [hrows] at hg'
      obtain ⟨a', ha', hak⟩ := tables_node_last hrow.1 hpostN hnot hg'
      rw [ha] at ha'; cases ha'
      rw [hak]
      exact columnValue_str h.nodeStr (h.nodeKeys _ hmem) hrow.2 k
    · intro u v key
      rw [Bool.eq_iff_iff, Option.isSome_iff_ne_none, Option.isSome_iff_ne_none]
      constructor
      · intro hne
        obtain ⟨h1, h2⟩ := hedge1 u v key hne
        have h3 := (hhas u v).1 h1
        unfold Graph.hasEdge at h3
        obtain ⟨d, hd⟩ := Option.isSome_iff_exists.1 h3
        obtain ⟨l, hl, _, hld⟩ := (Graph.keydict?_eq_some hwf).1 hd
        obtain ⟨a, ha⟩ := simple_data hwf h.multi hl
        unfold Graph.edge?
        rw [hd, ← hld, ha, h2]
        simp [Dict.get?_cons]
      · intro hne
        obtain ⟨a, h1, h2, _⟩ := hedge0 u v key hne
        obtain ⟨b, hb, _⟩ := hkd u v a h1
        unfold Graph.edge?
        rw [hb, h2]
        simp [Dict.get?_cons]
    · intro u v key a b ha hb k
      obtain ⟨b', h1, h2, h3⟩ := hedge0 u v key (by rw [hb]; simp)
      rw [hb] at h3; cases h3
      obtain ⟨a', ha', hk'⟩ := hkd u v b h1
      unfold Graph.edge? at ha
      rw [ha', h2] at ha
      simp only [Option.bind_some, Dict.get?_cons, if_true, Option.some.injEq] at ha
      subst ha
      exact hk' k

/-- A graph meeting the hypotheses. -/
theorem sample_tabular :
    Tabular ⟨false, false, [], [(.int 1, [(.str "a", .int 5)]), (.str "x", [(.str "a", .int 6)])],
      [⟨.int 1, .str "x", [(.int 0, [(.str "weight", .int 3)])]⟩]⟩ [.str "a"] [.str "weight"] (.str "key")
      (.str "source") (.str "target") := by
  refine ⟨?_, rfl, rfl, by simp, ?_, ?_, ?_, ?_, ?_, by decide, by decide, by decide, by decide⟩
  · constructor <;> decide
  · intro hc
    cases hc
  · intro p hp k
    simp only [List.mem_cons, List.not_mem_nil, or_false] at hp
    rcases hp with rfl | rfl <;> exact Iff.rfl
  · intro e he k
    have : e ∈ [((.int 1 : PyKey), (.str "x" : PyKey), ([(.str "weight", .int 3)] : Attrs Data))] := he
    rw [List.mem_singleton] at this
    subst this
    exact Iff.rfl
  · intro c hc; rw [List.mem_singleton] at hc; exact ⟨_, hc⟩
  · intro c hc; rw [List.mem_singleton] at hc; exact ⟨_, hc⟩

/-- A graph without edges is not given back: its DataFrame of edges has no column at all, so that reading it raises
`KeyError`. -/
theorem tabular_roundtrip_no_edges (g : Graph PyKey Data) (h : g.edgesData = []) (key source target : PyKey)
    (A B : List PyKey) (weight : String) (count add : Bool) {fn fe : Frame}
    (hf : graphToDataframes true g (some key) source target none none = .ok (fn, fe)) :
    tablesToGraph (.frame fn.columns) (.frame fe.columns) key A ⟨source, target, B, count, weight, add⟩ g.directed =
      .error .keyError := by
  obtain ⟨_, h2⟩ := both_dataframes hf
  unfold graphToEdgesDataframe at h2
  rw [if_pos rfl, h] at h2
  cases h2
  unfold tablesToGraph
  have he : iteratorFromDataframe (.frame (dataFrame [])) (some ([source, target] ++ B)) = .error .keyError :=
    dataframe_missing_column ⟨source, by simp, by simp [dataFrame, recordColumns, Dict.keys]⟩
  split
  · rename_i e hx
    unfold iteratorFromDataframe at hx
    simp only at hx
    split at hx
    · rename_i e' hx'
      have : e' = .keyError := by
        by_cases hc : ∀ c ∈ (some (key :: A)).getD fn.columns.keys, c ∈ fn.columns.keys
        · rw [frameColumns_ok hc] at hx'; cases hx'
        · push Not at hc
          rw [frameColumns_missing hc] at hx'; cases hx'; rfl
      cases hx; rw [this]
    · cases hx
  · simp only [List.map_nil]
    rw [he]

end Pelote
