import Verif.Props.Bipartite
import Verif.Props.Projection
import Verif.Lemmas.MapAttrs

/-! Property C71: from a table to the projection of its bipartite graph. -/
namespace Pelote

/-! ### Helpers -/

theorem forall₂_first {α β : Type} {R : α → β → Prop} (p : β → Prop) [DecidablePred p] {rows : List α} {cells : List β}
    (h : List.Forall₂ R rows cells) (hex : ∃ c ∈ cells, p c) :
    ∃ pre row post cpre c cpost, rows = pre ++ row :: post ∧ cells = cpre ++ c :: cpost ∧ List.Forall₂ R pre cpre ∧
      R row c ∧ List.Forall₂ R post cpost ∧ p c ∧ ∀ c' ∈ cpre, ¬ p c' := by
  induction h with
  | nil => simp at hex
  | @cons row c rows cells hr h ih =>
    by_cases hc : p c
    · exact ⟨[], row, rows, [], c, cells, rfl, rfl, .nil, hr, h, hc, by simp⟩
    · obtain ⟨pre, row', post, cpre, c', cpost, h1, h2, h3, h4, h5, h6, h7⟩ := ih (by
        obtain ⟨d, hd, hpd⟩ := hex
        rcases List.mem_cons.1 hd with rfl | hd
        · exact absurd hpd hc
        · exact ⟨d, hd, hpd⟩)
      refine ⟨row :: pre, row', post, c :: cpre, c', cpost, by rw [h1]; rfl, by rw [h2]; rfl, .cons hr h3, h4, h5, h6, ?_⟩
      intro d hd
      rcases List.mem_cons.1 hd with rfl | hd
      · exact hc
      · exact h7 d hd

/-- The attributes of a node of the first column. -/
theorem bipartite_first_attrs {rows : List Row} {o : BipartiteOptions} {cells : List (PyKey × PyKey)}
    (hc : List.Forall₂ (RowCells o) rows cells) (hs : Separate o cells) (hp : o.firstData = none) {g : Graph PyKey Data}
    (h : tableToBipartiteGraph (.rows rows) o = .ok g) {a : PyKey} (ha : ∃ c ∈ cells, c.1 = a) :
    ∃ d, g.node.get? (partNode o cells o.firstCol a) = some d ∧
      ∀ k, d.get? k = if k = .str "label" then some (.str a.toStr)
        else if k = .str o.nodePartAttr then some (Data.ofKey (o.firstName.getD o.firstCol)) else none := by
  obtain ⟨pre, row, post, cpre, c, cpost, rfl, rfl, h1, h2, h3, rfl, h5⟩ := forall₂_first (fun c => c.1 = a) hc ha
  obtain ⟨d, e, hd, he, hk⟩ := bipartite_first_data h1 h2 h3 hs h5 (fun f hf => by rw [hp] at hf; cases hf) h
  rw [hp] at he
  cases he
  exact ⟨d, hd, fun k => by rw [hk]; rfl⟩

/-- The attributes of a node of the second column. -/
theorem bipartite_second_attrs {rows : List Row} {o : BipartiteOptions} {cells : List (PyKey × PyKey)}
    (hc : List.Forall₂ (RowCells o) rows cells) (hs : Separate o cells) (hp : o.secondData = none) {g : Graph PyKey Data}
    (h : tableToBipartiteGraph (.rows rows) o = .ok g) {a : PyKey} (ha : ∃ c ∈ cells, c.2 = a) :
    ∃ d, g.node.get? (partNode o cells o.secondCol a) = some d ∧
      ∀ k, d.get? k = if k = .str "label" then some (.str a.toStr)
        else if k = .str o.nodePartAttr then some (Data.ofKey (o.secondName.getD o.secondCol)) else none := by
  obtain ⟨pre, row, post, cpre, c, cpost, rfl, rfl, h1, h2, h3, rfl, h5⟩ := forall₂_first (fun c => c.2 = a) hc ha
  obtain ⟨d, e, hd, he, hk⟩ := bipartite_second_data h1 h2 h3 hs h5 (fun f hf => by rw [hp] at hf; cases hf) h
  rw [hp] at he
  cases he
  exact ⟨d, hd, fun k => by rw [hk]; rfl⟩

theorem mem_partners {cells : List (PyKey × PyKey)} {a b : PyKey} : b ∈ partners cells a ↔ (a, b) ∈ cells := by
  simp [partners]

theorem sameValue_refl {K : Type} [Field K] [LinearOrder K] (x : Val K) : SameValue x x := .inl rfl

theorem toVal_ofKey_ne_none {K : Type} [IntCast K] (k : PyKey) : (Data.ofKey k).toVal ≠ (Val.none : Val K) := by
  cases k <;> simp [Data.ofKey, Data.toVal]

section
variable {K : Type} [Field K] [LinearOrder K] {rows : List Row} {o : BipartiteOptions} {cells : List (PyKey × PyKey)} {g : Graph PyKey Data}

/-- The nodes of the first column are those whose part attribute has the name of the first part. -/
theorem inPart_first (hc : List.Forall₂ (RowCells o) rows cells) (hs : Separate o cells) (hp : PlainOptions K o)
    (h : tableToBipartiteGraph (.rows rows) o = .ok g) (n : PyKey) :
    InPart (g.mapAttrs (Data.toVal (K := K))) o.nodePartAttr
        (.value (Data.ofKey (o.firstName.getD o.firstCol)).toVal) n ↔
      ∃ c ∈ cells, n = partNode o cells o.firstCol c.1 := by
  have hl : (PyKey.str o.nodePartAttr = .str "label") = False := by simp [hp.label]
  constructor
  · rintro ⟨a, ha, hv⟩
    rw [Graph.node_mapAttrs] at ha
    obtain ⟨b, hb, rfl⟩ := Option.map_eq_some_iff.1 ha
    obtain ⟨c, hcc, rfl | rfl⟩ := (bipartite_nodes hc h n).1 (Dict.mem_keys_of_mem (Dict.mem_of_get? hb))
    · exact ⟨c, hcc, rfl⟩
    · exfalso
      obtain ⟨d, hd, hk⟩ := bipartite_second_attrs hc hs hp.second h ⟨c, hcc, rfl⟩
      rw [hb] at hd
      cases hd
      rw [get?_mapSnd, hk] at hv
      simp only [hl, if_false, if_true, Option.map_some, Option.getD_some] at hv
      exact hp.parts hv
  · rintro ⟨c, hcc, rfl⟩
    obtain ⟨d, hd, hk⟩ := bipartite_first_attrs hc hs hp.first h ⟨c, hcc, rfl⟩
    refine ⟨_, by rw [Graph.node_mapAttrs, hd]; rfl, ?_⟩
    rw [get?_mapSnd, hk]
    simp only [hl, if_false, if_true, Option.map_some, Option.getD_some]
    exact sameValue_refl _

/-- The neighbors of a node of the first column. -/
theorem hasEdge_first (hc : List.Forall₂ (RowCells o) rows cells) (hs : Separate o cells)
    (h : tableToBipartiteGraph (.rows rows) o = .ok g) {a : PyKey} (ha : ∃ c ∈ cells, c.1 = a) (t : PyKey) :
    g.hasEdge (partNode o cells o.firstCol a) t = true ↔
      ∃ b ∈ partners cells a, t = partNode o cells o.secondCol b := by
  have hw := fun b hb => bipartite_weights hc hs h (a := a) (b := b) ha hb
  constructor
  · intro he
    obtain ⟨first, second, hf, hse, hn, hd, hb⟩ := bipartite_bipartite hc hs h
    rcases hb _ _ he with ⟨h1, h2⟩ | ⟨h1, h2⟩
    · obtain ⟨c, hcc, rfl⟩ := (hse t).1 h2
      refine ⟨c.2, ?_, rfl⟩
      unfold Graph.hasEdge at he
      rw [hw c.2 ⟨c, hcc, rfl⟩] at he
      rw [mem_partners]
      by_contra hne
      rw [if_neg hne] at he
      cases he
    · obtain ⟨c, hcc, rfl⟩ := ha
      exact absurd ⟨(hf _).2 ⟨c, hcc, rfl⟩, h1⟩ (hd _)
  · rintro ⟨b, hb, rfl⟩
    rw [mem_partners] at hb
    unfold Graph.hasEdge
    rw [hw b ⟨_, hb, rfl⟩, if_pos hb]
    rfl

theorem keydict_attrs (hc : List.Forall₂ (RowCells o) rows cells) (hs : Separate o cells)
    (h : tableToBipartiteGraph (.rows rows) o = .ok g) {u v : PyKey} {d : Dict PyKey (Attrs Data)}
    (hd : g.keydict? u v = some d) : ∃ i, d = [(.int 0, [(.str o.edgeWeightAttr, .int i)])] := by
  have key : ∀ {u v}, (∃ c ∈ cells, u = partNode o cells o.firstCol c.1) → (∃ c ∈ cells, v = partNode o cells o.secondCol c.2) →
      g.keydict? u v = some d → ∃ i, d = [(.int 0, [(.str o.edgeWeightAttr, .int i)])] := by
    rintro u v ⟨c, hcc, rfl⟩ ⟨c', hcc', rfl⟩ hd
    rw [bipartite_weights hc hs h ⟨c, hcc, rfl⟩ ⟨c', hcc', rfl⟩] at hd
    split at hd
    · cases hd
      exact ⟨_, rfl⟩
    · cases hd
  obtain ⟨first, second, hf, hse, hn, hdj, hb⟩ := bipartite_bipartite hc hs h
  rcases hb u v (by unfold Graph.hasEdge; rw [hd]; rfl) with ⟨h1, h2⟩ | ⟨h1, h2⟩
  · exact key ((hf _).1 h1) ((hse _).1 h2) hd
  · refine key ((hf _).1 h2) ((hse _).1 h1) ?_
    rw [← hd]
    apply Graph.keydict?_samePair
    simp [samePair, (bipartite_class h).2.1]

/-- The weight of an edge of the bipartite graph. -/
def tableWeight (K : Type) [Field K] (o : BipartiteOptions) (g : Graph PyKey Data) (u v : PyKey) : K :=
  ((((g.keydict? u v).bind (fun d => d.get? (.int 0))).map (intWeight o.edgeWeightAttr)).getD 0 : Int)

theorem tableWeight_eq (hc : List.Forall₂ (RowCells o) rows cells) (hs : Separate o cells)
    (h : tableToBipartiteGraph (.rows rows) o = .ok g) {a b : PyKey} (hab : (a, b) ∈ cells) :
    tableWeight K o g (partNode o cells o.firstCol a) (partNode o cells o.secondCol b) = (cells.count (a, b) : K) := by
  unfold tableWeight
  rw [bipartite_weights hc hs h ⟨_, hab, rfl⟩ ⟨_, hab, rfl⟩, if_pos hab]
  simp [Dict.get?, intWeight]

theorem table_projectable [IsStrictOrderedRing K] (hc : List.Forall₂ (RowCells o) rows cells) (hne : cells ≠ [])
    (hs : Separate o cells) (hp : PlainOptions K o) (hcmp : FirstComparable o cells)
    (h : tableToBipartiteGraph (.rows rows) o = .ok g) (kind : Metric) (check : Bool) :
    letI := keyOrder
    Projectable (g.mapAttrs (Data.toVal (K := K))) (.value (Data.ofKey (o.firstName.getD o.firstCol)).toVal)
      o.nodePartAttr o.edgeWeightAttr kind check (tableWeight K o g) := by
  letI := keyOrder
  have hin := inPart_first (K := K) hc hs hp h
  obtain ⟨hwf, hdir, hmul, hat⟩ := bipartite_class h
  obtain ⟨first, second, hf, hse, hn, hdj, hb⟩ := bipartite_bipartite hc hs h
  have hinf : ∀ n, InPart (g.mapAttrs (Data.toVal (K := K))) o.nodePartAttr
        (.value (Data.ofKey (o.firstName.getD o.firstCol)).toVal) n ↔ first n := fun n => (hin n).trans (hf n).symm
  have hedge : ∀ u v a, (g.mapAttrs (Data.toVal (K := K))).edge? u v (.int 0) = some a →
      ∃ i : Int, a = [(.str o.edgeWeightAttr, .num (i : K))] ∧
        g.keydict? u v = some [(.int 0, [(.str o.edgeWeightAttr, .int i)])] := by
    intro u v a ha
    unfold Graph.edge? at ha
    rw [Graph.keydict?_mapAttrs] at ha
    rcases hd : g.keydict? u v with _ | d
    · rw [hd] at ha; cases ha
    · obtain ⟨i, rfl⟩ := keydict_attrs hc hs h hd
      rw [hd] at ha
      simp [Dict.get?, Data.toVal] at ha
      exact ⟨i, ha.symm, rfl⟩
  constructor
  · exact Graph.wf_mapAttrs _ hwf
  · exact hdir
  · exact hmul
  · intro ns r hh; cases hh
  · obtain ⟨c, hcc⟩ := List.exists_mem_of_ne_nil _ hne
    exact ⟨_, (hin _).2 ⟨c, hcc, rfl⟩⟩
  · intro u v he
    rw [Graph.hasEdge_mapAttrs] at he
    rw [hinf, hinf]
    rcases hb u v he with ⟨h1, h2⟩ | ⟨h1, h2⟩
    · exact ⟨fun _ hv => hdj v ⟨hv, h2⟩, fun _ => h1⟩
    · exact ⟨fun hu => absurd ⟨hu, h1⟩ (hdj u), fun hv => absurd h2 hv⟩
  · intro u v hu hv
    obtain ⟨c, hcc, rfl⟩ := (hin u).1 hu
    obtain ⟨c', hcc', rfl⟩ := (hin v).1 hv
    have hint : ∀ i j : Int, (PyOrd.gt (PyKey.int i) (.int j) : Py Bool) =
        .ok (decide (keyOrder.lt (.int j) (.int i))) := by
      intro i j
      show (Except.ok (decide (i > j)) : Py Bool) = _
      congr 1
      exact decide_eq_decide.2 (keyOrder_int j i).symm
    have hstr : ∀ i j : String, (PyOrd.gt (PyKey.str i) (.str j) : Py Bool) =
        .ok (decide (keyOrder.lt (.str j) (.str i))) := by
      intro i j
      show (Except.ok (decide (i > j)) : Py Bool) = _
      congr 1
      exact decide_eq_decide.2 (keyOrder_str j i).symm
    unfold partNode
    split
    · rename_i hd
      rcases hcmp hd with hi | hi
      · obtain ⟨i, hi1⟩ := hi c hcc
        obtain ⟨j, hi2⟩ := hi c' hcc'
        rw [hi1, hi2]
        exact hint i j
      · obtain ⟨i, hi1⟩ := hi c hcc
        obtain ⟨j, hi2⟩ := hi c' hcc'
        rw [hi1, hi2]
        exact hstr i j
    · exact hint _ _
  · intro n a ha hn' k hk
    obtain ⟨c, hcc, rfl⟩ := (hin n).1 hn'
    obtain ⟨d, hd, hdk⟩ := bipartite_first_attrs hc hs hp.first h ⟨c, hcc, rfl⟩
    rw [Graph.node_mapAttrs, hd] at ha
    cases ha
    obtain ⟨x, hx⟩ := Dict.exists_get?_of_mem_keys hk
    rw [Dict.get?_erase, get?_mapSnd, hdk] at hx
    by_cases h1 : k = .str o.nodePartAttr
    · simp [h1] at hx
    · by_cases h2 : k = .str "label"
      · exact ⟨"label", h2, by decide⟩
      · simp [h1, h2] at hx
  · rintro - x hx u v a ha hv
    cases hx
    obtain ⟨i, rfl, _⟩ := hedge u v a ha
    have : (PyKey.str o.edgeWeightAttr = .str o.nodePartAttr) = False := by simp [hp.weight.symm]
    simp only [Dict.get?, this, if_false, Option.getD_none] at hv
    rcases hv with hv | ⟨k, hv, _⟩
    · exact toVal_ofKey_ne_none _ hv.symm
    · cases hv
  · intro _ u v a ha
    obtain ⟨i, rfl, hi⟩ := hedge u v a ha
    refine .inr (.inl ?_)
    unfold tableWeight
    rw [hi]
    simp [Dict.get?, intWeight]
  · intro _ n hn' hne'
    obtain ⟨c, hcc, rfl⟩ := (hin n).1 hn'
    have := (hasEdge_first hc hs h ⟨c, hcc, rfl⟩ (partNode o cells o.secondCol c.2)).2
      ⟨c.2, mem_partners.2 hcc, rfl⟩
    refine ⟨partNode o cells o.secondCol c.2, ?_, ?_⟩
    · rw [mem_nbhd (Graph.wf_mapAttrs _ hwf), Graph.hasEdge_mapAttrs]
      exact this
    · rw [tableWeight_eq hc hs h hcc]
      exact_mod_cast (List.count_pos_iff.2 hcc).ne'

/-- C71.  A table of two columns made bipartite, then projected on its first column, links two values of that column
exactly when some rows give them a common value in the second one (and their similarity reaches the threshold, if any);
the weight is the similarity of the sets of values of the second column found beside them, each with the number of rows in
which it is.  Nodes are the values of the first column, labelled by them. -/
theorem table_projection [IsStrictOrderedRing K] [PyMath K] [AttrVal (Val K)]
    (hsqrt : ∀ x : K, 0 < x → 0 < PyMath.sqrt x) (hrnd : ∀ x : K, 0 < x → 0 < PyMath.rnd x)
    (hc : List.Forall₂ (RowCells o) rows cells) (hne : cells ≠ [])
    (hs : Separate o cells) (hp : PlainOptions K o) (hcmp : FirstComparable o cells)
    (h : tableToBipartiteGraph (.rows rows) o = .ok g)
    {metric : Option String} {kind : Metric} (hk : (metric, kind) ∈ metricNames) (check : Bool)
    {threshold : Option (Val K)} (ht : ∀ v, threshold = some v → ∃ t, v.toNum = .ok t ∧ 0 < t) :
    ∃ m, monopartiteProjection (g.mapAttrs (Data.toVal (K := K)))
        (.value (Data.ofKey (o.firstName.getD o.firstCol)).toVal) o.nodePartAttr o.edgeWeightAttr metric check threshold
        = .ok m ∧ m.WF ∧ m.directed = false ∧ m.multi = false ∧
      (∀ n, n ∈ m.nodes ↔ ∃ c ∈ cells, n = partNode o cells o.firstCol c.1) ∧
      (∀ c ∈ cells, ∃ d, m.node.get? (partNode o cells o.firstCol c.1) = some d ∧
        ∀ k, d.get? k = if k = .str "label" then some (.str c.1.toStr) else none) ∧
      ∀ c ∈ cells, ∀ c' ∈ cells, ∀ a,
        m.edge? (partNode o cells o.firstCol c.1) (partNode o cells o.firstCol c'.1) (.int 0) = some a ↔
          c.1 ≠ c'.1 ∧ (∃ b, (c.1, b) ∈ cells ∧ (c'.1, b) ∈ cells) ∧
          ReachesThreshold threshold (similarity kind (partners cells c.1) (partners cells c'.1)
            (fun b => (cells.count (c.1, b) : K)) (fun b => (cells.count (c'.1, b) : K))) ∧
          a = [(.str "weight", .num (similarity kind (partners cells c.1) (partners cells c'.1)
            (fun b => (cells.count (c.1, b) : K)) (fun b => (cells.count (c'.1, b) : K))))] := by
  letI := keyOrder
  have hin := inPart_first (K := K) hc hs hp h
  have hproj := table_projectable hc hne hs hp hcmp h kind check
  obtain ⟨m, hm, hmwf, hme⟩ := projection_exact hsqrt hrnd hproj hk ht
  obtain ⟨hd, hmul, _, hnode, _⟩ := projection_nodes_partial _ _ _ _ _ _ _ hproj.wf hproj.notFrozen hm
  have hattr : ∀ c ∈ cells, ∃ d, m.node.get? (partNode o cells o.firstCol c.1) = some d ∧
        ∀ k, d.get? k = if k = .str "label" then some (.str c.1.toStr) else none := by
    intro c hcc
    obtain ⟨d, hd, hdk⟩ := bipartite_first_attrs hc hs hp.first h ⟨c, hcc, rfl⟩
    refine ⟨_, (hnode _ _).2 ⟨(hin _).2 ⟨c, hcc, rfl⟩, _, by rw [Graph.node_mapAttrs, hd]; rfl, rfl⟩, fun k => ?_⟩
    rw [Dict.get?_erase, get?_mapSnd, hdk]
    have hl := hp.label
    by_cases h1 : k = .str o.nodePartAttr
    · subst h1
      simp [hl]
    · by_cases h2 : k = .str "label"
      · subst h2
        simp [Ne.symm hl, Data.toVal]
      · simp [h1, h2]
  have hnb : ∀ c ∈ cells, (g.mapAttrs (Data.toVal (K := K))).nbhd (partNode o cells o.firstCol c.1) =
      (partners cells c.1).image (partNode o cells o.secondCol) := by
    intro c hcc
    ext t
    rw [mem_nbhd hproj.wf, Graph.hasEdge_mapAttrs]
    refine (hasEdge_first hc hs h ⟨c, hcc, rfl⟩ t).trans ?_
    simp only [Finset.mem_image, eq_comm]
  have hinj : ∀ c ∈ cells, ∀ c' ∈ cells, Set.InjOn (partNode o cells o.secondCol)
      (partners cells c.1 ∪ partners cells c'.1 : Finset PyKey) := by
    intro c hcc c' hcc' x hx y hy hxy
    have mem : ∀ z, z ∈ (↑(partners cells c.1 ∪ partners cells c'.1 : Finset PyKey) : Set PyKey) →
        (o.secondCol, z) ∈ tagged o cells := by
      intro z hz
      rw [Finset.mem_coe, Finset.mem_union, mem_partners, mem_partners] at hz
      rcases hz with hz | hz
      · exact mem_tagged.2 ⟨_, hz, .inr rfl⟩
      · exact mem_tagged.2 ⟨_, hz, .inr rfl⟩
    exact (Prod.mk.inj (partNode_inj hs (mem x hx) (mem y hy) hxy)).2
  refine ⟨m, hm, hmwf, hd, hmul, fun n => ?_, hattr, fun c hcc c' hcc' a => ?_⟩
  · rw [← hin]
    constructor
    · intro hn
      obtain ⟨d, hd⟩ := Dict.exists_get?_of_mem_keys hn
      exact ((hnode n d).1 hd).1
    · intro hn
      obtain ⟨c, hcc, rfl⟩ := (hin n).1 hn
      obtain ⟨d, hd, _⟩ := hattr c hcc
      exact Dict.mem_keys_of_mem (Dict.mem_of_get? hd)
  · rw [hme, hnb c hcc, hnb c' hcc', similarity_image kind _ _ _ (hinj c hcc c' hcc')
      (fun t ht => tableWeight_eq hc hs h (mem_partners.1 ht)) (fun t ht => tableWeight_eq hc hs h (mem_partners.1 ht))]
    have e1 : partNode o cells o.firstCol c.1 ≠ partNode o cells o.firstCol c'.1 ↔ c.1 ≠ c'.1 := by
      refine not_congr ⟨fun he => ?_, fun he => by rw [he]⟩
      exact (Prod.mk.inj (partNode_inj hs (p := (o.firstCol, c.1)) (q := (o.firstCol, c'.1))
        (mem_tagged.2 ⟨c, hcc, .inl rfl⟩) (mem_tagged.2 ⟨c', hcc', .inl rfl⟩) he)).2
    have e2 : ((partners cells c.1).image (partNode o cells o.secondCol) ∩
        (partners cells c'.1).image (partNode o cells o.secondCol)).Nonempty ↔
        ∃ b, (c.1, b) ∈ cells ∧ (c'.1, b) ∈ cells := by
      rw [← Finset.image_inter_of_injOn _ _ (by simpa using hinj c hcc c' hcc'), Finset.image_nonempty]
      constructor
      · rintro ⟨b, hb⟩
        rw [Finset.mem_inter, mem_partners, mem_partners] at hb
        exact ⟨b, hb⟩
      · rintro ⟨b, h1, h2⟩
        exact ⟨b, Finset.mem_inter.2 ⟨mem_partners.2 h1, mem_partners.2 h2⟩⟩
    rw [e1, e2]
    constructor
    · rintro ⟨h1, _, _, h4⟩
      exact ⟨h1, h4⟩
    · rintro ⟨h1, h4⟩
      exact ⟨h1, (hin _).2 ⟨c, hcc, rfl⟩, (hin _).2 ⟨c', hcc', rfl⟩, h4⟩

end

/-- Three rows: two authors of a paper, one of them twice. -/
def plainOptions : BipartiteOptions where
  firstCol := .str "author"
  secondCol := .str "paper"
  nodePartAttr := "part"
  edgeWeightAttr := "weight"
  firstData := none
  secondData := none
  firstName := none
  secondName := none
  disjointKeys := false

def authorRow (a p : String) : Row := .dict [(.str "author", .str a), (.str "paper", .str p)]

local instance ratMathTable : PyMath ℚ := ⟨id, id, id⟩

set_option synthInstance.maxSize 2000 in
/-- The hypotheses of `table_projection` on a table of four rows, and what comes out of it: authors sharing a paper are
linked, here with weight 2 (dot product, one of the rows being there twice). -/
theorem table_projection_sample :
    let rows := [authorRow "Ada" "p", authorRow "Bob" "p", authorRow "Ada" "p", authorRow "Cy" "q"]
    let cells : List (PyKey × PyKey) :=
      [(.str "Ada", .str "p"), (.str "Bob", .str "p"), (.str "Ada", .str "p"), (.str "Cy", .str "q")]
    List.Forall₂ (RowCells plainOptions) rows cells ∧ Separate plainOptions cells ∧ PlainOptions ℚ plainOptions ∧
      FirstComparable plainOptions cells ∧
      ∃ g, tableToBipartiteGraph (.rows rows) plainOptions = .ok g ∧
        (monopartiteProjection (g.mapAttrs (Data.toVal (K := ℚ))) (.value (.str "author")) "part" "weight"
          (some "dot_product") true none).map (fun m => (m.nodes, m.edgesData)) =
          .ok ([.int 0, .int 2, .int 3], [(.int 0, .int 2, [(.str "weight", .num 2)])]) := by
  have cell : ∀ a p, RowCells plainOptions (authorRow a p) (.str a, .str p) :=
    fun a p => ⟨⟨_, rfl, rfl⟩, ⟨_, rfl, rfl⟩⟩
  refine ⟨.cons (cell _ _) (.cons (cell _ _) (.cons (cell _ _) (.cons (cell _ _) .nil))), ?_, ⟨rfl, rfl, ?_, ?_, ?_⟩, ?_,
    _, rfl, by decide +kernel⟩
  · intro h; cases h
  · decide
  · decide
  · rintro (h | ⟨k, h, _⟩)
    · revert h; decide
    · cases h
  · intro h; cases h

end Pelote
