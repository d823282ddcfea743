import Verif.Props.ProjectionWitness

/-! C41, C42: exactly what the bipartition check does, and exactly when the cosine similarity raises. -/
set_option linter.unusedSectionVars false
namespace Pelote

section
variable {V K : Type} [LinearOrder V] [Field K] [LinearOrder K]

theorem clashes_iff {g : Graph V (Val K)} (h : g.WF) (hs : g.multi = false) {part : Part V K} {partAttr : String}
    (hf : ∀ ns r, part ≠ .frozen ns r) {u v : V} {d : Dict PyKey (Attrs (Val K))} (hp : (v, d) ∈ g.adj u) :
    part.clashes g partAttr v d = true ↔ Clash g partAttr part u v := by
  cases part with
  | collection ns => simp [Part.clashes, Clash]
  | frozen ns r => exact absurd rfl (hf ns r)
  | value x =>
    obtain ⟨a, h1, h2⟩ := simple_get? h hs hp
    simp only [Part.clashes, Graph.taGet, hs, Bool.false_eq_true, if_false, h1, Option.getD_some, Part.asValue,
      pyEq_iff, Clash]
    exact ⟨fun hh => ⟨a, h2, hh⟩, fun ⟨b, hb, hh⟩ => by rw [h2] at hb; cases hb; exact hh⟩

theorem normLoop_unchecked {g : Graph V (Val K)} {part : Part V K} {partAttr weightAttr : String}
    {L : List (V × Dict PyKey (Attrs (Val K)))} (m : OnlineMetric V K)
    (hc : ∀ p ∈ L, part.clashes g partAttr p.1 p.2 = false) :
    normLoop g part partAttr weightAttr true L m = normLoop g part partAttr weightAttr false L m := by
  induction L generalizing m with
  | nil => rfl
  | cons p L ih =>
    obtain ⟨t, d⟩ := p
    unfold normLoop
    rw [hc (t, d) List.mem_cons_self]
    simp only [Bool.and_false, Bool.false_eq_true, if_false]
    split
    · rfl
    · exact ih _ (fun p hp => hc p (List.mem_cons_of_mem _ hp))

theorem partLoop_unchecked [PyMath K] {g : Graph V (Val K)} {part : Part V K} {partAttr weightAttr : String}
    {L : Dict V (Attrs (Val K))} (m : OnlineMetric V K) (mono : Graph V (Val K)) (b : Bool)
    (hc : ∀ p ∈ L, part.keeps partAttr p.1 p.2 = true → ∀ q ∈ g.adj p.1, part.clashes g partAttr q.1 q.2 = false) :
    partLoop g part partAttr weightAttr true L m mono b = partLoop g part partAttr weightAttr false L m mono b := by
  induction L generalizing m mono b with
  | nil => rfl
  | cons p L ih =>
    obtain ⟨n, a⟩ := p
    have ih' := fun m mono b => ih m mono b (fun p hp => hc p (List.mem_cons_of_mem _ hp))
    unfold partLoop
    cases hk : part.keeps partAttr n a with
    | false =>
      simp only [Bool.not_false, if_true]
      exact ih' _ _ _
    | true =>
      simp only [Bool.not_true, Bool.false_eq_true, if_false]
      have e : normLoop g part partAttr weightAttr true (g.adj n) m.resetNorm =
        normLoop g part partAttr weightAttr false (g.adj n) m.resetNorm :=
        normLoop_unchecked _ (hc (n, a) List.mem_cons_self hk)
      rw [e]
      simp only [ih']

variable [PyOrd V] [PyMath K] [AttrVal (Val K)] {g : Graph V (Val K)} {part : Part V K}
  {partAttr weightAttr : String} {metric : Option String} {threshold : Option (Val K)}

/-- C41, exactly.  In a simple graph, with `bipartition_check`, an edge from a node of the part showing a clash (see
`Clash`) raises `TypeError`; without any such edge the check has no effect at all. -/
theorem projection_check (h : g.WF) (hs : g.multi = false) (hf : ∀ ns r, part ≠ .frozen ns r) :
    ((∃ u v, InPart g partAttr part u ∧ g.hasEdge u v = true ∧ Clash g partAttr part u v) →
      ∃ s, monopartiteProjection g part partAttr weightAttr metric true threshold = .error (.typeError s)) ∧
    ((∀ u v, InPart g partAttr part u → g.hasEdge u v = true → ¬ Clash g partAttr part u v) →
      monopartiteProjection g part partAttr weightAttr metric true threshold =
        monopartiteProjection g part partAttr weightAttr metric false threshold) := by
  constructor
  · rintro ⟨u, v, hu, he, hc⟩
    unfold monopartiteProjection
    split
    · rename_i e hk
      unfold instantiateMetric at hk
      split at hk <;> cases hk
      exact ⟨_, rfl⟩
    · split
      · rename_i e ht
        obtain ⟨s, rfl⟩ := checkThreshold_error ht
        exact ⟨s, rfl⟩
      · have hmem := (Graph.hasEdge_mem h he).1
        have hg : g.order ≠ 0 := by
          intro h0
          have : g.node = [] := List.eq_nil_of_length_eq_zero h0
          simp [Graph.nodes, this, Dict.keys] at hmem
        rw [if_neg hg]
        split
        · rename_i e hpl
          obtain ⟨s, rfl⟩ := partLoop_error g part partAttr weightAttr true hpl
          exact ⟨s, rfl⟩
        · rename_i r m1 mono1 b1 hpl
          obtain ⟨f1, f2, f3, f4, f5⟩ := partLoop_frame g part partAttr weightAttr true hpl h.nodup
            (by simp [Graph.empty, Graph.nodes, Dict.keys]) h.nodeAttrs
          obtain ⟨⟨u', a⟩, ha, rfl⟩ := List.mem_map.1 hmem
          obtain ⟨⟨v', d⟩, hd, rfl⟩ := List.mem_map.1 (Graph.mem_neighbors.2 he)
          have := f5 rfl (u', a) ha ((keeps_iff hf (Dict.get?_of_mem h.nodup ha)).2 hu) (v', d) hd
          rw [(clashes_iff h hs hf hd).2 hc] at this
          cases this
  · intro hc
    unfold monopartiteProjection
    have : ∀ m mono b, partLoop g part partAttr weightAttr true g.node m mono b =
        partLoop g part partAttr weightAttr false g.node m mono b := by
      refine fun m mono b => partLoop_unchecked m mono b ?_
      rintro ⟨u, a⟩ hp hk ⟨v, d⟩ hq
      rw [Bool.eq_false_iff]
      intro hx
      exact hc u v ((keeps_iff hf (Dict.get?_of_mem h.nodup hp)).1 hk)
        (Graph.mem_neighbors.1 (List.mem_map.2 ⟨_, hq, rfl⟩)) ((clashes_iff h hs hf hq).1 hx)
    simp only [this]

/-! ### C70: two ways of designating a part -/

theorem normLoop_any_part {part' : Part V K} (L : List (V × Dict PyKey (Attrs (Val K)))) (m : OnlineMetric V K) :
    normLoop g part partAttr weightAttr false L m = normLoop g part' partAttr weightAttr false L m := by
  induction L generalizing m with
  | nil => rfl
  | cons p L ih =>
    obtain ⟨t, d⟩ := p
    unfold normLoop
    simp only [Bool.false_and, Bool.false_eq_true, if_false, ih]

theorem partLoop_any_part {part' : Part V K} {L : Dict V (Attrs (Val K))} (m : OnlineMetric V K)
    (mono : Graph V (Val K)) (b : Bool) (hk : ∀ p ∈ L, part.keeps partAttr p.1 p.2 = part'.keeps partAttr p.1 p.2) :
    partLoop g part partAttr weightAttr false L m mono b = partLoop g part' partAttr weightAttr false L m mono b := by
  induction L generalizing m mono b with
  | nil => rfl
  | cons p L ih =>
    obtain ⟨n, a⟩ := p
    have ih' := fun m mono b => ih m mono b (fun p hp => hk p (List.mem_cons_of_mem _ hp))
    have hn := hk (n, a) List.mem_cons_self
    simp only at hn
    unfold partLoop
    simp only [hn, normLoop_any_part (part := part) (part' := part'), ih']

/-- C70, without the check, on every kind of graph.  Two parts (values or collections) holding the same nodes of the graph
give the same projection, or the same error. -/
theorem projection_same_part (h : g.WF) (hf : ∀ ns r, part ≠ .frozen ns r) {part' : Part V K}
    (hf' : ∀ ns r, part' ≠ .frozen ns r) (hsame : ∀ n, InPart g partAttr part n ↔ InPart g partAttr part' n) :
    monopartiteProjection g part partAttr weightAttr metric false threshold =
      monopartiteProjection g part' partAttr weightAttr metric false threshold := by
  have hk : ∀ p ∈ g.node, part.keeps partAttr p.1 p.2 = part'.keeps partAttr p.1 p.2 := by
    rintro ⟨n, a⟩ hp
    rw [Bool.eq_iff_iff, keeps_iff hf (Dict.get?_of_mem h.nodup hp), keeps_iff hf' (Dict.get?_of_mem h.nodup hp)]
    exact hsame n
  unfold monopartiteProjection
  simp only [fun m mono b => partLoop_any_part (g := g) (weightAttr := weightAttr) m mono b hk]

/-- C70 with the check, on simple graphs where it finds nothing to object with either designation: for the collection, no
edge inside the part; for the value, no edge whose own attributes hold the value. -/
theorem projection_same_part_checked (h : g.WF) (hs : g.multi = false) (hf : ∀ ns r, part ≠ .frozen ns r)
    {part' : Part V K} (hf' : ∀ ns r, part' ≠ .frozen ns r)
    (hsame : ∀ n, InPart g partAttr part n ↔ InPart g partAttr part' n)
    (hc : ∀ u v, InPart g partAttr part u → g.hasEdge u v = true →
      ¬ Clash g partAttr part u v ∧ ¬ Clash g partAttr part' u v) :
    monopartiteProjection g part partAttr weightAttr metric true threshold =
      monopartiteProjection g part' partAttr weightAttr metric true threshold := by
  rw [(projection_check h hs hf).2 (fun u v hu he => (hc u v hu he).1),
    (projection_check h hs hf').2 (fun u v hu he => (hc u v ((hsame u).2 hu) he).2),
    projection_same_part h hf hf' hsame]

end

section
variable {V K : Type} [LinearOrder V] [Field K] [LinearOrder K] [IsStrictOrderedRing K]

/-- C42 for cosine, exactly, on a simple undirected bipartite graph with numeric weights.  It raises (`KeyError`) exactly
when a node of the part whose edges all weigh 0 shares a neighbor with a smaller node of the part having an edge of
another weight; otherwise the nodes whose edges all weigh 0 are not linked to any. -/
theorem projection_cosine_cases [PyOrd V] [PyMath K] [AttrVal (Val K)] (hsqrt : ∀ x : K, 0 < x → 0 < PyMath.sqrt x)
    (hrnd : ∀ x : K, 0 < x → 0 < PyMath.rnd x)
    {g : Graph V (Val K)} {part : Part V K} {partAttr weightAttr : String} {check : Bool}
    {w : V → V → K} (h : Projectable g part partAttr weightAttr .dotProduct check w)
    {threshold : Option (Val K)} (ht : ∀ v, threshold = some v → ∃ t, v.toNum = .ok t ∧ 0 < t) :
    ((∃ u v, u < v ∧ InPart g partAttr part u ∧ InPart g partAttr part v ∧ (g.nbhd u ∩ g.nbhd v).Nonempty ∧
        (∃ t ∈ g.nbhd u, w u t ≠ 0) ∧ ∀ t ∈ g.nbhd v, w v t = 0) ↔
      monopartiteProjection g part partAttr weightAttr (some "cosine") check threshold = .error .keyError) ∧
    (∀ e, monopartiteProjection g part partAttr weightAttr (some "cosine") check threshold = .error e →
      e = .keyError) ∧
    ∀ m, monopartiteProjection g part partAttr weightAttr (some "cosine") check threshold = .ok m →
      m.WF ∧ ∀ u v a, m.edge? u v (.int 0) = some a ↔
        u ≠ v ∧ InPart g partAttr part u ∧ InPart g partAttr part v ∧ (g.nbhd u ∩ g.nbhd v).Nonempty ∧
        (∃ t ∈ g.nbhd u, w u t ≠ 0) ∧ (∃ t ∈ g.nbhd v, w v t ≠ 0) ∧
        ReachesThreshold threshold (similarity .cosine (g.nbhd u) (g.nbhd v) (w u) (w v)) ∧
        a = [(.str "weight", .num (similarity .cosine (g.nbhd u) (g.nbhd v) (w u) (w v)))] := by
  have hpos : ∀ (S : Finset V) (f : V → K), (∃ t ∈ S, f t ≠ 0) → 0 < ∑ t ∈ S, f t * f t := by
    rintro S f ⟨t, ht, hne⟩
    exact Finset.sum_pos' (fun i _ => mul_self_nonneg _) ⟨t, ht, mul_self_pos.2 hne⟩
  have hwy : ∀ n, Weighty .cosine g w n ↔ ∃ t ∈ g.nbhd n, w n t ≠ 0 := fun n => ⟨fun h => h rfl, fun h _ => h⟩
  obtain ⟨hbad, hok⟩ := projection_cases (kind := .cosine) (metric := some "cosine") h (fun _ => rfl)
    (fun u v _ _ _ h1 h2 => (hrnd _ (mul_pos (hsqrt _ (hpos _ _ (h1 rfl))) (hsqrt _ (hpos _ _ (h2 rfl))))).ne')
    (by simp [metricNames]) ht
  simp only [hwy] at hbad hok
  have hneg : ∀ v, (∀ t ∈ g.nbhd v, w v t = 0) ↔ ¬ ∃ t ∈ g.nbhd v, w v t ≠ 0 := by
    intro v; push Not; rfl
  by_cases hc : ∃ u v, u < v ∧ InPart g partAttr part u ∧ InPart g partAttr part v ∧
      (g.nbhd u ∩ g.nbhd v).Nonempty ∧ (∃ t ∈ g.nbhd u, w u t ≠ 0) ∧ ¬ ∃ t ∈ g.nbhd v, w v t ≠ 0
  · have := hbad hc
    simp only [hneg]
    rw [this]
    exact ⟨⟨fun _ => rfl, fun _ => hc⟩, fun e he => by cases he; rfl, fun m hm => by cases hm⟩
  · obtain ⟨m, h1, h2, h3⟩ := hok (fun u v a1 a2 a3 a4 a5 => by
      by_contra hn
      exact hc ⟨u, v, a1, a2, a3, a4, a5, hn⟩)
    simp only [hneg]
    rw [h1]
    exact ⟨⟨fun hh => absurd hh hc, fun hh => by cases hh⟩, fun e he => (by cases he), fun m hm => by
      cases hm; exact ⟨h2, h3⟩⟩

end

/-- Stand-ins for the square root and the logarithm in the examples below, exact on 0 and 1. -/
local instance ratMathCheck : PyMath ℚ := ⟨fun x => x, fun x => x - 1, fun x => x⟩

set_option synthInstance.maxSize 2000 in
/-- Case of `projection_cosine_cases`: the node whose edge weighs 0 is the smallest of the part.  Nothing is raised and
it is left alone; with the two labels exchanged (`projection_cosine_zero_wrong`) the call raises. -/
theorem projection_cosine_zero_sample :
    (monopartiteProjection (⟨false, false, [], [(1, []), (2, []), (10, [])],
        [⟨1, 10, [(.int 0, [(.str "weight", .num 0)])]⟩, ⟨2, 10, [(.int 0, [(.str "weight", .num 1)])]⟩]⟩ :
          Graph Int (Val ℚ)) (.collection [1, 2]) "part" "weight" (some "cosine") true none).map
      (fun m => (m.nodes, m.links.length)) = .ok ([1, 2], 0) := by
  decide +kernel

set_option synthInstance.maxSize 2000 in
/-- Cases of `projection_check`: the value of the part in the attributes of an edge leaving the part raises though the
graph is bipartite; the value of the part at both ends of an edge does not. -/
theorem projection_check_sample :
    (monopartiteProjection (⟨false, false, [], [(1, [(.str "part", .str "a")]), (2, [(.str "part", .str "b")])],
        [⟨1, 2, [(.int 0, [(.str "part", .str "a")])]⟩]⟩ : Graph Int (Val ℚ)) (.value (.str "a")) "part" "weight" none
        true none).map (fun m => m.nodes) = .error (.typeError "given graph is not truly bipartite") ∧
    (monopartiteProjection (⟨false, false, [], [(1, [(.str "part", .str "a")]), (2, [(.str "part", .str "a")])],
        [⟨1, 2, [(.int 0, [])]⟩]⟩ : Graph Int (Val ℚ)) (.value (.str "a")) "part" "weight" none true none).map
      (fun m => m.nodes) = .ok [1, 2] := by
  decide +kernel

set_option synthInstance.maxSize 2000 in
/-- Cases of `projection_same_part` and of its failure with the check: on an edge inside the part, the collection raises
and the value does not. -/
theorem projection_same_part_sample :
    let g : Graph Int (Val ℚ) := ⟨false, false, [], [(1, [(.str "part", .str "a")]), (2, [(.str "part", .str "a")])],
        [⟨1, 2, [(.int 0, [])]⟩]⟩
    (∀ n, InPart g "part" (.value (.str "a")) n ↔ InPart g "part" (.collection [2, 1, 7]) n) ∧
    (monopartiteProjection g (.value (.str "a")) "part" "weight" none true none).map (fun m => m.nodes) = .ok [1, 2] ∧
    (monopartiteProjection g (.collection [2, 1, 7]) "part" "weight" none true none).map (fun m => m.nodes) =
      .error (.typeError "given graph is not truly bipartite") ∧
    (monopartiteProjection g (.collection [2, 1, 7]) "part" "weight" none false none).map (fun m => m.nodes) =
      .ok [1, 2] := by
  refine ⟨fun n => ?_, by decide +kernel, by decide +kernel, by decide +kernel⟩
  constructor
  · rintro ⟨a, ha, hv⟩
    have := Dict.mem_keys_of_mem (Dict.mem_of_get? ha)
    refine ⟨this, ?_⟩
    simp [Dict.keys] at this
    rcases this with rfl | rfl <;> simp
  · rintro ⟨h1, _⟩
    simp [Graph.nodes, Dict.keys] at h1
    rcases h1 with rfl | rfl <;> exact ⟨_, rfl, .inl rfl⟩

end Pelote
