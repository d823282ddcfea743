import Verif.Props.ProjectionWitness

/-! C87: the monopartite projection of a multigraph. -/
set_option linter.unusedSectionVars false
namespace Pelote
variable {V K : Type} [LinearOrder V] [Field K] [LinearOrder K]

/-- The simple graph with the same nodes, and an edge without attributes for each pair of adjacent nodes. -/
def Graph.pairs {A : Type} (g : Graph V A) : Graph V A :=
  { g with multi := false, links := g.links.map (fun l => ⟨l.u, l.v, [(.int 0, [])]⟩) }

/-- No edge has the given key. -/
def NoKey {A : Type} (g : Graph V A) (name : String) : Prop := ∀ l ∈ g.links, l.data.get? (.str name) = none

theorem pairs_adj {A : Type} (g : Graph V A) (n : V) :
    g.pairs.adj n = (g.adj n).map (fun p => (p.1, [(.int 0, [])])) := by
  unfold Graph.adj Graph.pairs
  rw [List.filterMap_map, List.map_filterMap]
  apply List.filterMap_congr
  intro l _
  simp only [Function.comp, Graph.Link.from?]
  split
  · rfl
  · split <;> rfl

theorem mem_adj_link {A : Type} {g : Graph V A} {n : V} {p : V × Dict PyKey (Attrs A)} (h : p ∈ g.adj n) :
    ∃ l ∈ g.links, l.data = p.2 := by
  unfold Graph.adj at h
  obtain ⟨l, hl, hf⟩ := List.mem_filterMap.1 h
  refine ⟨l, hl, ?_⟩
  unfold Graph.Link.from? at hf
  split at hf
  · cases hf; rfl
  · split at hf
    · cases hf; rfl
    · cases hf

section
variable {g : Graph V (Val K)} (hm : g.multi = true)
include hm

theorem taGet_pairs {name : String} (hk : NoKey g name) {n : V} {p : V × Dict PyKey (Attrs (Val K))} (hp : p ∈ g.adj n) :
    g.taGet dictValue p.2 name = g.pairs.taGet dictValue [(.int 0, [])] name := by
  obtain ⟨l, hl, he⟩ := mem_adj_link hp
  unfold Graph.taGet
  rw [if_pos hm, ← he, hk l hl]
  rfl

theorem normLoop_pairs {part : Part V K} {partAttr weightAttr : String} {check : Bool} (hw : NoKey g weightAttr)
    (hpa : NoKey g partAttr) {n : V} (L : List (V × Dict PyKey (Attrs (Val K)))) (hL : ∀ p ∈ L, p ∈ g.adj n)
    (m : OnlineMetric V K) :
    normLoop g.pairs part partAttr weightAttr check (L.map (fun p => (p.1, [(.int 0, [])]))) m =
      normLoop g part partAttr weightAttr check L m := by
  induction L generalizing m with
  | nil => rfl
  | cons p L ih =>
    obtain ⟨t, d⟩ := p
    have hp := hL (t, d) List.mem_cons_self
    have h1 : part.clashes g.pairs partAttr t [(.int 0, [])] = part.clashes g partAttr t d := by
      unfold Part.clashes
      rw [← taGet_pairs hm hpa hp]
    have h2 : taWeight g.pairs [(.int 0, [])] weightAttr = taWeight g d weightAttr := by
      unfold taWeight
      rw [← taGet_pairs hm hw hp]
    rw [List.map_cons]
    unfold normLoop
    rw [h1, h2]
    split
    · rfl
    · split
      · rfl
      · exact ih (fun p hp => hL p (List.mem_cons_of_mem _ hp)) _

theorem partLoop_pairs [PyMath K] {part : Part V K} {partAttr weightAttr : String} {check : Bool}
    (hw : NoKey g weightAttr) (hpa : NoKey g partAttr) (L : Dict V (Attrs (Val K))) (m : OnlineMetric V K)
    (mono : Graph V (Val K)) (b : Bool) :
    partLoop g.pairs part partAttr weightAttr check L m mono b = partLoop g part partAttr weightAttr check L m mono b := by
  induction L generalizing m mono b with
  | nil => rfl
  | cons p L ih =>
    obtain ⟨n, a⟩ := p
    unfold partLoop
    rw [pairs_adj, normLoop_pairs hm hw hpa (n := n) _ (fun p hp => hp)]
    split
    · exact ih m mono b
    · split
      · rfl
      · split
        · rfl
        · split
          · rfl
          · exact ih _ _ _

theorem sharedLoop_pairs [PyOrd V] {weightAttr : String} (hw : NoKey g weightAttr) {n1 : V} {w1 : Val K} {n : V}
    (L : List (V × Dict PyKey (Attrs (Val K)))) (hL : ∀ p ∈ L, p ∈ g.adj n) (m : OnlineMetric V K) :
    sharedLoop g.pairs weightAttr n1 w1 (L.map (fun p => (p.1, [(.int 0, [])]))) m = sharedLoop g weightAttr n1 w1 L m := by
  induction L generalizing m with
  | nil => rfl
  | cons p L ih =>
    obtain ⟨t, d⟩ := p
    have hp := hL (t, d) List.mem_cons_self
    have hL' : ∀ p ∈ L, p ∈ g.adj n := fun p hp => hL p (List.mem_cons_of_mem _ hp)
    have h2 : taWeight g.pairs [(.int 0, [])] weightAttr = taWeight g d weightAttr := by
      unfold taWeight
      rw [← taGet_pairs hm hw hp]
    rw [List.map_cons]
    unfold sharedLoop
    dsimp only
    rw [h2]
    split
    · exact ih hL' m
    · split
      · rfl
      · exact ih hL' m
      · split
        · rfl
        · exact ih hL' _

theorem tokenLoop_pairs [PyOrd V] {weightAttr : String} (hw : NoKey g weightAttr) {n1 : V} {n : V}
    (L : List (V × Dict PyKey (Attrs (Val K)))) (hL : ∀ p ∈ L, p ∈ g.adj n) (m : OnlineMetric V K) :
    tokenLoop g.pairs weightAttr n1 (L.map (fun p => (p.1, [(.int 0, [])]))) m = tokenLoop g weightAttr n1 L m := by
  induction L generalizing m with
  | nil => rfl
  | cons p L ih =>
    obtain ⟨t, d⟩ := p
    have hp := hL (t, d) List.mem_cons_self
    have hL' : ∀ p ∈ L, p ∈ g.adj n := fun p hp => hL p (List.mem_cons_of_mem _ hp)
    have h2 : taWeight g.pairs [(.int 0, [])] weightAttr = taWeight g d weightAttr := by
      unfold taWeight
      rw [← taGet_pairs hm hw hp]
    rw [List.map_cons]
    unfold tokenLoop
    rw [h2, pairs_adj, sharedLoop_pairs hm hw (n := t) _ (fun p hp => hp)]
    split
    · rfl
    · exact ih hL' _

theorem projectLoop_pairs [PyOrd V] [PyMath K] [AttrVal (Val K)] {weightAttr : String} (hw : NoKey g weightAttr)
    {t : Option K} (L : List V) (m : OnlineMetric V K) (mono : Graph V (Val K)) :
    projectLoop g.pairs weightAttr t L m mono = projectLoop g weightAttr t L m mono := by
  induction L generalizing m mono with
  | nil => rfl
  | cons n L ih =>
    unfold projectLoop
    split
    · rfl
    · rw [pairs_adj, tokenLoop_pairs hm hw (n := n) _ (fun p hp => hp)]
      split
      · rfl
      · split
        · rfl
        · exact ih _ _

/-- C87.  The projection of a multigraph, directed or not, ignores parallel edges and all the attributes of edges,
weights included: whatever the metric, it is that of the simple graph having an edge without attributes for each pair of
adjacent nodes, errors included.  (As long as no edge key is the name of the weight or of the part attribute; the keys
given by networkx are integers.) -/
theorem projection_multigraph [PyOrd V] [PyMath K] [AttrVal (Val K)] (part : Part V K) (partAttr weightAttr : String)
    (metric : Option String) (check : Bool) (threshold : Option (Val K)) (hw : NoKey g weightAttr)
    (hpa : NoKey g partAttr) :
    monopartiteProjection g part partAttr weightAttr metric check threshold =
      monopartiteProjection g.pairs part partAttr weightAttr metric check threshold := by
  unfold monopartiteProjection
  rcases instantiateMetric metric with e | kind
  · rfl
  simp only
  rcases checkThreshold threshold with e | t
  · rfl
  simp only
  rw [show g.pairs.order = g.order from rfl, show g.pairs.node = g.node from rfl, partLoop_pairs hm hw hpa]
  split
  · rfl
  · split
    · rfl
    · split
      · rfl
      · exact (projectLoop_pairs hm hw _ _ _).symm

end

theorem pairs_keydict? {A : Type} (g : Graph V A) (u v : V) :
    g.pairs.keydict? u v = (g.keydict? u v).map (fun _ => [(.int 0, [])]) := by
  unfold Graph.keydict? Graph.pairs
  simp only [List.find?_map, Option.map_map]
  rfl

theorem pairs_hasEdge {A : Type} (g : Graph V A) (u v : V) : g.pairs.hasEdge u v = g.hasEdge u v := by
  unfold Graph.hasEdge
  rw [pairs_keydict?, Option.isSome_map]

theorem pairs_edge? {A : Type} {g : Graph V A} {u v : V} {k : PyKey} {a : Attrs A} (h : g.pairs.edge? u v k = some a) :
    a = [] := by
  unfold Graph.edge? at h
  rw [pairs_keydict?] at h
  cases hd : g.keydict? u v with
  | none => rw [hd] at h; cases h
  | some d =>
    rw [hd] at h
    simp only [Option.map_some, Option.bind_some, Dict.get?_cons, Dict.get?_nil] at h
    split at h
    · cases h; rfl
    · cases h

theorem pairs_wf {A : Type} {g : Graph V A} (h : g.WF) : g.pairs.WF where
  attrs := h.attrs
  nodup := h.nodup
  nodeAttrs := h.nodeAttrs
  ends := by
    intro l hl
    obtain ⟨m, hm, rfl⟩ := List.mem_map.1 hl
    exact h.ends m hm
  uniq := by
    refine List.pairwise_map.2 (h.uniq.imp ?_)
    exact fun h => h
  nonempty := by
    intro l hl
    obtain ⟨m, hm, rfl⟩ := List.mem_map.1 hl
    simp
  keys := by
    intro l hl
    obtain ⟨m, hm, rfl⟩ := List.mem_map.1 hl
    simp [Dict.keys]
  edgeAttrs := by
    intro l hl
    obtain ⟨m, hm, rfl⟩ := List.mem_map.1 hl
    simp [Dict.keys]
  simple := by
    intro _ l hl
    obtain ⟨m, hm, rfl⟩ := List.mem_map.1 hl
    rfl

/-- What the projection of an undirected multigraph is expected to work on: a bipartite multigraph whose part is not
empty, whose kept nodes can be compared with each other and have usable attribute names.  When the bipartition is
checked, the part is not designated by `None`. -/
structure MultiProjectable [PyOrd V] (g : Graph V (Val K)) (part : Part V K) (partAttr weightAttr : String)
    (check : Bool) : Prop where
  wf : g.WF
  undirected : g.directed = false
  multi : g.multi = true
  weightKey : NoKey g weightAttr
  partKey : NoKey g partAttr
  notFrozen : ∀ ns r, part ≠ .frozen ns r
  notNone : check = true → part ≠ .value .none
  nonempty : ∃ n, InPart g partAttr part n
  bipartite : Bipartite g (InPart g partAttr part)
  comparable : ∀ u v, InPart g partAttr part u → InPart g partAttr part v → PyOrd.gt u v = .ok (decide (v < u))
  names : ∀ n a, g.node.get? n = some a → InPart g partAttr part n → Graph.NodeKwSafe (a.erase (.str partAttr))

theorem pairs_inPart (g : Graph V (Val K)) (partAttr : String) (part : Part V K) (n : V) :
    InPart g.pairs partAttr part n ↔ InPart g partAttr part n := by
  cases part <;> exact Iff.rfl

theorem pairs_nbhd {A : Type} (g : Graph V A) (n : V) : g.pairs.nbhd n = g.nbhd n := by
  unfold Graph.nbhd
  rw [show g.pairs.nodes = g.nodes from rfl]
  congr 2
  funext m
  exact pairs_hasEdge g n m

theorem MultiProjectable.pairs [PyOrd V] [IsStrictOrderedRing K] {g : Graph V (Val K)} {part : Part V K}
    {partAttr weightAttr : String} {check : Bool} (h : MultiProjectable g part partAttr weightAttr check) (kind : Metric) :
    Projectable g.pairs part partAttr weightAttr kind check (fun _ _ => 1) where
  wf := pairs_wf h.wf
  undirected := h.undirected
  simple := rfl
  notFrozen := h.notFrozen
  nonempty := by
    obtain ⟨n, hn⟩ := h.nonempty
    exact ⟨n, (pairs_inPart ..).2 hn⟩
  bipartite := by
    intro u v he
    rw [pairs_hasEdge] at he
    rw [pairs_inPart, pairs_inPart]
    exact h.bipartite u v he
  comparable := fun u v hu hv => h.comparable u v ((pairs_inPart ..).1 hu) ((pairs_inPart ..).1 hv)
  names := fun n a ha hn => h.names n a ha ((pairs_inPart ..).1 hn)
  edgeAttr := by
    intro hc x hx u v a ha hs
    rw [pairs_edge? ha] at hs
    rcases hs with hs | ⟨k, hk, _⟩
    · exact h.notNone hc (by rw [hx, ← hs]; rfl)
    · exact absurd hk (by simp [Dict.get?_nil, Val.toNum])
  weights := by
    intro _ u v a ha
    rw [pairs_edge? ha]
    simp [HasWeight, Dict.get?_nil]
  cosine := by
    intro _ n _ ⟨t, ht⟩
    exact ⟨t, ht, one_ne_zero⟩

/-- C87.  On an undirected bipartite multigraph no metric raises, and two distinct nodes of the part are linked exactly
when they share a neighbor and their similarity, that of their neighborhoods with weights 1, reaches the threshold. -/
theorem projection_multigraph_exact [PyOrd V] [PyMath K] [AttrVal (Val K)] [IsStrictOrderedRing K]
    (hsqrt : ∀ x : K, 0 < x → 0 < PyMath.sqrt x) (hrnd : ∀ x : K, 0 < x → 0 < PyMath.rnd x)
    {g : Graph V (Val K)} {part : Part V K} {partAttr weightAttr : String} {check : Bool}
    (h : MultiProjectable g part partAttr weightAttr check) {kind : Metric} {metric : Option String}
    (hk : (metric, kind) ∈ metricNames) {threshold : Option (Val K)}
    (ht : ∀ v, threshold = some v → ∃ t, v.toNum = .ok t ∧ 0 < t) :
    ∃ m, monopartiteProjection g part partAttr weightAttr metric check threshold = .ok m ∧ m.WF ∧
      ∀ u v a, m.edge? u v (.int 0) = some a ↔
        u ≠ v ∧ InPart g partAttr part u ∧ InPart g partAttr part v ∧ (g.nbhd u ∩ g.nbhd v).Nonempty ∧
        ReachesThreshold threshold (similarity kind (g.nbhd u) (g.nbhd v) (fun _ => 1) (fun _ => 1)) ∧
        a = [(.str "weight", .num (similarity kind (g.nbhd u) (g.nbhd v) (fun _ => 1) (fun _ => 1)))] := by
  obtain ⟨m, h1, h2, h3⟩ := projection_exact hsqrt hrnd (h.pairs kind) hk ht
  refine ⟨m, by rw [projection_multigraph h.multi _ _ _ _ _ _ h.weightKey h.partKey]; exact h1, h2, fun u v a => ?_⟩
  rw [h3 u v a, pairs_inPart, pairs_inPart, pairs_nbhd, pairs_nbhd]

/-- With weights 1, the metrics using the weights are those counting neighbors: the dot product is the number of shared
neighbors and the cosine is the binary cosine. -/
theorem similarity_ones [PyMath K] [IsStrictOrderedRing K] (A B : Finset V) :
    similarity (K := K) .dotProduct A B (fun _ => 1) (fun _ => 1) =
      similarity (K := K) .intersection A B (fun _ => 1) (fun _ => 1) ∧
    similarity (K := K) .cosine A B (fun _ => 1) (fun _ => 1) =
      similarity (K := K) .binaryCosine A B (fun _ => 1) (fun _ => 1) := by
  simp [similarity]

/-- Two accounts citing the same page, twice and with weights: as a multigraph. -/
def citingTwice (w : ℚ) : Graph Int (Val ℚ) :=
  ⟨false, true, [], [(1, []), (2, []), (10, [])],
    [⟨1, 10, [(.int 0, [(.str "weight", .num w)]), (.int 1, [(.str "weight", .num w)])]⟩,
     ⟨2, 10, [(.int 0, [(.str "weight", .num w)])]⟩]⟩

theorem citingTwice_projectable (w : ℚ) (check : Bool) :
    MultiProjectable (citingTwice w) (.collection [1, 2]) "part" "weight" check := by
  have hwf : (citingTwice w).WF := by
    constructor <;> simp [citingTwice, Graph.nodes, Dict.keys, samePair]
    rintro a b (⟨_, rfl⟩ | ⟨_, rfl⟩) <;> simp
  have hk : ∀ s, NoKey (citingTwice w) s := by intro s; simp [NoKey, citingTwice, Dict.get?_cons, Dict.get?_nil]
  refine ⟨hwf, rfl, rfl, hk _, hk _, by simp, by simp, ⟨1, by simp [InPart, citingTwice, Graph.nodes, Dict.keys]⟩, ?_,
    fun _ _ _ _ => rfl, ?_⟩
  · intro u v he
    obtain ⟨d, hd⟩ := Option.isSome_iff_exists.1 he
    obtain ⟨l, hl, hs, _⟩ := (Graph.keydict?_eq_some hwf).1 hd
    simp only [citingTwice, List.mem_cons, List.not_mem_nil, or_false] at hl
    simp only [InPart, citingTwice, Graph.nodes, Dict.keys, List.map_cons, List.map_nil, List.mem_cons, List.not_mem_nil,
      or_false]
    have hs := samePair_iff.1 hs
    rcases hl with rfl | rfl <;> simp at hs <;> omega
  · intro n a ha _
    simp only [citingTwice, Dict.get?_cons, Dict.get?_nil] at ha
    split at ha
    · cases ha; simp [Graph.NodeKwSafe, Dict.erase, Dict.keys]
    · split at ha
      · cases ha; simp [Graph.NodeKwSafe, Dict.erase, Dict.keys]
      · split at ha
        · cases ha; simp [Graph.NodeKwSafe, Dict.erase, Dict.keys]
        · cases ha

local instance ratMathMulti : PyMath ℚ := ⟨id, id, id⟩

set_option synthInstance.maxSize 2000 in
/-- C87.  The weights of parallel edges are lost: with edges of weight 3 the dot product of the accounts is 1, neither
9 (the product of the weights of one edge each) nor 18 (the sum over the parallel edges), and none is refused. -/
theorem projection_multigraph_loses_weights :
    (monopartiteProjection (citingTwice 3) (.collection [1, 2]) "part" "weight" (some "dot_product") true none).map
        (fun m => m.edgesData) = .ok [(1, 2, [(.str "weight", .num 1)])] ∧
    (monopartiteProjection { citingTwice 3 with
        multi := false
        links := [⟨1, 10, [(.int 0, [(.str "weight", .num 3)])]⟩, ⟨2, 10, [(.int 0, [(.str "weight", .num 3)])]⟩] }
      (.collection [1, 2]) "part" "weight" (some "dot_product") true none).map
        (fun m => m.edgesData) = .ok [(1, 2, [(.str "weight", .num 9)])] := by
  constructor <;> decide +kernel

set_option synthInstance.maxSize 2000 in
/-- The hypothesis on keys is needed: a parallel edge whose key is the name of the weight attribute stands for a weight,
and the projection raises. -/
theorem projection_multigraph_key_wrong :
    ∃ g : Graph Int (Val ℚ), g.WF ∧ g.multi = true ∧ Bipartite g (InPart g "part" (.collection [1, 2])) ∧
      (∃ e, (monopartiteProjection g (.collection [1, 2]) "part" "weight" (some "cosine") true none).map
        (fun m => m.nodes) = .error (.typeError e)) ∧
      (monopartiteProjection g (.collection [1, 2]) "part" "value" (some "dot_product") true none).map
        (fun m => m.edgesData) = .ok [(1, 2, [(.str "weight", .num 1)])] := by
  have hwf : (⟨false, true, [], [(1, []), (2, []), (10, [])], [⟨1, 10, [(.str "weight", [])]⟩,
    ⟨2, 10, [(.int 0, [])]⟩]⟩ : Graph Int (Val ℚ)).WF := by constructor <;> decide
  refine ⟨_, hwf, rfl, ?_, ⟨_, rfl⟩, by decide +kernel⟩
  intro u v he
  obtain ⟨d, hd⟩ := Option.isSome_iff_exists.1 he
  obtain ⟨l, hl, hs, _⟩ := (Graph.keydict?_eq_some hwf).1 hd
  simp only [List.mem_cons, List.not_mem_nil, or_false] at hl
  simp only [InPart, Graph.nodes, Dict.keys, List.map_cons, List.map_nil, List.mem_cons, List.not_mem_nil,
    or_false]
  have hs := samePair_iff.1 hs
  rcases hl with rfl | rfl <;> simp at hs <;> omega

end Pelote
