import Verif.Lemmas.Closed
import Verif.Props.Components
import Verif.Props.Triangles
import Verif.Props.Disparity
import Verif.Props.DisparityFloat
import Verif.Props.SpanningTrees
import Verif.Props.Sparsification
import Verif.Props.Projection
import Verif.Props.SelfSimilarity

/-! Property C82: parts of a graph without edges between them are treated independently. -/
namespace Pelote

/-! ### Components and triangles -/

section
variable {V A : Type} [DecidableEq V] {g : Graph V A} {p : V → Bool}

/-- C82.  The sizes of the components are those of both parts. -/
theorem connectedComponentOrders_local (h : g.WF) (hd : g.directed = false) (hc : g.Closed p) :
    (connectedComponentOrders g none).err = none ∧ (connectedComponentOrders (g.induced p) none).err = none ∧
      (connectedComponentOrders (g.induced (fun n => !p n)) none).err = none ∧
      (connectedComponentOrders g none).yields.Perm ((connectedComponentOrders (g.induced p) none).yields ++
        (connectedComponentOrders (g.induced (fun n => !p n)) none).yields) := by
  rw [connectedComponentOrders_exact h hd, connectedComponentOrders_exact (h.induced _) hd,
    connectedComponentOrders_exact (h.induced _) hd]
  refine ⟨rfl, rfl, rfl, ?_⟩
  show (componentOrders _ _).Perm (componentOrders _ _ ++ componentOrders _ _)
  rw [hc.edges_filter h, hc.not.edges_filter h, Graph.nodes_induced, Graph.nodes_induced,
    componentOrders_filter (fun e he => hc.edges h he), componentOrders_filter (fun e he => hc.not.edges h he),
    ← List.map_append]
  exact (List.filter_append_perm _ _).symm.map _

/-- C82.  So are the triangles. -/
theorem triangles_local (h : g.WF) (hc : g.Closed p) :
    (triangles g).err = none ∧ (triangles (g.induced p)).err = none ∧ (triangles (g.induced (fun n => !p n))).err = none ∧
      ((triangles g).yields.map tripleSet).Perm ((triangles (g.induced p)).yields.map tripleSet ++
        (triangles (g.induced (fun n => !p n))).yields.map tripleSet) := by
  obtain ⟨a1, a2, a3⟩ := triangles_exact h
  obtain ⟨b1, b2, b3⟩ := triangles_exact (h.induced p)
  obtain ⟨c1, c2, c3⟩ := triangles_exact (h.induced (fun n => !p n))
  refine ⟨a1, b1, c1, ?_⟩
  rw [List.perm_ext_iff_of_nodup a2]
  · intro s
    rw [List.mem_append, a3, b3, c3, hc.isTriangle, hc.not.isTriangle]
    constructor
    · intro hs
      have hs' := hs
      obtain ⟨a, b, c, _, _, _, _, _, _, rfl⟩ := hs'
      cases hp : p a
      · exact .inr ⟨hs, a, by simp, by simp [hp]⟩
      · exact .inl ⟨hs, a, by simp, hp⟩
    · rintro (h | h) <;> exact h.1
  · refine List.nodup_append.2 ⟨b2, c2, ?_⟩
    rintro s hs _ ht rfl
    rw [b3] at hs
    rw [c3] at ht
    obtain ⟨a, b, c, _, _, _, h4, _, _, rfl⟩ := id hs
    obtain ⟨ht, n, hn, hpn⟩ := (hc.not.isTriangle _).1 ht
    have hmem : ∀ n ∈ ({a, b, c} : Finset V), p n = true := by
      obtain ⟨a', b', c', _, _, _, h4, h5, h6, he⟩ := hs
      rw [hc.adjacent] at h4 h5 h6
      rw [he]
      intro n hn
      simp only [Finset.mem_insert, Finset.mem_singleton] at hn
      rcases hn with rfl | rfl | rfl
      · exact h4.1
      · exact h5.1
      · exact hc.adjacent_eq h6.2 ▸ h6.1
    rw [hmem n hn] at hpn
    cases hpn

end

section
variable {V A : Type} [LinearOrder V] {g : Graph V A} {p : V → Bool}

/-- C82.  The triangular strengths of a part are those of its edges in the whole graph. -/
theorem triangularStrength_local [PyOrd V] (ho : OrderedKeys V) (h : g.WF) (hc : g.Closed p) (full : Bool) :
    ∃ d d', triangularStrength g full = .ok d ∧ triangularStrength (g.induced p) full = .ok d' ∧
      ∀ u v, d'.get? (u, v) = if p u then d.get? (u, v) else none := by
  obtain ⟨d, h1, _, h2⟩ := triangularStrength_exact ho h full
  obtain ⟨d', h1', _, h2'⟩ := triangularStrength_exact ho (h.induced p) full
  refine ⟨d, d', h1, h1', fun u v => ?_⟩
  apply Option.ext
  intro n
  rw [h2', hc.adjacent, hc.strength]
  split
  · rename_i hp
    rw [h2]
    simp [hp]
  · rename_i hp
    simp [hp]

end

/-! ### Weighted edges -/

section
variable {V K : Type} [LinearOrder V] [Field K] [LinearOrder K] {g : Graph V (Val K)} {p : V → Bool}

theorem Graph.Closed.roundedStrength (hc : g.Closed p) (rnd : K → K) (w : V → V → K) {n : V} (hn : p n = true) :
    (g.induced p).roundedStrength rnd w n = g.roundedStrength rnd w n := by
  unfold Graph.roundedStrength
  rw [hc.edgesOf hn]

theorem Graph.Closed.roundedDisparity (hc : g.Closed p) (rnd : K → K) (pow : K → Nat → K) (reverse : Bool)
    (w : V → V → K) {u v : V} (hu : p u = true) (hv : p v = true) :
    (g.induced p).roundedDisparity rnd pow reverse w u v = g.roundedDisparity rnd pow reverse w u v := by
  unfold Graph.roundedDisparity
  rw [hc.roundedStrength rnd w hu, hc.roundedStrength rnd w hv, hc.degree hu, hc.degree hv]

omit [LinearOrder K] in
theorem Graph.Closed.weighted [LinearOrder K] (hc : g.Closed p) (h : g.WF) {attr : String} {w : V → V → K}
    (hw : g.Weighted attr w) : (g.induced p).Weighted attr w := by
  intro e he
  rw [hc.edgesData h] at he
  exact hw e (List.mem_of_mem_filter he)

/-- C82.  The disparities of a part are those of its edges in the whole graph, whatever the rounding. -/
theorem edgeDisparity_local [PyOrd V] (ar : Arith K) (ho : OrderedKeys V) (h : g.WF) (hc : g.Closed p)
    (hd : g.directed = false) (hm : g.multi = false) {attr : String} {w : V → V → K}
    (hsym : ∀ u v, w u v = w v u) (hw : g.Weighted attr w)
    (hS : ∀ u v, g.hasEdge u v = true → g.roundedStrength ar.rnd w u ≠ 0) (reverse : Bool) :
    ∃ d d', edgeDisparityA ar g attr reverse = .ok d ∧ edgeDisparityA ar (g.induced p) attr reverse = .ok d' ∧
      ∀ u v, d'.get? (u, v) = if p u then d.get? (u, v) else none := by
  obtain ⟨d, h1, _, h2⟩ := edgeDisparityA_exact ar ho h hd hm hsym hw hS reverse
  obtain ⟨d', h1', _, h2'⟩ := edgeDisparityA_exact ar ho (h.induced p) hd hm hsym (hc.weighted h hw)
    (fun u v hu => by
      rw [hc.hasEdge, Bool.and_eq_true] at hu
      rw [hc.roundedStrength _ _ hu.1]
      exact hS u v hu.2) reverse
  refine ⟨d, d', h1, h1', fun u v => ?_⟩
  apply Option.ext
  intro x
  rw [h2', hc.hasEdge, Bool.and_eq_true]
  split
  · rename_i hp
    rw [h2]
    refine and_congr_right (fun _ => ?_)
    constructor
    · rintro ⟨⟨_, he⟩, hx⟩
      exact ⟨he, by rw [hx, hc.roundedDisparity _ _ _ _ hp (hc _ _ he ▸ hp)]⟩
    · rintro ⟨he, hx⟩
      exact ⟨⟨hp, he⟩, by rw [hx, hc.roundedDisparity _ _ _ _ hp (hc _ _ he ▸ hp)]⟩
  · rename_i hp
    simp [hp]

end

section
variable {V K : Type} [DecidableEq V] [Field K] [LinearOrder K] [IsStrictOrderedRing K] {g : Graph V (Val K)} {p : V → Bool}

/-- C82.  The maximum spanning trees of a part are those of the whole graph, without near ties. -/
theorem unionOfMaximumSpanningTrees_local {ulongMax : Nat} (hu : 2^32 - 1 ≤ ulongMax) (h : g.WF) (hc : g.Closed p)
    {attr : String} {w : Fin g.edgesData.length → K} (hw : g.Weights attr w) (hsep : NoNearTies w)
    (hord : SafeOrder ulongMax g.order) (hord' : SafeOrder ulongMax (g.induced p).order) :
    (unionOfMaximumSpanningTrees ulongMax g attr).err = none ∧
      (unionOfMaximumSpanningTrees ulongMax (g.induced p) attr).err = none ∧
      (unionOfMaximumSpanningTrees ulongMax (g.induced p) attr).yields.Perm
        ((unionOfMaximumSpanningTrees ulongMax g attr).yields.filter (fun e => p e.1)) := by
  classical
  obtain ⟨σ, hσ1, hσ2⟩ := filter_positions g.edgesData (fun e => p e.1)
  have hdata := hc.edgesData h
  have key : ∀ (l : List (V × V × Attrs (Val K))), (g.induced p).edgesData = l →
      ∀ (σ : Fin l.length → Fin g.edgesData.length),
      (List.finRange g.edgesData.length).filter (fun j => p g.edgesData[j].1) = (List.finRange l.length).map σ →
      (∀ i, g.edgesData[σ i] = l[i]) →
      (unionOfMaximumSpanningTrees ulongMax g attr).err = none ∧
      (unionOfMaximumSpanningTrees ulongMax (g.induced p) attr).err = none ∧
      (unionOfMaximumSpanningTrees ulongMax (g.induced p) attr).yields.Perm
        ((unionOfMaximumSpanningTrees ulongMax g attr).yields.filter (fun e => p e.1)) := by
    rintro l rfl σ hσ1 hσ2
    obtain ⟨h1, h2⟩ := unionOfMaximumSpanningTrees_exact hu h hw hsep hord
    obtain ⟨h1', h2'⟩ := unionOfMaximumSpanningTrees_exact hu (h.induced p) (attr := attr) (w := fun i => w (σ i))
      (fun i => by rw [← hσ2]; exact hw (σ i)) (fun i j => hsep _ _) hord'
    refine ⟨h1, h1', h2'.trans (List.Perm.trans (List.Perm.of_eq ?_) (h2.filter _).symm)⟩
    have hends : ∀ k, (g.induced p).endsAt k = g.endsAt (σ k) := by
      intro k
      unfold Graph.endsAt
      rw [hσ2]
    have hpe : ∀ i, p (g.endsAt i).1 = p (g.endsAt i).2 := by
      intro i
      refine hc.edges h (e := g.endsAt i) ?_
      rw [edges_eq_map]
      exact List.mem_map.2 ⟨g.edgesData[i], List.getElem_mem _, rfl⟩
    have hs : ∀ i, p (g.endsAt i).1 = true → ∃ k, σ k = i := by
      intro i hi
      have : i ∈ (List.finRange g.edgesData.length).filter (fun j => p g.edgesData[j].1) :=
        List.mem_filter.2 ⟨List.mem_finRange i, hi⟩
      rw [hσ1] at this
      obtain ⟨k, _, hk⟩ := List.mem_map.1 this
      exact ⟨k, hk⟩
    have hσp : ∀ k, p g.edgesData[σ k].1 = true := by
      intro k
      have : σ k ∈ (List.finRange (g.induced p).edgesData.length).map σ := List.mem_map_of_mem (List.mem_finRange k)
      rw [← hσ1] at this
      exact (List.mem_filter.1 this).2
    have hmem : ∀ k, (∃ F, IsMaxSpanningForest (g.induced p).endsAt (fun i => w (σ i)) F ∧ k ∈ F) ↔
        ∃ F, IsMaxSpanningForest g.endsAt w F ∧ σ k ∈ F := by
      intro k
      rw [mem_some_maxSpanningForest_iff, mem_some_maxSpanningForest_iff, hends k]
      refine not_congr (linkedBy_restrict (F := {j | w (σ k) < w j}) (F' := {j | w (σ k) < w (σ j)}) hpe hends hs
        (fun j => Iff.rfl) (hσp k))
    rw [List.filter_map, List.filter_filter]
    simp only [hmem]
    have : (List.finRange g.edgesData.length).filter (fun i =>
        ((fun e : V × V × Attrs (Val K) => p e.1) ∘ fun i : Fin g.edgesData.length => g.edgesData[i]) i &&
          decide (∃ F, IsMaxSpanningForest g.endsAt w F ∧ i ∈ F)) =
        ((List.finRange g.edgesData.length).filter (fun j => p g.edgesData[j].1)).filter
          (fun i => decide (∃ F, IsMaxSpanningForest g.endsAt w F ∧ i ∈ F)) := by
      rw [List.filter_filter]
      apply List.filter_congr
      intro i _
      exact Bool.and_comm _ _
    rw [this, hσ1, List.filter_map, List.map_map]
    apply List.map_congr_left
    intro k _
    exact (hσ2 k).symm
  exact key _ hdata σ hσ1 hσ2

/-- What `keep_connected` asks for: weights without near ties, and orders at which the disjoint set does not overflow. -/
structure TreesApart (ulongMax : Nat) (g : Graph V (Val K)) (p : V → Bool) : Prop where
  ulong : 2^32 - 1 ≤ ulongMax
  weights : ∃ w : Fin g.edgesData.length → K, g.Weights "weight" w ∧ NoNearTies w
  order : SafeOrder ulongMax g.order
  order' : SafeOrder ulongMax (g.induced p).order

theorem TreesApart.trees {ulongMax : Nat} (ht : TreesApart ulongMax g p) (h : g.WF) (hc : g.Closed p) :
    (unionOfMaximumSpanningTrees ulongMax g "weight").err = none ∧
      (unionOfMaximumSpanningTrees ulongMax (g.induced p) "weight").err = none ∧
      ∀ u v, p u = true → ((∃ b, (u, v, b) ∈ (unionOfMaximumSpanningTrees ulongMax (g.induced p) "weight").yields) ↔
        ∃ b, (u, v, b) ∈ (unionOfMaximumSpanningTrees ulongMax g "weight").yields) := by
  obtain ⟨w, hw, hsep⟩ := ht.weights
  obtain ⟨h1, h2, h3⟩ := unionOfMaximumSpanningTrees_local ht.ulong h hc hw hsep ht.order ht.order'
  refine ⟨h1, h2, fun u v hp => exists_congr (fun b => ?_)⟩
  rw [h3.mem_iff, List.mem_filter]
  exact ⟨fun h => h.1, fun h => ⟨h, hp⟩⟩

/-- C82.  Sparsifying a part with a global threshold is sparsifying the whole graph. -/
theorem globalThreshold_local [PyOrd V] [AttrVal (Val K)] (ulongMax : Nat) (h : g.WF) (hc : g.Closed p) (t : K)
    {attr : String} (reverse keepConnected : Bool) (hw : ∀ e ∈ g.edgesData, ∃ w, HasNumber attr e.2.2 w)
    (hk : keepConnected = true → TreesApart ulongMax g p)
    (hkw : ∀ e ∈ g.edgesData, Graph.EdgeKwSafe g.multi e.2.2) :
    ∃ b b', globalThresholdSparsification ulongMax g t attr reverse keepConnected = .ok b ∧
      globalThresholdSparsification ulongMax (g.induced p) t attr reverse keepConnected = .ok b' ∧
      b'.node = b.node.filter (fun q => p q.1) ∧ b'.edgesData = b.edgesData.filter (fun e => p e.1) := by
  classical
  obtain ⟨b, h1, -, -, -, -, hn, h2⟩ := globalThreshold_exact ulongMax h t reverse keepConnected hw
    (fun e => ((hk e).trees h hc).1) hkw
  have hsub : ∀ e ∈ (g.induced p).edgesData, e ∈ g.edgesData := by
    intro e he
    rw [hc.edgesData h] at he
    exact List.mem_of_mem_filter he
  obtain ⟨b', h1', -, -, -, -, hn', h2'⟩ := globalThreshold_exact ulongMax (h.induced p) t reverse keepConnected
    (fun e he => hw e (hsub e he)) (fun e => ((hk e).trees h hc).2.1) (fun e he => hkw e (hsub e he))
  refine ⟨b, b', h1, h1', by rw [hn, hn']; rfl, ?_⟩
  rw [h2, h2', hc.edgesData h, List.filter_filter, List.filter_filter]
  apply List.filter_congr
  intro e he
  rw [Bool.eq_iff_iff, Bool.and_eq_true, Bool.and_eq_true, and_comm]
  refine and_congr_right (fun hp => ?_)
  rw [decide_eq_true_iff, decide_eq_true_iff]
  exact or_congr_right (and_congr_right (fun e => ((hk e).trees h hc).2.2 _ _ hp))

end

section
variable {V K : Type} [LinearOrder V] [Field K] [LinearOrder K] [IsStrictOrderedRing K] {g : Graph V (Val K)} {p : V → Bool}

/-- C82.  So is taking its multiscale backbone, in exact arithmetic or in floating point. -/
theorem multiscaleBackbone_local [PyOrd V] [AttrVal (Val K)] {ar : Arith K} (hr : Rounding ar.rnd) (hpow : UnitPow ar.pow)
    (ulongMax : Nat) (ho : OrderedKeys V) (h : g.WF) (hc : g.Closed p) (hd : g.directed = false) (hm : g.multi = false)
    {attr : String} {w : V → V → K} (hsym : ∀ u v, w u v = w v u) (hw : g.Weighted attr w)
    (hpos : ∀ u v, g.hasEdge u v = true → 0 < w u v ∧ ar.rnd (w u v) = w u v) (alpha : K) (keepConnected : Bool)
    (hk : keepConnected = true → TreesApart ulongMax g p)
    (hkw : ∀ e ∈ g.edgesData, Graph.EdgeKwSafe g.multi e.2.2) :
    ∃ b b', multiscaleBackboneA ar ulongMax g alpha attr keepConnected = .ok b ∧
      multiscaleBackboneA ar ulongMax (g.induced p) alpha attr keepConnected = .ok b' ∧
      b'.node = b.node.filter (fun q => p q.1) ∧ b'.edgesData = b.edgesData.filter (fun e => p e.1) := by
  classical
  obtain ⟨b, h1, -, -, -, -, hn, h2⟩ := multiscaleBackboneA_exact hr hpow ulongMax ho h hd hm hsym hw hpos alpha keepConnected
    (fun e => ((hk e).trees h hc).1) hkw
  have hsub : ∀ e ∈ (g.induced p).edgesData, e ∈ g.edgesData := by
    intro e he
    rw [hc.edgesData h] at he
    exact List.mem_of_mem_filter he
  obtain ⟨b', h1', -, -, -, -, hn', h2'⟩ := multiscaleBackboneA_exact hr hpow ulongMax ho (h.induced p) hd hm hsym
    (hc.weighted h hw) (fun u v hu => hpos u v (by rw [hc.hasEdge, Bool.and_eq_true] at hu; exact hu.2)) alpha keepConnected
    (fun e => ((hk e).trees h hc).2.1) (fun e he => hkw e (hsub e he))
  refine ⟨b, b', h1, h1', by rw [hn, hn']; rfl, ?_⟩
  rw [h2, h2', hc.edgesData h, List.filter_filter, List.filter_filter]
  apply List.filter_congr
  intro e he
  rw [Bool.eq_iff_iff, Bool.and_eq_true, Bool.and_eq_true, and_comm]
  refine and_congr_right (fun hp => ?_)
  rw [decide_eq_true_iff, decide_eq_true_iff]
  have hp2 : p e.2.1 = true := by
    have := hc.edges h (e := (e.1, e.2.1)) (by rw [edges_eq_map]; exact List.mem_map.2 ⟨e, he, rfl⟩)
    rw [← this]; exact hp
  rw [hc.roundedDisparity _ _ _ _ hp hp2]
  exact or_congr_right (and_congr_right (fun e => ((hk e).trees h hc).2.2 _ _ hp))

/-! ### Projections -/

theorem Graph.Closed.nbhd {A : Type} {g : Graph V A} (hc : g.Closed p) {n : V} (hn : p n = true) :
    (g.induced p).nbhd n = g.nbhd n := by
  unfold Graph.nbhd
  rw [Graph.nodes_induced, List.filter_filter]
  congr 1
  apply List.filter_congr
  intro m _
  rw [hc.hasEdge, hn, Bool.true_and]
  cases hm : g.hasEdge n m
  · rfl
  · rw [← hc _ _ hm, hn]; rfl

omit [LinearOrder K] [IsStrictOrderedRing K] in
theorem inPart_induced [LinearOrder K] {partAttr : String} {part : Part V K} {n : V} :
    InPart (g.induced p) partAttr part n ↔ p n = true ∧ InPart g partAttr part n := by
  cases part with
  | value x =>
    unfold InPart
    simp only [Graph.get?_induced]
    cases p n <;> simp
  | frozen ns r =>
    simp only [InPart, Graph.nodes_induced, List.mem_filter]
    tauto
  | collection ns =>
    simp only [InPart, Graph.nodes_induced, List.mem_filter]
    tauto

/-- A part of a graph fit for projection is fit for projection, if it has a node to keep. -/
theorem Projectable.induced [PyOrd V] {part : Part V K} {partAttr weightAttr : String} {kind : Metric} {check : Bool}
    {w : V → V → K} (h : Projectable g part partAttr weightAttr kind check w) (hc : g.Closed p)
    (hne : ∃ n, p n = true ∧ InPart g partAttr part n) :
    Projectable (g.induced p) part partAttr weightAttr kind check w where
  wf := h.wf.induced p
  undirected := h.undirected
  simple := h.simple
  notFrozen := h.notFrozen
  nonempty := hne.imp (fun _ hn => inPart_induced.2 hn)
  bipartite := by
    intro u v huv
    rw [hc.hasEdge, Bool.and_eq_true] at huv
    have hv : p v = true := hc _ _ huv.2 ▸ huv.1
    rw [inPart_induced, inPart_induced]
    simp only [huv.1, hv, true_and]
    exact h.bipartite u v huv.2
  comparable := fun u v hu hv => h.comparable u v (inPart_induced.1 hu).2 (inPart_induced.1 hv).2
  names := by
    intro n a ha hn
    obtain ⟨hp, hn⟩ := inPart_induced.1 hn
    rw [Graph.get?_induced, if_pos hp] at ha
    exact h.names n a ha hn
  edgeAttr := by
    intro hch x hx u v a ha
    rw [hc.edge?] at ha
    split at ha
    · exact h.edgeAttr hch x hx u v a ha
    · cases ha
  weights := by
    intro hk u v a ha
    rw [hc.edge?] at ha
    split at ha
    · exact h.weights hk u v a ha
    · cases ha
  cosine := by
    intro hk n hn hne
    obtain ⟨hp, hn⟩ := inPart_induced.1 hn
    rw [hc.nbhd hp] at hne ⊢
    exact h.cosine hk n hn hne

/-- C82.  The projection of a part is the part of the projection. -/
theorem projection_local [PyOrd V] [PyMath K] [AttrVal (Val K)] (hsqrt : ∀ x : K, 0 < x → 0 < PyMath.sqrt x)
    (hrnd : ∀ x : K, 0 < x → 0 < PyMath.rnd x)
    {part : Part V K} {partAttr weightAttr : String} {kind : Metric} {check : Bool}
    {w : V → V → K} (h : Projectable g part partAttr weightAttr kind check w) (hc : g.Closed p)
    (hne : ∃ n, p n = true ∧ InPart g partAttr part n)
    {metric : Option String} (hk : (metric, kind) ∈ metricNames)
    {threshold : Option (Val K)} (ht : ∀ v, threshold = some v → ∃ t, v.toNum = .ok t ∧ 0 < t) :
    ∃ m m', monopartiteProjection g part partAttr weightAttr metric check threshold = .ok m ∧
      monopartiteProjection (g.induced p) part partAttr weightAttr metric check threshold = .ok m' ∧
      ∀ u v, m'.edge? u v (.int 0) = if p u then m.edge? u v (.int 0) else none := by
  obtain ⟨m, h1, _, h2⟩ := projection_exact hsqrt hrnd h hk ht
  obtain ⟨m', h1', _, h2'⟩ := projection_exact hsqrt hrnd (h.induced hc hne) hk ht
  refine ⟨m, m', h1, h1', fun u v => ?_⟩
  apply Option.ext
  intro a
  rw [h2', inPart_induced, inPart_induced]
  split
  · rename_i hu
    rw [h2]
    constructor
    · rintro ⟨a1, ⟨_, a2⟩, ⟨hv, a3⟩, a4, a5, a6⟩
      rw [hc.nbhd hu, hc.nbhd hv] at a4 a5 a6
      exact ⟨a1, a2, a3, a4, a5, a6⟩
    · rintro ⟨a1, a2, a3, a4, a5, a6⟩
      have hv : p v = true := by
        obtain ⟨t, ht⟩ := a4
        rw [Finset.mem_inter] at ht
        have key : ∀ n, t ∈ g.nbhd n → p n = p t := by
          intro n hn
          unfold Graph.nbhd at hn
          rw [List.mem_toFinset, List.mem_filter] at hn
          exact hc _ _ hn.2
        rw [key v ht.2, ← key u ht.1, hu]
      rw [← hc.nbhd hu, ← hc.nbhd hv] at a4 a5 a6
      exact ⟨a1, ⟨hu, a2⟩, ⟨hv, a3⟩, a4, a5, a6⟩
  · rename_i hu
    simp [hu]

/-- C82.  So it is for the self similarity projection at depth 1. -/
theorem selfSimilarity_local [AttrVal (Val K)] (h : g.WF) (hc : g.Closed p) (hdir : g.directed = true)
    (hkw : ∀ n a, g.node.get? n = some a → Graph.NodeKwSafe a) :
    ∃ m m' : Graph V (Val K), selfSimilarityProjection g 1 = .ok m ∧ selfSimilarityProjection (g.induced p) 1 = .ok m' ∧
      ∀ u v, m'.edge? u v (.int 0) = if p u then m.edge? u v (.int 0) else none := by
  obtain ⟨m, h1, _, _, _, _, _, h2⟩ := selfSimilarity_depth_one h hdir hkw
  obtain ⟨m', h1', _, _, _, _, _, h2'⟩ := selfSimilarity_depth_one (h.induced p) hdir (fun n a ha => by
    rw [Graph.get?_induced] at ha
    split at ha
    · exact hkw n a ha
    · cases ha)
  refine ⟨m, m', h1, h1', fun u v => ?_⟩
  have houts : ∀ n, p n = true → (g.induced p).outs n = g.outs n := by
    intro n hn
    unfold Graph.outs
    rw [Graph.nodes_induced, List.filter_filter]
    congr 1
    apply List.filter_congr
    intro x _
    rw [hc.hasEdge, hn, Bool.true_and]
    cases hx : g.hasEdge n x
    · rfl
    · rw [← hc _ _ hx, hn, Bool.and_true]
  have hins : ∀ n, p n = true → (g.induced p).ins n = g.ins n := by
    intro n hn
    unfold Graph.ins
    rw [Graph.nodes_induced, List.filter_filter]
    congr 1
    apply List.filter_congr
    intro x _
    rw [hc.hasEdge]
    cases hx : g.hasEdge x n
    · simp
    · rw [hc _ _ hx, hn, Bool.and_true, Bool.true_and]
  apply Option.ext
  intro a
  rw [h2', Graph.nodes_induced, List.mem_filter, List.mem_filter]
  split
  · rename_i hu
    rw [h2]
    constructor
    · rintro ⟨a1, ⟨a2, _⟩, ⟨a3, hv⟩, a4, a5⟩
      unfold linkSimilarity at a5
      rw [houts u hu, houts v hv, hins u hu, hins v hv] at a4 a5
      exact ⟨a1, a2, a3, a4, a5⟩
    · rintro ⟨a1, a2, a3, a4, a5⟩
      have hv : p v = true := by
        rcases a4 with ⟨t, ht⟩ | ⟨t, ht⟩ <;> rw [Finset.mem_inter] at ht
        · have key : ∀ n, t ∈ g.outs n → p n = p t := by
            intro n hn
            unfold Graph.outs at hn
            rw [List.mem_toFinset, List.mem_filter, Bool.and_eq_true] at hn
            exact hc _ _ hn.2.1
          rw [key v ht.2, ← key u ht.1, hu]
        · have key : ∀ n, t ∈ g.ins n → p n = p t := by
            intro n hn
            unfold Graph.ins at hn
            rw [List.mem_toFinset, List.mem_filter, Bool.and_eq_true] at hn
            exact (hc _ _ hn.2.1).symm
          rw [key v ht.2, ← key u ht.1, hu]
      unfold linkSimilarity at a5
      rw [← houts u hu, ← houts v hv, ← hins u hu, ← hins v hv] at a4 a5
      exact ⟨a1, ⟨a2, hu⟩, ⟨a3, hv⟩, a4, a5⟩
  · rename_i hu
    simp [hu]

end

/-! ### Witnesses -/

/-- A chain `1 → 2`, and two chains which meet: `3 → 4 → 7`, `5 → 6 → 7`. -/
def chainsFirst : Graph Nat (Val ℚ) :=
  ⟨true, false, [], [(1, []), (2, []), (3, []), (5, []), (4, []), (6, []), (7, [])],
    [⟨1, 2, [(.int 0, [])]⟩, ⟨3, 4, [(.int 0, [])]⟩, ⟨4, 7, [(.int 0, [])]⟩, ⟨5, 6, [(.int 0, [])]⟩,
      ⟨6, 7, [(.int 0, [])]⟩]⟩

/-- C82 is false of the self similarity projection at depth 2: nodes 3 and 5 are linked in the projection of their part, not in
the projection of the whole graph. -/
theorem selfSimilarity_not_local :
    chainsFirst.WF ∧ chainsFirst.Closed (fun n => decide (3 ≤ n)) ∧
      (selfSimilarityProjection chainsFirst 2).map (·.hasEdge 3 5) = .ok false ∧
      (selfSimilarityProjection (chainsFirst.induced (fun n => decide (3 ≤ n))) 2).map (·.hasEdge 3 5) = .ok true := by
  have hwf : chainsFirst.WF := by constructor <;> decide
  refine ⟨hwf, ?_, by decide +kernel, by decide +kernel⟩
  intro u v huv
  have h1 := (hasEdge_listed hwf).1 huv
  have h2 : chainsFirst.edges = [(1, 2), (3, 4), (5, 6), (4, 7), (6, 7)] := by decide +kernel
  rw [h2] at h1
  simp only [List.mem_cons, Prod.mk.injEq, List.not_mem_nil, or_false] at h1
  rcases h1 with (h | h | h | h | h) | ⟨hd, _⟩
  all_goals first | (cases hd; done) | (obtain ⟨rfl, rfl⟩ := h; rfl)

/-- A triangle whose third side is lighter by less than the tolerance, and a separate edge slightly heavier. -/
def triangleApart : Graph Int (Val ℚ) :=
  ⟨false, false, [], [(1, []), (2, []), (3, []), (4, []), (5, [])],
    [⟨1, 2, [(.int 0, [(.str "weight", .num 1)])]⟩, ⟨2, 3, [(.int 0, [(.str "weight", .num 1)])]⟩,
     ⟨1, 3, [(.int 0, [(.str "weight", .num (1 - 8 / 10 ^ 9))])]⟩,
     ⟨4, 5, [(.int 0, [(.str "weight", .num (1 + 5 / 10 ^ 9))])]⟩]⟩

/-- C82 is false of maximum spanning trees with near ties: the weight of the separate edge decides which weights of the triangle
are deemed equal. -/
theorem unionOfMaximumSpanningTrees_not_local :
    triangleApart.WF ∧ triangleApart.Closed (fun n => decide (n ≤ 3)) ∧
      (unionOfMaximumSpanningTrees (2^64-1) triangleApart "weight").yields.map (fun e => (e.1, e.2.1)) =
        [(4, 5), (1, 2), (2, 3)] ∧
      (unionOfMaximumSpanningTrees (2^64-1) (triangleApart.induced (fun n => decide (n ≤ 3))) "weight").yields.map
        (fun e => (e.1, e.2.1)) = [(1, 2), (2, 3), (1, 3)] := by
  have hwf : triangleApart.WF := by constructor <;> decide
  refine ⟨hwf, ?_, by decide +kernel, by decide +kernel⟩
  intro u v huv
  have h1 := (hasEdge_listed hwf).1 huv
  have h2 : triangleApart.edges = [(1, 2), (1, 3), (2, 3), (4, 5)] := by decide +kernel
  rw [h2] at h1
  simp only [List.mem_cons, Prod.mk.injEq, List.not_mem_nil, or_false] at h1
  rcases h1 with (h | h | h | h) | ⟨_, h | h | h | h⟩ <;> (obtain ⟨rfl, rfl⟩ := h; rfl)

/-- Non-triviality: the two parts of that graph, their components and triangles. -/
theorem triangleApart_sample :
    (connectedComponentOrders triangleApart none).yields = [3, 2] ∧
      (connectedComponentOrders (triangleApart.induced (fun n => decide (n ≤ 3))) none).yields = [3] ∧
      (connectedComponentOrders (triangleApart.induced (fun n => !decide (n ≤ 3))) none).yields = [2] ∧
      ((triangles (triangleApart.induced (fun n => decide (n ≤ 3)))).yields.map tripleSet).length = 1 ∧
      (edgeDisparity triangleApart "weight" false).map (fun d => d.get? (4, 5)) = .ok (some 1) ∧
      (edgeDisparity (triangleApart.induced (fun n => !decide (n ≤ 3))) "weight" false).map (fun d => d.get? (4, 5)) =
        .ok (some 1) := by
  refine ⟨by decide +kernel, by decide +kernel, by decide +kernel, by decide +kernel, by decide +kernel, by decide +kernel⟩

end Pelote
