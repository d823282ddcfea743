import Verif.Props.LearnLimit

/-! C120: what `floatsam_threshold_learner` learns with a limit of at most 1, and in how many epochs. -/
set_option linter.unusedSectionVars false
namespace Pelote

section
variable {V K : Type} [DecidableEq V] [Field K] [LinearOrder K] [IsStrictOrderedRing K]
  {g : Graph V (Val K)} {attr : String}

/-- The edges of weight at least `t` connect the graph. -/
def ConnectedAt (g : Graph V (Val K)) (attr : String) (t : K) : Prop :=
  ∀ a ∈ g.nodes, ∀ b ∈ g.nodes, Linked (heavyEdges g attr t) a b

/-- The bottleneck of a graph: the largest of the weights of its edges such that the edges at least as heavy connect it. -/
def IsBottleneck (g : Graph V (Val K)) (attr : String) (B : K) : Prop :=
  IsGreatest {w | ConnectedAt g attr w ∧ ∃ e ∈ g.edgesData, numWeight attr e.2.2 = some w} B

theorem mem_heavyEdges {t : K} {u v : V} :
    (u, v) ∈ heavyEdges g attr t ↔ ∃ a w, (u, v, a) ∈ g.edgesData ∧ numWeight attr a = some w ∧ t ≤ w := by
  unfold heavyEdges
  simp only [List.mem_map, List.mem_filter, Prod.mk.injEq]
  constructor
  · rintro ⟨⟨x, y, a⟩, ⟨h1, h2⟩, rfl, rfl⟩
    cases hw : numWeight attr a with
    | none => simp [hw] at h2
    | some w => exact ⟨a, w, h1, hw, by simpa [hw] using h2⟩
  · rintro ⟨a, w, h1, h2, h3⟩
    exact ⟨(u, v, a), ⟨h1, by simp [h2, h3]⟩, rfl, rfl⟩

theorem ConnectedAt.mono {s t : K} (hst : s ≤ t) (h : ConnectedAt g attr t) : ConnectedAt g attr s := by
  intro a ha b hb
  refine (h a ha b hb).mono ?_
  rintro ⟨u, v⟩ huv
  obtain ⟨x, w, h1, h2, h3⟩ := mem_heavyEdges.1 huv
  exact mem_heavyEdges.2 ⟨x, w, h1, h2, hst.trans h3⟩

/-- The weights of the edges. -/
def edgeWeights (g : Graph V (Val K)) (attr : String) : List K := g.edgesData.filterMap fun e => numWeight attr e.2.2

theorem mem_edgeWeights {w : K} : w ∈ edgeWeights g attr ↔ ∃ e ∈ g.edgesData, numWeight attr e.2.2 = some w := by
  unfold edgeWeights
  exact List.mem_filterMap

/-- C120.  A connected graph with edges has a bottleneck. -/
theorem bottleneck_exists (hw : Weighted g attr) (he : g.edgesData ≠ []) (hc : ∀ a ∈ g.nodes, ∀ b ∈ g.nodes, Linked g.edges a b) :
    ∃ B, IsBottleneck g attr B := by
  classical
  obtain ⟨e₀, he₀⟩ := List.exists_mem_of_ne_nil _ he
  obtain ⟨w₀, hw₀⟩ := hw e₀ he₀
  have hmem₀ : w₀ ∈ (edgeWeights g attr).toFinset := List.mem_toFinset.2 (mem_edgeWeights.2 ⟨e₀, he₀, hw₀⟩)
  obtain ⟨lo, hlo, hmin⟩ := Finset.exists_min_image (edgeWeights g attr).toFinset id ⟨w₀, hmem₀⟩
  have hlow : ConnectedAt g attr lo := by
    intro a ha b hb
    refine (hc a ha b hb).mono ?_
    rintro ⟨u, v⟩ huv
    rw [edges_eq_data] at huv
    obtain ⟨⟨x, y, a⟩, hx, hxy⟩ := List.mem_map.1 huv
    cases hxy
    obtain ⟨w, hw⟩ := hw _ hx
    exact mem_heavyEdges.2 ⟨a, w, hx, hw, hmin w (List.mem_toFinset.2 (mem_edgeWeights.2 ⟨_, hx, hw⟩))⟩
  obtain ⟨B, hB, hmax⟩ := Finset.exists_max_image ((edgeWeights g attr).toFinset.filter fun w => ConnectedAt g attr w) id
    ⟨lo, Finset.mem_filter.2 ⟨hlo, hlow⟩⟩
  rw [Finset.mem_filter, List.mem_toFinset, mem_edgeWeights] at hB
  refine ⟨B, ⟨hB.2, hB.1⟩, ?_⟩
  rintro w ⟨h1, h2⟩
  exact hmax w (Finset.mem_filter.2 ⟨List.mem_toFinset.2 (mem_edgeWeights.2 h2), h1⟩)

/-- C120.  The edges of weight at least `t` connect the graph exactly when `t` is at most the bottleneck. -/
theorem connectedAt_iff (h : g.WF) (h2 : 2 ≤ g.nodes.length) {B : K} (hB : IsBottleneck g attr B) (t : K) :
    ConnectedAt g attr t ↔ t ≤ B := by
  classical
  constructor
  · intro hc
    by_contra hlt
    push Not at hlt
    -- some edge is as heavy as `t`
    obtain ⟨a, ha, b, hb, hab⟩ : ∃ a ∈ g.nodes, ∃ b ∈ g.nodes, a ≠ b := by
      have hnd := h.nodup
      change g.nodes.Nodup at hnd
      match hn : g.nodes, h2, hnd with
      | a :: b :: ns, _, hnd =>
        refine ⟨a, by simp, b, by simp, ?_⟩
        rintro rfl
        simp at hnd
    have hne : heavyEdges g attr t ≠ [] := by
      intro hnil
      have := hc a ha b hb
      rw [hnil] at this
      exact hab (linked_nil.1 this)
    obtain ⟨⟨u, v⟩, huv⟩ := List.exists_mem_of_ne_nil _ hne
    obtain ⟨x, w, h1, h2, h3⟩ := mem_heavyEdges.1 huv
    obtain ⟨w', hw', hmin⟩ := Finset.exists_min_image ((edgeWeights g attr).toFinset.filter fun w => t ≤ w) id
      ⟨w, Finset.mem_filter.2 ⟨List.mem_toFinset.2 (mem_edgeWeights.2 ⟨_, h1, h2⟩), h3⟩⟩
    rw [Finset.mem_filter, List.mem_toFinset, mem_edgeWeights] at hw'
    have hc' : ConnectedAt g attr w' := by
      intro a ha b hb
      refine (hc a ha b hb).mono ?_
      rintro ⟨u, v⟩ huv
      obtain ⟨x, w, h1, h2, h3⟩ := mem_heavyEdges.1 huv
      exact mem_heavyEdges.2 ⟨x, w, h1, h2,
        hmin w (Finset.mem_filter.2 ⟨List.mem_toFinset.2 (mem_edgeWeights.2 ⟨_, h1, h2⟩), h3⟩)⟩
    exact absurd (hB.2 ⟨hc', hw'.1⟩) (not_le.2 (hlt.trans_le hw'.2))
  · intro hle
    exact hB.1.1.mono hle

theorem drifts_iff_bottleneck [FloorRing K] (h : g.WF) (h2 : 2 ≤ g.nodes.length) {B m : K} (hB : IsBottleneck g attr B) (hm : m ≤ 1) (t : K) :
    Drifts g attr m t ↔ B < t := by
  rw [drifts_iff_apart hm, ← not_le, ← connectedAt_iff h h2 hB]
  unfold ConnectedAt
  push Not
  rfl

/-- C120.  On a connected graph, with a limit of at most 1 and whatever the rounding, the learner returns the threshold before the first
one above the bottleneck, and runs one epoch for each. -/
theorem floatsamR_bottleneck [FloorRing K] (rnd : K → K) (h : g.WF) (hd : g.directed = false) (h2 : 2 ≤ g.nodes.length) (hw : Weighted g attr)
    {B : K} (hB : IsBottleneck g attr B) {given : Option K} {m : K} (hm : DrifterLimit g given m) (hm1 : m ≤ 1) {o : OnEpoch K}
    (ho : o ≠ .notCallable) (hq : o.Quiet) (start rate : K) {k : Nat} (h1 : B < steps rnd start rate (k + 1))
    (h3 : ∀ j < k, steps rnd start rate (j + 1) ≤ B) (fuel : Nat) :
    (fuel ≤ k → (floatsamR rnd g start rate given attr o fuel).2 = .error .diverges) ∧
    (k < fuel → ∃ tr, floatsamR rnd g start rate given attr o fuel = (tr, .ok (steps rnd start rate k)) ∧
      ((∃ f, o = .function f) → tr.length = k + 1)) := by
  have he : g.edgesData ≠ [] := by
    obtain ⟨e, he, -⟩ := hB.1.2
    exact List.ne_nil_of_mem he
  rw [floatsamR_eq_loop rnd h hd he hm ho]
  have hD := drifts_iff_bottleneck h h2 hB hm1
  constructor
  · intro hf
    exact floatsamLoopR_diverges rnd h hd hw hq rate m fuel 0 start fun j hj => by
      rw [hD, not_lt]
      exact h3 j (by omega)
  · intro hf
    obtain ⟨tr, t1, t2⟩ := floatsamLoopR_stops rnd h hd hw hq rate m hf 0 start ((hD _).2 h1) fun j hj => by
      rw [hD, not_lt]
      exact h3 j hj
    refine ⟨tr, t1, fun hf => ?_⟩
    have := congrArg List.length (t2 hf)
    simpa using this

theorem steps_exact (start rate : K) (k : Nat) : steps (fun x => x) start rate k = start + k * rate := by
  induction k with
  | zero => simp [steps]
  | succ k ih =>
    show steps _ start rate k + rate = _
    rw [ih]
    push_cast
    ring

/-- C120.  In exact arithmetic it learns the bottleneck up to the learning rate, in `⌊(B - start) / rate⌋ + 1` epochs: the threshold
returned connects the graph, and a step more does not. -/
theorem floatsam_bottleneck [FloorRing K] (h : g.WF) (hd : g.directed = false) (h2 : 2 ≤ g.nodes.length) (hw : Weighted g attr)
    {B : K} (hB : IsBottleneck g attr B) {given : Option K} {m : K} (hm : DrifterLimit g given m) (hm1 : m ≤ 1) {o : OnEpoch K}
    (ho : o ≠ .notCallable) (hq : o.Quiet) {start rate : K} (hs : start ≤ B) (hrate : 0 < rate) :
    ∃ k : Nat, k = ⌊(B - start) / rate⌋₊ ∧
      (∀ fuel ≤ k, (floatsam g start rate given attr o fuel).2 = .error .diverges) ∧
      (∀ fuel > k, ∃ tr, floatsam g start rate given attr o fuel = (tr, .ok (start + k * rate)) ∧
        ((∃ f, o = .function f) → tr.length = k + 1)) ∧
      start + k * rate ≤ B ∧ B < start + k * rate + rate ∧
      ConnectedAt g attr (start + k * rate) ∧ ¬ ConnectedAt g attr (start + k * rate + rate) := by
  have hnn : 0 ≤ (B - start) / rate := div_nonneg (by linarith) hrate.le
  have hle : (⌊(B - start) / rate⌋₊ : K) * rate ≤ B - start := (le_div_iff₀ hrate).1 (Nat.floor_le hnn)
  have hlt : B - start < ((⌊(B - start) / rate⌋₊ : K) + 1) * rate := (div_lt_iff₀ hrate).1 (Nat.lt_floor_add_one _)
  have key := floatsamR_bottleneck (fun x => x) h hd h2 hw hB hm hm1 ho hq start rate (k := ⌊(B - start) / rate⌋₊)
    (by rw [steps_exact]; push_cast; linarith)
    (fun j hj => by
      rw [steps_exact]
      have : ((j + 1 : ℕ) : K) * rate ≤ (⌊(B - start) / rate⌋₊ : K) * rate :=
        mul_le_mul_of_nonneg_right (by exact_mod_cast hj) hrate.le
      linarith)
  refine ⟨_, rfl, fun fuel hf => (key fuel).1 hf, fun fuel hf => ?_, by linarith, by linarith, ?_, ?_⟩
  · obtain ⟨tr, t1, t2⟩ := (key fuel).2 hf
    rw [steps_exact] at t1
    exact ⟨tr, t1, t2⟩
  · rw [connectedAt_iff h h2 hB]; linarith
  · rw [connectedAt_iff h h2 hB]; linarith

/-- C120.  On a graph which is not connected, with a limit of at most 1, it learns nothing: the starting threshold is returned after
one epoch, whatever the learning rate and the rounding. -/
theorem floatsamR_unconnected [FloorRing K] (rnd : K → K) (h : g.WF) (hd : g.directed = false) (he : g.edgesData ≠ [])
    (hw : Weighted g attr) {a b : V} (ha : a ∈ g.nodes) (hb : b ∈ g.nodes) (hab : ¬ Linked g.edges a b) {given : Option K} {m : K}
    (hm : DrifterLimit g given m) (hm1 : m ≤ 1) {o : OnEpoch K} (ho : o ≠ .notCallable) (hq : o.Quiet) (start rate : K) {fuel : Nat}
    (hf : 0 < fuel) :
    ∃ tr, floatsamR rnd g start rate given attr o fuel = (tr, .ok start) ∧ ((∃ f, o = .function f) → tr.length = 1) := by
  rw [floatsamR_eq_loop rnd h hd he hm ho]
  have hdr : Drifts g attr m (steps rnd start rate 1) := by
    rw [drifts_iff_apart hm1]
    refine ⟨a, ha, b, hb, fun hl => hab (hl.mono ?_)⟩
    rintro ⟨u, v⟩ huv
    obtain ⟨x, w, h1, -, -⟩ := mem_heavyEdges.1 huv
    rw [edges_eq_data]
    exact List.mem_map.2 ⟨_, h1, rfl⟩
  obtain ⟨tr, t1, t2⟩ := floatsamLoopR_stops rnd h hd hw hq rate m hf 0 start hdr (by simp)
  refine ⟨tr, t1, fun hf => ?_⟩
  have := congrArg List.length (t2 hf)
  simpa using this

end

theorem tie_connected {w t : ℚ} (h : t ≤ w) : ConnectedAt (tie w) "weight" t := by
  have h01 : Linked (heavyEdges (tie w) "weight" t) 0 1 :=
    .of_mem (mem_heavyEdges.2 ⟨[(.str "weight", .num w)], w, List.mem_singleton.2 rfl, rfl, h⟩)
  intro a ha b hb
  have hn : (tie w).nodes = [0, 1] := rfl
  rw [hn] at ha hb
  simp only [List.mem_cons, List.not_mem_nil, or_false] at ha hb
  rcases ha with rfl | rfl <;> rcases hb with rfl | rfl
  · exact .refl _ _
  · exact h01
  · exact h01.symm
  · exact .refl _ _

theorem tie_bottleneck (w : ℚ) : IsBottleneck (tie w) "weight" w := by
  refine ⟨⟨tie_connected le_rfl, _, List.mem_singleton.2 rfl, rfl⟩, ?_⟩
  rintro x ⟨-, e, he, hx⟩
  have : e = (0, 1, [(.str "weight", .num w)]) := List.mem_singleton.1 he
  subst this
  have hx : some w = some x := hx
  cases hx
  exact le_rfl

/-- C120, a case: two nodes linked by an edge of weight 1000.  With a learning rate of 1/100 the learner returns 1000, after 100001
epochs; with a learning rate of 300 it returns 900, after 4 epochs. -/
theorem floatsam_bottleneck_sample :
    (floatsam (tie 1000) 0 (1 / 100) (some 1) "weight" .none 100000).2 = .error .diverges ∧
    (∃ tr, floatsam (tie 1000) 0 (1 / 100) (some 1) "weight" .none 100001 = (tr, .ok 1000)) ∧
    (floatsam (tie 1000) 0 300 (some 1) "weight" .none 3).2 = .error .diverges ∧
    ∃ tr, floatsam (tie 1000) 0 300 (some 1) "weight" .none 4 = (tr, .ok 900) := by
  have hw : Weighted (tie 1000) "weight" := by
    intro e he
    have : e = (0, 1, [(.str "weight", .num 1000)]) := List.mem_singleton.1 he
    subst this
    exact ⟨1000, rfl⟩
  have key := fun (rate : ℚ) (hr : 0 < rate) => floatsam_bottleneck (tie_wf 1000) rfl (by decide) hw (tie_bottleneck 1000)
    (given := some 1) (.inl rfl) le_rfl (o := .none) (by simp) (by intro f hf; cases hf) (start := 0) (by norm_num) hr
  obtain ⟨k, hk, a1, a2, -⟩ := key (1 / 100) (by norm_num)
  obtain ⟨l, hl, b1, b2, -⟩ := key 300 (by norm_num)
  have hk : k = 100000 := by
    rw [hk]
    norm_num
  have hl : l = 3 := by
    rw [hl, Nat.floor_eq_iff (by norm_num)]
    norm_num
  subst hk hl
  obtain ⟨tr, h1, -⟩ := a2 100001 (by norm_num)
  obtain ⟨tr', h2, -⟩ := b2 4 (by norm_num)
  refine ⟨a1 100000 le_rfl, ⟨tr, ?_⟩, b1 3 le_rfl, tr', ?_⟩
  · rw [h1]; norm_num
  · rw [h2]; norm_num

/-- The hypotheses of `bottleneck_exists` on this graph. -/
example : Weighted (tie 1000) "weight" ∧ (tie 1000).edgesData ≠ [] ∧
    ∀ a ∈ (tie 1000).nodes, ∀ b ∈ (tie 1000).nodes, Linked (tie 1000).edges a b := by
  refine ⟨?_, List.cons_ne_nil _ _, ?_⟩
  · intro e he
    have : e = (0, 1, [(.str "weight", .num 1000)]) := List.mem_singleton.1 he
    subst this
    exact ⟨1000, rfl⟩
  · have := tie_connected (w := 1000) (t := 0) (by norm_num)
    have h1 : heavyEdges (tie 1000) "weight" 0 = (tie 1000).edges := by decide +kernel
    unfold ConnectedAt at this
    rwa [h1] at this

/-- An edge of weight 5 and an isolated node. -/
def loose : Graph Int (Val ℚ) :=
  ⟨false, false, [], [(0, []), (1, []), (2, [])], [⟨0, 1, [(.int 0, [(.str "weight", .num 5)])]⟩]⟩

/-- The hypotheses of `floatsamR_unconnected` on this graph: from 1 and with a learning rate of 1, 1 is returned though the edges of
weight at least 5 make the same components. -/
theorem floatsamR_unconnected_sample : ∃ tr, floatsamR round64 loose 1 1 (some 1) "weight" .none 1 = (tr, .ok 1) := by
  have hw : Weighted loose "weight" := by
    intro e he
    have : e = (0, 1, [(.str "weight", .num 5)]) := List.mem_singleton.1 he
    subst this
    exact ⟨5, rfl⟩
  have hab : ¬ Linked loose.edges 0 2 := by
    have he : loose.edges = [(0, 1)] := by decide +kernel
    rw [he]
    intro hl
    have : ∀ x y : Int, Linked [((0 : Int), (1 : Int))] x y → (x = 2 ↔ y = 2) := by
      intro x y hl
      induction hl with
      | rel u v h =>
        have h : (u, v) ∈ [((0 : Int), (1 : Int))] := h
        simp only [List.mem_singleton, Prod.mk.injEq] at h
        obtain ⟨rfl, rfl⟩ := h
        decide
      | refl => exact Iff.rfl
      | symm _ _ _ ih => exact ih.symm
      | trans _ _ _ _ _ ih1 ih2 => exact ih1.trans ih2
    exact absurd ((this 0 2 hl).2 rfl) (by decide)
  obtain ⟨tr, h, -⟩ := floatsamR_unconnected round64 (g := loose) (by constructor <;> decide) rfl (by decide +kernel) hw
    (a := 0) (b := 2) (by decide) (by decide) hab (given := some 1) (.inl rfl) le_rfl (o := .none) (by simp)
    (by intro f hf; cases hf) 1 1 (fuel := 1) (by norm_num)
  exact ⟨tr, h⟩

end Pelote
