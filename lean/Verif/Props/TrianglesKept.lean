import Verif.Props.LeavesMeasures
import Verif.Props.ComponentsExact
import Verif.Props.Sparsification
import Verif.Props.BackboneSize

/-! C125: triangles of a sparsified graph and of the largest component. -/
set_option linter.unusedSectionVars false
namespace Pelote
open Graph
open scoped List

section
variable {V A : Type} [DecidableEq V] {g g' : Graph V A}

/-- Two nodes joined by an edge that passes a test, in either direction. -/
def JoinedBy (g : Graph V A) (p : V → V → Attrs A → Prop) (x y : V) : Prop :=
  ∃ a, ((x, y, a) ∈ g.edgesData ∧ p x y a) ∨ ((y, x, a) ∈ g.edgesData ∧ p y x a)

theorem mem_edges_data {x y : V} : (x, y) ∈ g.edges ↔ ∃ a, (x, y, a) ∈ g.edgesData := by
  unfold Graph.edges Graph.edgesData
  simp only [List.mem_map]
  constructor
  · rintro ⟨⟨u, v, k, a⟩, h, e⟩
    cases e
    exact ⟨a, _, h, rfl⟩
  · rintro ⟨a, ⟨u, v, k, a'⟩, h, e⟩
    cases e
    exact ⟨_, h, rfl⟩

/-- The adjacencies of a graph with some of the edges. -/
theorem adjacent_kept (h' : g'.WF) {p : V → V → Attrs A → Prop} [∀ e : V × V × Attrs A, Decidable (p e.1 e.2.1 e.2.2)]
    (he : g'.edgesData = g.edgesData.filter (fun e => decide (p e.1 e.2.1 e.2.2))) (x y : V) :
    g'.Adjacent x y ↔ JoinedBy g p x y := by
  rw [← listed_adjacent h', mem_edges_data, mem_edges_data, he]
  simp only [List.mem_filter, decide_eq_true_eq, JoinedBy]
  constructor
  · rintro (⟨a, h⟩ | ⟨a, h⟩)
    · exact ⟨a, .inl h⟩
    · exact ⟨a, .inr h⟩
  · rintro ⟨a, h | h⟩
    · exact .inl ⟨a, h⟩
    · exact .inr ⟨a, h⟩

/-- C125.  The triangles of a graph with some of the edges: three nodes joined two by two by the edges kept. -/
theorem triangles_kept (h' : g'.WF) {p : V → V → Attrs A → Prop} [∀ e : V × V × Attrs A, Decidable (p e.1 e.2.1 e.2.2)]
    (he : g'.edgesData = g.edgesData.filter (fun e => decide (p e.1 e.2.1 e.2.2))) (s : Finset V) :
    g'.IsTriangle s ↔ ∃ a b c, a ≠ b ∧ b ≠ c ∧ a ≠ c ∧ JoinedBy g p a b ∧ JoinedBy g p b c ∧ JoinedBy g p a c ∧ s = {a, b, c} := by
  unfold Graph.IsTriangle
  simp only [adjacent_kept h' he]

/-- C125.  The triangles left by `crop_to_largest_connected_component`: those of the graph with a node in the component kept, which
have then all their nodes in it. -/
theorem crop_triangles (h : g.WF) :
    ∃ g', cropToLargest g = (g', .ok ()) ∧ g'.WF ∧ (∀ x y, g'.Adjacent x y ↔ g.Adjacent x y ∧ x ∈ g'.nodes) ∧
      ∀ s, g'.IsTriangle s ↔ g.IsTriangle s ∧ ∃ n ∈ s, n ∈ g'.nodes := by
  obtain ⟨r, g', -, hcrop, hwf, -, -, -, hnone, hsome⟩ := cropToLargest_exact h
  have hmem : ∀ {x y}, g.Adjacent x y → x ∈ g.nodes ∧ y ∈ g.nodes := by
    intro x y ha
    rcases (listed_adjacent h).2 ha with he | he
    · exact edges_ends h he
    · exact (edges_ends h he).symm
  have hadj : ∀ x y, g'.Adjacent x y ↔ g.Adjacent x y ∧ x ∈ g'.nodes := by
    intro x y
    cases r with
    | none =>
      rw [hnone rfl]
      exact ⟨fun ha => ⟨ha, (hmem ha).1⟩, fun ha => ha.1⟩
    | some c =>
      obtain ⟨k1, k2, k3⟩ := hsome c rfl
      have hn : ∀ n, n ∈ g'.nodes ↔ n ∈ g.nodes ∧ n ∈ c := by
        intro n
        unfold Graph.nodes
        rw [k1]
        simp only [Dict.keys, List.mem_map, List.mem_filter, decide_eq_true_eq]
        constructor
        · rintro ⟨q, ⟨h1, h2⟩, rfl⟩
          exact ⟨⟨q, h1, rfl⟩, h2⟩
        · rintro ⟨⟨q, h1, rfl⟩, h2⟩
          exact ⟨q, ⟨h1, h2⟩, rfl⟩
      have e1 : ∀ u v, (u, v) ∈ g'.edges ↔ (u, v) ∈ g.edges ∧ u ∈ c := by
        intro u v
        have : g'.edges = g.edges.filter (fun e => decide (e.1 ∈ c)) := by
          unfold Graph.edges
          rw [k2, List.filter_map]
          rfl
        rw [this]
        simp
      have e2 : ∀ u v, (u, v) ∈ g'.edges ↔ (u, v) ∈ g.edges ∧ v ∈ c := by
        intro u v
        have : g'.edges = g.edges.filter (fun e => decide (e.2 ∈ c)) := by
          unfold Graph.edges
          rw [k3, List.filter_map]
          rfl
        rw [this]
        simp
      rw [← listed_adjacent hwf, ← listed_adjacent h, e1, e2, hn]
      constructor
      · rintro (⟨h1, h2⟩ | ⟨h1, h2⟩)
        · exact ⟨.inl h1, (edges_ends h h1).1, h2⟩
        · exact ⟨.inr h1, (edges_ends h h1).2, h2⟩
      · rintro ⟨h1 | h1, -, h2⟩
        · exact .inl ⟨h1, h2⟩
        · exact .inr ⟨h1, h2⟩
  refine ⟨g', hcrop, hwf, hadj, fun s => ?_⟩
  have hsym : ∀ {x y}, g.Adjacent x y → x ∈ g'.nodes → y ∈ g'.nodes := by
    intro x y ha hx
    exact ((hadj y x).1 (Or.symm ((hadj x y).2 ⟨ha, hx⟩))).2
  constructor
  · rintro ⟨a, b, c, h1, h2, h3, h4, h5, h6, rfl⟩
    exact ⟨⟨a, b, c, h1, h2, h3, ((hadj _ _).1 h4).1, ((hadj _ _).1 h5).1, ((hadj _ _).1 h6).1, rfl⟩, a, by simp, ((hadj _ _).1 h4).2⟩
  · rintro ⟨⟨a, b, c, h1, h2, h3, h4, h5, h6, rfl⟩, n, hn, hk⟩
    have ha : a ∈ g'.nodes := by
      simp only [Finset.mem_insert, Finset.mem_singleton] at hn
      rcases hn with rfl | rfl | rfl
      · exact hk
      · exact hsym h4.symm hk
      · exact hsym h6.symm hk
    exact ⟨a, b, c, h1, h2, h3, (hadj _ _).2 ⟨h4, ha⟩, (hadj _ _).2 ⟨h5, hsym h4 ha⟩, (hadj _ _).2 ⟨h6, ha⟩, rfl⟩

end

section
variable {V A : Type} [LinearOrder V] {g g' : Graph V A}

/-- With fewer adjacencies, strengths are not greater. -/
theorem strength_mono (h : g.WF) (h' : g'.WF) (hadj : ∀ x y, g'.Adjacent x y → g.Adjacent x y) (x y : V) :
    g'.strength x y ≤ g.strength x y := by
  by_cases hne : x = y
  · subst hne
    exact le_of_eq ((Graph.strength_self g' x).trans (Graph.strength_self g x).symm)
  by_cases ha : g'.Adjacent x y
  · rw [strength_card h' hne ha, strength_card h hne (hadj _ _ ha)]
    refine Finset.card_le_card fun z hz => ?_
    rw [mem_commonNeighbors h'] at hz
    rw [mem_commonNeighbors h]
    exact ⟨⟨hz.1.1, hadj _ _ hz.1.2⟩, hz.2.1, hadj _ _ hz.2.2⟩
  · rw [strength_zero ha]
    exact Nat.zero_le _

/-- C125.  On a graph with some of the edges, `triangular_strength` has no new pair and no greater strength, and with `full` the pairs
of the edges left. -/
theorem triangularStrength_kept [PyOrd V] (ho : OrderedKeys V) (h : g.WF) (h' : g'.WF)
    (hsub : ∀ e ∈ g'.edgesData, e ∈ g.edgesData) (full : Bool) :
    ∃ d d', triangularStrength g full = .ok d ∧ triangularStrength g' full = .ok d' ∧
      ∀ p n', d'.get? p = some n' → ∃ n, d.get? p = some n ∧ n' ≤ n := by
  have hadj : ∀ x y, g'.Adjacent x y → g.Adjacent x y := by
    intro x y ha
    rw [← listed_adjacent h', mem_edges_data, mem_edges_data] at ha
    rw [← listed_adjacent h, mem_edges_data, mem_edges_data]
    rcases ha with ⟨a, ha⟩ | ⟨a, ha⟩
    · exact .inl ⟨a, hsub _ ha⟩
    · exact .inr ⟨a, hsub _ ha⟩
  obtain ⟨d, h1, -, h2⟩ := triangularStrength_exact ho h full
  obtain ⟨d', h1', -, h2'⟩ := triangularStrength_exact ho h' full
  refine ⟨d, d', h1, h1', ?_⟩
  rintro ⟨x, y⟩ n' hn
  obtain ⟨k1, k2, rfl⟩ := (h2' x y n').1 hn
  have hle := strength_mono h h' hadj x y
  refine ⟨g.strength x y, (h2 x y _).2 ⟨k1, ?_, rfl⟩, hle⟩
  rcases k2 with ⟨hf, ha⟩ | hp
  · exact .inl ⟨hf, hadj _ _ ha⟩
  · exact .inr (lt_of_lt_of_le hp hle)

/-- C125.  After `crop_to_largest_connected_component`, `triangular_strength` is the same on the pairs of nodes left, and there are no
other pairs. -/
theorem crop_strength [PyOrd V] (ho : OrderedKeys V) (h : g.WF) (full : Bool) :
    ∃ g' d d', cropToLargest g = (g', .ok ()) ∧ triangularStrength g full = .ok d ∧ triangularStrength g' full = .ok d' ∧
      ∀ p, d'.get? p = if p.1 ∈ g'.nodes then d.get? p else none := by
  obtain ⟨g', h1, h2, h3, h4⟩ := crop_triangles h
  obtain ⟨d, k1, -, k2⟩ := triangularStrength_exact ho h full
  obtain ⟨d', k1', -, k2'⟩ := triangularStrength_exact ho h2 full
  refine ⟨g', d, d', h1, k1, k1', ?_⟩
  rintro ⟨x, y⟩
  refine Option.ext fun n => ?_
  rw [k2']
  by_cases hx : x ∈ g'.nodes
  · have hs : g'.strength x y = g.strength x y := by
      unfold Graph.strength
      congr 1
      ext s
      simp only [Set.mem_ofPred_eq, h4]
      exact ⟨fun k => ⟨k.1.1, k.2⟩, fun k => ⟨⟨k.1, x, k.2.2.1, hx⟩, k.2⟩⟩
    rw [if_pos hx, k2, hs, h3]
    simp only [hx, and_true]
  · rw [if_neg hx]
    have hna : ¬ g'.Adjacent x y := fun hc => hx ((h3 x y).1 hc).2
    rw [strength_zero hna]
    simp [hna]

end

section
variable {V K : Type} [LinearOrder V] [PyOrd V] [Field K] [LinearOrder K] [IsStrictOrderedRing K] [AttrVal (Val K)]
  {g : Graph V (Val K)}

/-- C125.  The triangles of the graph given by `global_threshold_sparsification`: three nodes joined two by two by edges reaching the
threshold, or kept by `keep_connected`.  No strength is greater than it was. -/
theorem globalThreshold_triangles (ho : OrderedKeys V) (ulongMax : Nat) (h : g.WF) (t : K) {attr : String}
    (reverse keepConnected : Bool) (hw : ∀ e ∈ g.edgesData, ∃ w, HasNumber attr e.2.2 w)
    (hu : keepConnected = true → (unionOfMaximumSpanningTrees ulongMax g "weight").err = none)
    (hkw : ∀ e ∈ g.edgesData, EdgeKwSafe g.multi e.2.2) :
    ∃ g', globalThresholdSparsification ulongMax g t attr reverse keepConnected = .ok g' ∧
      (∀ s, g'.IsTriangle s ↔ ∃ a b c, a ≠ b ∧ b ≠ c ∧ a ≠ c ∧ s = {a, b, c} ∧
        ∀ x ∈ [(a, b), (b, c), (a, c)], JoinedBy g (fun u v l => Reaches t attr reverse l ∨ keepConnected = true ∧
          ∃ l', (u, v, l') ∈ (unionOfMaximumSpanningTrees ulongMax g "weight").yields) x.1 x.2) ∧
      ∀ full, ∃ d d', triangularStrength g full = .ok d ∧ triangularStrength g' full = .ok d' ∧
        ∀ p n', d'.get? p = some n' → ∃ n, d.get? p = some n ∧ n' ≤ n := by
  classical
  obtain ⟨g', e1, e2, -, -, -, -, e3⟩ := globalThreshold_exact ulongMax h t reverse keepConnected hw hu hkw
  refine ⟨g', e1, fun s => ?_, fun full => triangularStrength_kept ho h e2 (fun e he => ?_) full⟩
  · rw [triangles_kept (p := fun u v l => Reaches t attr reverse l ∨ keepConnected = true ∧
          ∃ l', (u, v, l') ∈ (unionOfMaximumSpanningTrees ulongMax g "weight").yields) e2 (by convert e3)]
    simp only [List.mem_cons, List.not_mem_nil, or_false, forall_eq_or_imp, forall_eq]
    constructor
    · rintro ⟨a, b, c, h1, h2, h3, h4, h5, h6, h7⟩
      exact ⟨a, b, c, h1, h2, h3, h7, h4, h5, h6⟩
    · rintro ⟨a, b, c, h1, h2, h3, h7, h4, h5, h6⟩
      exact ⟨a, b, c, h1, h2, h3, h4, h5, h6, h7⟩
  · rw [e3] at he
    exact (List.mem_filter.1 he).1

/-- C125.  The triangles of the multiscale backbone: three nodes joined two by two by edges of disparity at most `alpha`, or kept by
`keep_connected`.  No strength is greater than it was. -/
theorem multiscaleBackbone_triangles (ho : OrderedKeys V) (ulongMax : Nat) (h : g.WF) (hd : g.directed = false)
    (hm : g.multi = false) {attr : String} {w : V → V → K} (hsym : ∀ u v, w u v = w v u) (hw : g.Weighted attr w)
    (hpos : ∀ u v, g.hasEdge u v = true → 0 < w u v) (alpha : K) (keepConnected : Bool)
    (hu : keepConnected = true → (unionOfMaximumSpanningTrees ulongMax g "weight").err = none)
    (hkw : ∀ e ∈ g.edgesData, EdgeKwSafe g.multi e.2.2) :
    ∃ g', multiscaleBackbone ulongMax g alpha attr keepConnected = .ok g' ∧
      (∀ s, g'.IsTriangle s ↔ ∃ a b c, a ≠ b ∧ b ≠ c ∧ a ≠ c ∧ s = {a, b, c} ∧
        ∀ x ∈ [(a, b), (b, c), (a, c)], JoinedBy g (fun u v _ => g.disparity w u v ≤ alpha ∨ keepConnected = true ∧
          ∃ l', (u, v, l') ∈ (unionOfMaximumSpanningTrees ulongMax g "weight").yields) x.1 x.2) ∧
      ∀ full, ∃ d d', triangularStrength g full = .ok d ∧ triangularStrength g' full = .ok d' ∧
        ∀ p n', d'.get? p = some n' → ∃ n, d.get? p = some n ∧ n' ≤ n := by
  classical
  obtain ⟨g', e1, e2, -, -, -, -, e3⟩ := multiscaleBackbone_exact ulongMax ho h hd hm hsym hw hpos alpha keepConnected hu hkw
  refine ⟨g', e1, fun s => ?_, fun full => triangularStrength_kept ho h e2 (fun e he => ?_) full⟩
  · rw [triangles_kept (p := fun u v _ => g.disparity w u v ≤ alpha ∨ keepConnected = true ∧
          ∃ l', (u, v, l') ∈ (unionOfMaximumSpanningTrees ulongMax g "weight").yields) e2 (by convert e3)]
    simp only [List.mem_cons, List.not_mem_nil, or_false, forall_eq_or_imp, forall_eq]
    constructor
    · rintro ⟨a, b, c, h1, h2, h3, h4, h5, h6, h7⟩
      exact ⟨a, b, c, h1, h2, h3, h7, h4, h5, h6⟩
    · rintro ⟨a, b, c, h1, h2, h3, h7, h4, h5, h6⟩
      exact ⟨a, b, c, h1, h2, h3, h4, h5, h6, h7⟩
  · rw [e3] at he
    exact (List.mem_filter.1 he).1

end

/-- C125, a case: the hypotheses are met by the kite, whose triangle has weights 3, 2 and 1.  It is kept for a threshold of 1, and lost
for a threshold of 2. -/
theorem globalThreshold_triangles_sample [AttrVal (Val ℚ)] :
    kiteGraph.WF ∧ (∀ e ∈ kiteGraph.edgesData, ∃ w, HasNumber "weight" e.2.2 w) ∧
    (∀ e ∈ kiteGraph.edgesData, EdgeKwSafe kiteGraph.multi e.2.2) ∧
    (∃ g', globalThresholdSparsification (2^64 - 1) kiteGraph 1 "weight" false false = .ok g' ∧ g'.IsTriangle {0, 1, 2}) ∧
    ∃ g', globalThresholdSparsification (2^64 - 1) kiteGraph 2 "weight" false false = .ok g' ∧ ¬ ∃ s, g'.IsTriangle s := by
  have hed : kiteGraph.edgesData = [(0, 1, [(.str "weight", .num 3)]), (0, 2, [(.str "weight", .num 1)]),
    (1, 2, [(.str "weight", .num 2)]), (2, 3, [(.str "weight", .num 1)])] := by decide +kernel
  have hwf : kiteGraph.WF := by constructor <;> decide
  have hw : ∀ e ∈ kiteGraph.edgesData, ∃ w, HasNumber "weight" e.2.2 w := by
    intro e he
    rw [hed] at he
    simp only [List.mem_cons, List.not_mem_nil, or_false] at he
    rcases he with rfl | rfl | rfl | rfl <;> exact ⟨_, .inl rfl⟩
  have hkw : ∀ e ∈ kiteGraph.edgesData, EdgeKwSafe kiteGraph.multi e.2.2 := by
    have : ∀ e ∈ kiteGraph.edgesData, e.2.2.keys = [.str "weight"] := by decide +kernel
    intro e he k hk
    rw [this e he] at hk
    exact ⟨"weight", by simpa using hk, by decide⟩
  have ho : OrderedKeys Int := fun _ _ => rfl
  obtain ⟨g₁, a1, a2, -⟩ := globalThreshold_triangles ho (2^64 - 1) hwf 1 false false hw (by simp) hkw
  obtain ⟨g₂, b1, b2, -⟩ := globalThreshold_triangles ho (2^64 - 1) hwf 2 false false hw (by simp) hkw
  refine ⟨hwf, hw, hkw, ⟨g₁, a1, (a2 _).2 ⟨0, 1, 2, by decide, by decide, by decide, rfl, ?_⟩⟩, g₂, b1, ?_⟩
  · intro x hx
    simp only [List.mem_cons, List.not_mem_nil, or_false] at hx
    rcases hx with rfl | rfl | rfl
    · exact ⟨_, .inl ⟨by rw [hed]; exact .head _, .inl ⟨3, .inl rfl, by norm_num⟩⟩⟩
    · exact ⟨_, .inl ⟨by rw [hed]; exact .tail _ (.tail _ (.head _)), .inl ⟨2, .inl rfl, by norm_num⟩⟩⟩
    · exact ⟨_, .inl ⟨by rw [hed]; exact .tail _ (.head _), .inl ⟨1, .inl rfl, by norm_num⟩⟩⟩
  · rintro ⟨s, hs⟩
    obtain ⟨a, b, c, h1, h2, h3, -, h4⟩ := (b2 s).1 hs
    have key : ∀ {x y}, JoinedBy kiteGraph (fun u v l => Reaches 2 "weight" false l ∨ false = true ∧
        ∃ l', (u, v, l') ∈ (unionOfMaximumSpanningTrees (2^64 - 1) kiteGraph "weight").yields) x y →
        (x = 0 ∧ y = 1) ∨ (x = 1 ∧ y = 0) ∨ (x = 1 ∧ y = 2) ∨ (x = 2 ∧ y = 1) := by
      rintro x y ⟨l, hl⟩
      have hr : ∀ u v, (u, v, l) ∈ kiteGraph.edgesData → Reaches 2 "weight" false l → (u = 0 ∧ v = 1) ∨ (u = 1 ∧ v = 2) := by
        intro u v hm hr
        rw [hed] at hm
        obtain ⟨w, h1, h2⟩ := hr
        simp only [List.mem_cons, List.not_mem_nil, or_false, Prod.mk.injEq] at hm
        rcases hm with ⟨rfl, rfl, rfl⟩ | ⟨rfl, rfl, rfl⟩ | ⟨rfl, rfl, rfl⟩ | ⟨rfl, rfl, rfl⟩
        · exact .inl ⟨rfl, rfl⟩
        · simp [HasNumber, Dict.get?] at h1
          subst h1
          norm_num at h2
        · exact .inr ⟨rfl, rfl⟩
        · simp [HasNumber, Dict.get?] at h1
          subst h1
          norm_num at h2
      rcases hl with ⟨hm, hp | hp⟩ | ⟨hm, hp | hp⟩
      · have := hr _ _ hm hp
        tauto
      · simp at hp
      · have := hr _ _ hm hp
        tauto
      · simp at hp
    have e1 := key (h4 (a, b) (by simp))
    have e2 := key (h4 (b, c) (by simp))
    have e3 := key (h4 (a, c) (by simp))
    simp only at e1 e2 e3
    omega

/-- C125, a case: the triangle of a kite, whose edges have disparity 1/2, is in the backbone for that level, and not for 1/4. -/
theorem multiscaleBackbone_triangles_sample [AttrVal (Val ℝ)] :
    (∃ g', multiscaleBackbone (2^64 - 1) (kite 1 8) (1/2) "weight" false = .ok g' ∧ g'.IsTriangle {1, 2, 3}) ∧
    ∃ g', multiscaleBackbone (2^64 - 1) (kite 1 8) (1/4) "weight" false = .ok g' ∧ ¬ g'.IsTriangle {1, 2, 3} := by
  obtain ⟨k1, k2, k3, k4, k5, k6, k7, -, -⟩ := kite_meets (x := 1) (y := 8) one_pos (by norm_num)
  have ho : OrderedKeys Int := fun _ _ => rfl
  have he : (kite 1 8).edgesData = [(1, 2, [(.str "weight", .num 1)]), (1, 3, [(.str "weight", .num 1)]),
    (2, 3, [(.str "weight", .num 1)]), (3, 4, [(.str "weight", .num 8)])] := rfl
  have hee : (kite 1 8).edges = [(1, 2), (1, 3), (2, 3), (3, 4)] := rfl
  have d1 : (kite 1 8).degree 1 = 2 := rfl
  have d2 : (kite 1 8).degree 2 = 2 := rfl
  have s1 : (kite 1 8).nodeStrength (kiteWeights 1 8) 1 = 2 := by
    unfold Graph.nodeStrength
    rw [hee]
    simp [kiteWeights]
    norm_num
  have s2 : (kite 1 8).nodeStrength (kiteWeights 1 8) 2 = 2 := by
    unfold Graph.nodeStrength
    rw [hee]
    simp [kiteWeights]
    norm_num
  have w12 : kiteWeights 1 8 1 2 = 1 := by simp [kiteWeights]
  have w13 : kiteWeights 1 8 1 3 = 1 := by simp [kiteWeights]
  have w23 : kiteWeights 1 8 2 3 = 1 := by simp [kiteWeights]
  have h12 : (kite 1 8).disparity (kiteWeights 1 8) 1 2 = 1 / 2 := by
    unfold Graph.disparity
    rw [d1, d2, s1, s2, w12]
    norm_num
  have h13 : (kite 1 8).disparity (kiteWeights 1 8) 1 3 ≤ 1 / 2 := by
    unfold Graph.disparity
    refine (min_le_left _ _).trans ?_
    rw [d1, s1, w13]
    norm_num
  have h23 : (kite 1 8).disparity (kiteWeights 1 8) 2 3 ≤ 1 / 2 := by
    unfold Graph.disparity
    refine (min_le_left _ _).trans ?_
    rw [d2, s2, w23]
    norm_num
  obtain ⟨g₁, a1, a2, -⟩ := multiscaleBackbone_triangles ho (2^64 - 1) k1 k2 k3 k4 k5 k6 (1/2) false (by simp) k7
  obtain ⟨g₂, b1, b2, -⟩ := multiscaleBackbone_triangles ho (2^64 - 1) k1 k2 k3 k4 k5 k6 (1/4) false (by simp) k7
  refine ⟨⟨g₁, a1, (a2 _).2 ⟨1, 2, 3, by decide, by decide, by decide, rfl, ?_⟩⟩, g₂, b1, ?_⟩
  · intro x hx
    simp only [List.mem_cons, List.not_mem_nil, or_false] at hx
    rcases hx with rfl | rfl | rfl
    · exact ⟨_, .inl ⟨by rw [he]; exact .head _, .inl h12.le⟩⟩
    · exact ⟨_, .inl ⟨by rw [he]; exact .tail _ (.tail _ (.head _)), .inl h23⟩⟩
    · exact ⟨_, .inl ⟨by rw [he]; exact .tail _ (.head _), .inl h13⟩⟩
  · intro hs
    obtain ⟨a, b, c, h1, h2, h3, h4, h5⟩ := (b2 _).1 hs
    have key : ∀ {x y}, JoinedBy (kite 1 8) (fun u v _ => (kite 1 8).disparity (kiteWeights 1 8) u v ≤ 1/4 ∨ false = true ∧
        ∃ l', (u, v, l') ∈ (unionOfMaximumSpanningTrees (2^64 - 1) (kite 1 8) "weight").yields) x y →
        ¬ ((x = 1 ∧ y = 2) ∨ (x = 2 ∧ y = 1)) := by
      rintro x y ⟨l, hl⟩ hxy
      rw [he] at hl
      simp only [List.mem_cons, List.not_mem_nil, or_false, Prod.mk.injEq] at hl
      rcases hxy with ⟨rfl, rfl⟩ | ⟨rfl, rfl⟩
      · rcases hl with ⟨-, hp | hp⟩ | ⟨hm, -⟩
        · rw [h12] at hp
          norm_num at hp
        · simp at hp
        · omega
      · rcases hl with ⟨hm, -⟩ | ⟨-, hp | hp⟩
        · omega
        · rw [h12] at hp
          norm_num at hp
        · simp at hp
    have e1 := key (h5 (a, b) (by simp))
    have e2 := key (h5 (b, c) (by simp))
    have e3 := key (h5 (a, c) (by simp))
    have m1 : (1 : Int) ∈ ({a, b, c} : Finset Int) := by rw [← h4]; decide
    have m2 : (2 : Int) ∈ ({a, b, c} : Finset Int) := by rw [← h4]; decide
    simp only [Finset.mem_insert, Finset.mem_singleton] at m1 m2
    simp only at e1 e2 e3
    omega

/-- A triangle, and an edge apart. -/
def triangleAndEdge : Graph Int Int :=
  ⟨false, false, [], [(8, []), (9, []), (0, []), (1, []), (2, [])],
    [⟨8, 9, [(.int 0, [])]⟩, ⟨0, 1, [(.int 0, [])]⟩, ⟨1, 2, [(.int 0, [])]⟩, ⟨0, 2, [(.int 0, [])]⟩]⟩

/-- C125, a case: the edge goes, with its entry, and the strengths of the others stay. -/
theorem crop_strength_sample :
    triangleAndEdge.WF ∧ (cropToLargest triangleAndEdge).1.nodes = [0, 1, 2] ∧
    (match triangularStrength triangleAndEdge true with | .ok d => some (d.get? (8, 9), d.get? (0, 1)) | .error _ => none) =
      some (some 0, some 1) ∧
    (match triangularStrength (cropToLargest triangleAndEdge).1 true with
      | .ok d => some (d.get? (8, 9), d.get? (0, 1)) | .error _ => none) = some (none, some 1) := by
  exact ⟨by constructor <;> decide, by decide +kernel, by decide +kernel, by decide +kernel⟩

end Pelote
