import Verif.Props.SelfSimilarityFloat
import Verif.Lemmas.Reorder

/-! C128: what the depth of `self_similarity_projection` changes. -/
set_option linter.unusedSectionVars false
namespace Pelote
open Graph

section
variable {V A : Type} [DecidableEq V] {g : Graph V A}

theorem IsDist.prefix {step : V → V → Prop} {u w : V} {d : Nat} (h : IsDist step u w d) :
    ∀ k ≤ d, ∃ x, IsDist step u x k := by
  induction d generalizing w with
  | zero => exact fun k hk => ⟨w, by rwa [Nat.le_zero.1 hk]⟩
  | succ d ih =>
    intro k hk
    rcases Nat.lt_or_ge d k with hlt | hle
    · exact ⟨w, by rwa [show k = d + 1 by omega]⟩
    · obtain ⟨hw, hmin⟩ := h
      cases hw with
      | snoc hv hs => exact ih (w := _) ⟨hv, fun j hj hj' => hmin (j + 1) (by omega) (.snoc hj' hs)⟩ k hle

/-- The distances in a graph are less than the number of its nodes. -/
theorem isDist_lt_order (h : g.WF) {reverse : Bool} {n x : V} {d : Nat} (hn : n ∈ g.nodes) (hd : IsDist (g.Step reverse) n x d) :
    d < g.order := by
  have hin : ∀ {y k}, Walk (g.Step reverse) n y k → y ∈ g.nodes := by
    intro y k hw
    cases hw with
    | nil => exact hn
    | snoc _ hs =>
      unfold Graph.Step at hs
      split at hs
      · exact (hasEdge_mem h hs).1
      · exact (hasEdge_mem h hs).2
  haveI : Nonempty V := ⟨n⟩
  choose! f hf using hd.prefix
  have hc : (Finset.range (d + 1)).card ≤ g.nodes.toFinset.card := by
    refine Finset.card_le_card_of_injOn f (fun k hk => ?_) (fun j hj k hk he => ?_)
    · rw [Finset.coe_range, Set.mem_Iio] at hk
      exact Finset.mem_coe.2 (List.mem_toFinset.2 (hin (hf k (by omega)).1))
    · rw [Finset.coe_range, Set.mem_Iio] at hj hk
      have h1 := hf j (by omega)
      have h2 := hf k (by omega)
      rw [he] at h1
      exact h1.unique h2
  have hl := g.nodes.toFinset_card_le
  rw [Finset.card_range] at hc
  unfold Graph.order
  unfold Graph.nodes Dict.keys at hl hc
  rw [List.length_map] at hl
  omega

theorem Graph.reach_mono (g : Graph V A) (reverse : Bool) (n : V) {d d' : Int} (hd : d ≤ d') :
    g.reach reverse n d ≤ g.reach reverse n d' := by
  classical
  unfold Graph.reach
  split
  · rename_i he
    obtain ⟨k, x, h1, h2, hx⟩ := he
    rw [if_pos ⟨k, x, h1, h2.trans hd, hx⟩]
    exact_mod_cast Nat.findGreatest_mono_right _ (by omega : d.toNat ≤ d'.toNat)
  · rename_i hno
    split
    · rename_i he
      obtain ⟨k, x, h1, h2, hx⟩ := he
      have hlt : d < k := by
        by_contra hle
        exact hno ⟨k, x, h1, by omega, hx⟩
      have := Nat.le_findGreatest (P := fun d => ∃ x, IsDist (g.Step reverse) n x d) (m := k) (n := d'.toNat) (by omega) ⟨x, hx⟩
      omega
    · exact hd

theorem radii_mono (g : Graph V A) (ns : List V) (n : V) {d d' : Int} (hd : d ≤ d') :
    (radii g ns d n).1 ≤ (radii g ns d' n).1 ∧ (radii g ns d n).2 ≤ (radii g ns d' n).2 := by
  induction ns generalizing d d' with
  | nil => exact ⟨hd, hd⟩
  | cons m ns ih =>
    unfold radii
    split
    · exact ⟨hd, g.reach_mono _ _ hd⟩
    · exact ih (g.reach_mono _ _ (g.reach_mono _ _ hd))

/-- Beyond the distances of the graph, the depth is kept, or replaced by one that does not depend on it. -/
theorem reach_beyond (h : g.WF) {reverse : Bool} {n : V} (hn : n ∈ g.nodes) {d d' : Int} (hd : (g.order : Int) ≤ d + 1)
    (hd' : (g.order : Int) ≤ d' + 1) :
    g.reach reverse n d = g.reach reverse n d' ∨ g.reach reverse n d = d ∧ g.reach reverse n d' = d' := by
  classical
  have key : ∀ {e e' : Int}, (g.order : Int) ≤ e' + 1 →
      (∃ (k : Nat) (x : V), 1 ≤ k ∧ (k : Int) ≤ e ∧ IsDist (g.Step reverse) n x k) →
      ∃ (k : Nat) (x : V), 1 ≤ k ∧ (k : Int) ≤ e' ∧ IsDist (g.Step reverse) n x k := by
    rintro e e' he ⟨k, x, h1, h2, hx⟩
    have := isDist_lt_order h hn hx
    exact ⟨k, x, h1, by omega, hx⟩
  unfold Graph.reach
  by_cases he : ∃ (k : Nat) (x : V), 1 ≤ k ∧ (k : Int) ≤ d ∧ IsDist (g.Step reverse) n x k
  · rw [if_pos he, if_pos (key hd' he)]
    left
    have hle : ∀ {e e' : Int}, (g.order : Int) ≤ e' + 1 → Nat.findGreatest (fun d => ∃ x, IsDist (g.Step reverse) n x d) e.toNat ≤
        Nat.findGreatest (fun d => ∃ x, IsDist (g.Step reverse) n x d) e'.toNat := by
      intro e e' he
      obtain ⟨x, hx⟩ := Nat.findGreatest_spec (P := fun d => ∃ x, IsDist (g.Step reverse) n x d) (m := 0) (n := e.toNat)
        (Nat.zero_le _) ⟨n, .nil, fun k hk => absurd hk (Nat.not_lt_zero k)⟩
      have := isDist_lt_order h hn hx
      exact Nat.le_findGreatest (by omega) ⟨x, hx⟩
    exact_mod_cast Nat.le_antisymm (hle hd') (hle hd)
  · rw [if_neg he, if_neg (fun h' => he (key hd h'))]
    exact .inr ⟨rfl, rfl⟩

theorem radii_beyond (h : g.WF) (ns : List V) (hns : ∀ m ∈ ns, m ∈ g.nodes) (n : V) {d d' : Int}
    (hd : d = d' ∨ (g.order : Int) ≤ d + 1 ∧ (g.order : Int) ≤ d' + 1) :
    ((radii g ns d n).1 = (radii g ns d' n).1 ∨ (g.order : Int) ≤ (radii g ns d n).1 + 1 ∧ (g.order : Int) ≤ (radii g ns d' n).1 + 1) ∧
    ((radii g ns d n).2 = (radii g ns d' n).2 ∨ (g.order : Int) ≤ (radii g ns d n).2 + 1 ∧ (g.order : Int) ≤ (radii g ns d' n).2 + 1) := by
  have step : ∀ {m : V} {reverse : Bool} {e e' : Int}, m ∈ g.nodes → (e = e' ∨ (g.order : Int) ≤ e + 1 ∧ (g.order : Int) ≤ e' + 1) →
      (g.reach reverse m e = g.reach reverse m e' ∨
        (g.order : Int) ≤ g.reach reverse m e + 1 ∧ (g.order : Int) ≤ g.reach reverse m e' + 1) := by
    intro m reverse e e' hm he
    rcases he with rfl | ⟨h1, h2⟩
    · exact .inl rfl
    · rcases reach_beyond h hm h1 h2 with hh | ⟨e1, e2⟩
      · exact .inl hh
      · rw [e1, e2]
        exact .inr ⟨h1, h2⟩
  induction ns generalizing d d' with
  | nil => exact ⟨hd, hd⟩
  | cons m ns ih =>
    have hm := hns m List.mem_cons_self
    unfold radii
    split
    · exact ⟨hd, step hm hd⟩
    · exact ih (fun x hx => hns x (List.mem_cons_of_mem _ hx)) (step hm (step hm hd))

end

section
variable {V K : Type} [DecidableEq V] [Field K] [LinearOrder K] [IsStrictOrderedRing K] [AttrVal (Val K)] {g : Graph V (Val K)}

/-- C128.  A greater depth keeps every link of the projection (with another weight), whatever the rounding of the weights. -/
theorem selfSimilarity_deeper (rnd : K → K) (h : g.WF) (hdir : g.directed = true)
    (hkw : ∀ n a, g.node.get? n = some a → NodeKwSafe a) {d d' : Int} (hd : d ≤ d') :
    ∃ m m', selfSimilarityProjectionR rnd g d = .ok m ∧ selfSimilarityProjectionR rnd g d' = .ok m' ∧ m'.node = m.node ∧
      ∀ u v, m.hasEdge u v = true → m'.hasEdge u v = true := by
  obtain ⟨m, T, e1, e2, e3, e4, -, e5, e6, e7⟩ := selfSimilarityR_radii rnd h hdir hkw d
  obtain ⟨m', T', f1, f2, f3, f4, -, f5, f6, f7⟩ := selfSimilarityR_radii rnd h hdir hkw d'
  refine ⟨m, m', e1, f1, by rw [e5, f5], fun u v he => ?_⟩
  have hsub : ∀ n ∈ g.nodes, T n ⊆ T' n := by
    rintro n hn ⟨out, k, x⟩ hk
    have hr := radii_mono g g.nodes n hd
    rw [e6 n hn] at hk
    rw [f6 n hn]
    refine ⟨hk.1, hk.2.1.trans ?_, hk.2.2⟩
    split
    · exact hr.1
    · exact hr.2
  obtain ⟨a, ha⟩ := edge?_of_hasEdge e2 e4 he
  obtain ⟨h1, h2, h3, ⟨t, ht⟩, -⟩ := (e7 u v a).1 ha
  have := (f7 u v _).2 ⟨h1, h2, h3, ⟨t, Finset.mem_inter.2 ⟨hsub u h2 (Finset.mem_inter.1 ht).1, hsub v h3 (Finset.mem_inter.1 ht).2⟩⟩, rfl⟩
  exact hasEdge_of_edge? this

/-- C128.  From the number of nodes minus 1 on, the depth changes nothing. -/
theorem selfSimilarity_beyond (rnd : K → K) (h : g.WF) (hdir : g.directed = true)
    (hkw : ∀ n a, g.node.get? n = some a → NodeKwSafe a) {d d' : Int} (hd : (g.order : Int) - 1 ≤ d) (hd' : (g.order : Int) - 1 ≤ d') :
    ∃ m m', selfSimilarityProjectionR rnd g d = .ok m ∧ selfSimilarityProjectionR rnd g d' = .ok m' ∧ m'.node = m.node ∧
      m'.directed = m.directed ∧ m'.multi = m.multi ∧ m'.attrs = m.attrs ∧
      ∀ u v a, m'.edge? u v (.int 0) = some a ↔ m.edge? u v (.int 0) = some a := by
  obtain ⟨m, T, e1, -, e2, e3, e4, e5, e6, e7⟩ := selfSimilarityR_radii rnd h hdir hkw d
  obtain ⟨m', T', f1, -, f2, f3, f4, f5, f6, f7⟩ := selfSimilarityR_radii rnd h hdir hkw d'
  refine ⟨m, m', e1, f1, by rw [e5, f5], by rw [e2, f2], by rw [e3, f3], by rw [e4, f4], fun u v a => ?_⟩
  have hT : ∀ n ∈ g.nodes, T' n = T n := by
    intro n hn
    ext ⟨out, k, x⟩
    rw [e6 n hn, f6 n hn]
    obtain ⟨r1, r2⟩ := radii_beyond h g.nodes (fun _ hm => hm) n (d := d) (d' := d') (.inr ⟨by omega, by omega⟩)
    refine and_congr_right fun _ => and_congr_left fun hx => ?_
    have := isDist_lt_order h hn hx
    cases out <;> simp only [Bool.false_eq_true, if_false, if_true] <;> omega
  rw [e7, f7]
  constructor
  · rintro ⟨h1, h2, h3, h4, h5⟩
    unfold tagSimilarity at h5
    rw [hT u h2, hT v h3] at h4 h5
    exact ⟨h1, h2, h3, h4, h5⟩
  · rintro ⟨h1, h2, h3, h4, h5⟩
    unfold tagSimilarity at h5
    rw [← hT u h2, ← hT v h3] at h4 h5
    exact ⟨h1, h2, h3, h4, h5⟩

/-- C128.  With a depth of 0 or less there is no link. -/
theorem selfSimilarity_no_depth (rnd : K → K) (h : g.WF) (hdir : g.directed = true)
    (hkw : ∀ n a, g.node.get? n = some a → NodeKwSafe a) {d : Int} (hd : d ≤ 0) :
    ∃ m, selfSimilarityProjectionR rnd g d = .ok m ∧ m.node = g.node ∧ ∀ u v, m.hasEdge u v = false := by
  obtain ⟨m, T, e1, e2, e3, e4, -, e5, e6, e7⟩ := selfSimilarityR_radii rnd h hdir hkw d
  refine ⟨m, e1, e5, fun u v => ?_⟩
  rw [← Bool.not_eq_true]
  intro he
  obtain ⟨a, ha⟩ := edge?_of_hasEdge e2 e4 he
  obtain ⟨-, h2, -, ⟨⟨out, k, x⟩, ht⟩, -⟩ := (e7 u v a).1 ha
  have hk := (e6 u h2 out k x).1 (Finset.mem_inter.1 ht).1
  obtain ⟨b1, b2, -⟩ := radii_bounds g g.nodes d u
  obtain ⟨k1, k2, -⟩ := hk
  split at k2 <;> omega

end

/-- Links `1 → 3 → 5` and `2 → 4 → 5`. -/
def twoPaths : Graph Nat (Val ℚ) :=
  ⟨true, false, [], [(1, []), (2, []), (3, []), (4, []), (5, [])],
    [⟨1, 3, [(.int 0, [])]⟩, ⟨3, 5, [(.int 0, [])]⟩, ⟨2, 4, [(.int 0, [])]⟩, ⟨4, 5, [(.int 0, [])]⟩]⟩

/-- C128, a case: the hypotheses are met; nodes 3 and 4 are linked from depth 1 on, nodes 1 and 2 from depth 2 on. -/
theorem selfSimilarity_depth_sample : (twoPaths.WF ∧ twoPaths.directed = true ∧
    ∀ n a, twoPaths.node.get? n = some a → NodeKwSafe a) ∧
    (selfSimilarityProjection twoPaths 0).map (·.edges) = .ok [] ∧
    (selfSimilarityProjection twoPaths 1).map (·.edges) = .ok [(3, 4)] ∧
    (selfSimilarityProjection twoPaths 2).map (·.edges) = .ok [(1, 2), (3, 4)] ∧
    (selfSimilarityProjection twoPaths 4).map (·.edges) = .ok [(1, 2), (3, 4)] := by
  refine ⟨⟨by constructor <;> decide, rfl, ?_⟩, by decide +kernel, by decide +kernel, by decide +kernel, by decide +kernel⟩
  intro n a ha
  have := Dict.mem_of_get? ha
  simp only [twoPaths, List.mem_cons, Prod.mk.injEq, List.not_mem_nil, or_false] at this
  rcases this with h | h | h | h | h <;> rw [h.2] <;> simp [NodeKwSafe, Dict.keys]

end Pelote
