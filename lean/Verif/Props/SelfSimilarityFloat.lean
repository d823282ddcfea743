import Verif.Props.SelfSimilarity
import Verif.Props.ProjectionFloat

/-! C97: the scores of the self similarity projection, computed with double precision floats. -/
set_option linter.unusedSectionVars false
namespace Pelote
variable {V K A : Type} [DecidableEq V]

theorem Graph.Step.mem {g : Graph V A} (hwf : g.WF) {reverse : Bool} {u v : V} (h : g.Step reverse u v) : v ∈ g.nodes := by
  unfold Graph.Step at h
  cases reverse
  · exact (Graph.hasEdge_mem hwf (by simpa using h)).2
  · exact (Graph.hasEdge_mem hwf (by simpa using h)).1

theorem walk_mem {g : Graph V A} (hwf : g.WF) {reverse : Bool} {u v : V} {d : Nat} (h : Walk (g.Step reverse) u v d)
    (hd : 1 ≤ d) : v ∈ g.nodes := by
  induction h with
  | nil => omega
  | snoc _ hs _ => exact hs.mem hwf

theorem IsDist.unique {step : V → V → Prop} {u v : V} {d d' : Nat} (h : IsDist step u v d) (h' : IsDist step u v d') : d = d' := by
  rcases Nat.lt_trichotomy d d' with hl | he | hl
  · exact absurd h.1 (h'.2 d hl)
  · exact he
  · exact absurd h'.1 (h.2 d' hl)

/-- A neighborhood has at most two members for each node of the graph. -/
theorem neighborhood_card {g : Graph V A} (hwf : g.WF) {n : V} {lo li : Int} {T : Finset (Tag V)}
    (h : Neighborhood g n lo li T) : T.card ≤ 2 * g.order := by
  have hinj : Set.InjOn (fun k : Tag V => (k.1, k.2.2)) T := by
    rintro ⟨o, d, x⟩ hk ⟨o', d', x'⟩ hk' he
    simp only [Prod.mk.injEq] at he
    obtain ⟨rfl, rfl⟩ := he
    have h1 := ((h o d x).1 hk).2.2
    have h2 := ((h o d' x).1 hk').2.2
    rw [h1.unique h2]
  have hsub : T.image (fun k : Tag V => (k.1, k.2.2)) ⊆ Finset.univ ×ˢ g.nodes.toFinset := by
    intro p hp
    obtain ⟨⟨o, d, x⟩, hk, rfl⟩ := Finset.mem_image.1 hp
    obtain ⟨h1, _, h3⟩ := (h o d x).1 hk
    simpa using walk_mem hwf h3.1 h1
  rw [← Finset.card_image_of_injOn hinj]
  refine (Finset.card_le_card hsub).trans ?_
  rw [Finset.card_product, Finset.card_univ, Fintype.card_bool]
  refine Nat.mul_le_mul_left 2 ((List.toFinset_card_le _).trans ?_)
  simp [Graph.nodes, Graph.order, Dict.keys]

/-- Two quotients of naturals whose denominators are less than `2 ^ 26` are rounded in the same strict order. -/
theorem quotient64_lt {i d j e : ℕ} (hi : 0 < i) (hid : i ≤ d) (hd : d < 2 ^ 26) (hj : 0 < j) (hje : j ≤ e) (he : e < 2 ^ 26) :
    round64 ((i : ℝ) / d) < round64 ((j : ℝ) / e) ↔ (i : ℝ) / d < (j : ℝ) / e := by
  have hd0 : (0 : ℝ) < d := by exact_mod_cast hi.trans_le hid
  have he0 : (0 : ℝ) < e := by exact_mod_cast hj.trans_le hje
  constructor
  · intro h
    by_contra hc
    exact absurd (round64_mono (by positivity) (not_lt.1 hc)) (not_le.2 h)
  · intro h
    have hlow : ∀ {a b : ℕ}, 0 < a → a ≤ b → b < 2 ^ 26 → (2 : ℝ) ^ (-1022 : ℤ) ≤ (a : ℝ) / b := by
      intro a b ha hab hb
      have hb0 : (0 : ℝ) < b := by exact_mod_cast ha.trans_le hab
      have h1 : (2 : ℝ) ^ (-1022 : ℤ) ≤ 2 ^ (-26 : ℤ) := zpow_le_zpow_right₀ (by norm_num) (by norm_num)
      refine h1.trans ?_
      rw [le_div_iff₀ hb0]
      have h2 : (b : ℝ) ≤ 2 ^ 26 := by exact_mod_cast hb.le
      have h3 : (1 : ℝ) ≤ a := by exact_mod_cast ha
      have h4 : (2 : ℝ) ^ (-26 : ℤ) = (2 ^ 26)⁻¹ := by norm_num
      rw [h4, inv_mul_le_iff₀ (by positivity)]
      linarith
    have e1 := abs_le.1 (round64_rel (hlow hi hid hd))
    have e2 := abs_le.1 (round64_rel (hlow hj hje he))
    have u1 : (i : ℝ) / d < 1 := lt_of_lt_of_le h ((div_le_one he0).2 (by exact_mod_cast hje))
    have u2 : (j : ℝ) / e ≤ 1 := (div_le_one he0).2 (by exact_mod_cast hje)
    have hgap : 1 / ((d : ℝ) * e) ≤ (j : ℝ) / e - (i : ℝ) / d := by
      rw [div_sub_div _ _ he0.ne' hd0.ne', mul_comm (d : ℝ) e]
      refine div_le_div_of_nonneg_right ?_ (by positivity)
      rw [div_lt_div_iff₀ hd0 he0] at h
      have h' : i * e < j * d := by exact_mod_cast h
      have : (i * e + 1 : ℕ) ≤ j * d := h'
      have : ((i * e + 1 : ℕ) : ℝ) ≤ ((j * d : ℕ) : ℝ) := by exact_mod_cast this
      push_cast at this
      linarith
    have hden : (d : ℝ) * e ≤ 2 ^ 52 := by
      have h1 : (d : ℝ) ≤ 2 ^ 26 := by exact_mod_cast hd.le
      have h2 : (e : ℝ) ≤ 2 ^ 26 := by exact_mod_cast he.le
      calc (d : ℝ) * e ≤ 2 ^ 26 * 2 ^ 26 := mul_le_mul h1 h2 he0.le (by positivity)
        _ = 2 ^ 52 := by norm_num
    have hinv : 1 / (2 : ℝ) ^ 52 ≤ 1 / ((d : ℝ) * e) := one_div_le_one_div_of_le (by positivity) hden
    have h1 : (i : ℝ) / d / 2 ^ 53 < 1 / 2 ^ 53 := div_lt_div_of_pos_right u1 (by positivity)
    have h2 : (j : ℝ) / e / 2 ^ 53 ≤ 1 / 2 ^ 53 := div_le_div_of_nonneg_right u2 (by positivity)
    have h3 : 1 / (2 : ℝ) ^ 53 + 1 / 2 ^ 53 = 1 / 2 ^ 52 := by norm_num
    linarith [e1.2, e2.1]

/-- The neighborhoods of two nodes, the links between the two nodes left aside, are the same. -/
def SameSurroundings (T : V → Finset (Tag V)) (u v : V) : Prop := unlinked v (T u) = unlinked u (T v)

/-- C97.  The weights of the projection computed with doubles.  It raises nothing and has the nodes and edges of the exact one;
each weight is the double nearest to the exact Jaccard index.  If the graph has fewer than `2 ^ 51` nodes, it is in (0, 1], with
a relative error of at most `2 ^ -53`, and it is 1 exactly when the two neighborhoods are the same. -/
theorem selfSimilarity_float [AttrVal (Val ℝ)] {g : Graph V (Val ℝ)} (hwf : g.WF) (hdir : g.directed = true)
    (hkw : ∀ n a, g.node.get? n = some a → Graph.NodeKwSafe a) (depth : Int) :
    ∃ m : Graph V (Val ℝ), ∃ T : V → Finset (Tag V), selfSimilarityProjectionR round64 g depth = .ok m ∧ m.WF ∧
      m.directed = false ∧ m.multi = false ∧ m.attrs = [] ∧ m.node = g.node ∧
      (∀ n ∈ g.nodes, Neighborhood g n (radii g g.nodes depth n).1 (radii g g.nodes depth n).2 (T n)) ∧
      (∀ u v a, m.edge? u v (.int 0) = some a ↔ u ≠ v ∧ u ∈ g.nodes ∧ v ∈ g.nodes ∧ (T u ∩ T v).Nonempty ∧
        a = [(.str "weight", .num (round64 (tagSimilarity T u v)))]) ∧
      (g.order < 2 ^ 51 → ∀ u ∈ g.nodes, ∀ v ∈ g.nodes, (T u ∩ T v).Nonempty →
        0 < round64 (tagSimilarity T u v : ℝ) ∧ round64 (tagSimilarity T u v : ℝ) ≤ 1 ∧
        |round64 (tagSimilarity T u v : ℝ) - tagSimilarity T u v| ≤ tagSimilarity T u v / 2 ^ 53 ∧
        (round64 (tagSimilarity T u v : ℝ) = 1 ↔ SameSurroundings T u v)) ∧
      (g.order < 2 ^ 24 → ∀ u ∈ g.nodes, ∀ v ∈ g.nodes, (T u ∩ T v).Nonempty →
        ∀ u' ∈ g.nodes, ∀ v' ∈ g.nodes, (T u' ∩ T v').Nonempty →
        (round64 (tagSimilarity T u v : ℝ) < round64 (tagSimilarity T u' v' : ℝ) ↔
          (tagSimilarity T u v : ℝ) < tagSimilarity T u' v')) := by
  obtain ⟨m, T, h1, h2, h3, h4, h5, h6, h7, h8⟩ := selfSimilarityR_radii round64 hwf hdir hkw depth
  have hcard : ∀ u ∈ g.nodes, ∀ v ∈ g.nodes, (unlinked v (T u) ∪ unlinked u (T v)).card ≤ 4 * g.order := by
    intro u hu v hv
    have a1 := neighborhood_card hwf (h7 u hu)
    have a2 := neighborhood_card hwf (h7 v hv)
    have b1 : (unlinked v (T u)).card ≤ (T u).card := Finset.card_filter_le _ _
    have b2 : (unlinked u (T v)).card ≤ (T v).card := Finset.card_filter_le _ _
    have := Finset.card_union_le (unlinked v (T u)) (unlinked u (T v))
    omega
  refine ⟨m, T, h1, h2, h3, h4, h5, h6, h7, h8, ?_, ?_⟩
  · intro ho u hu v hv hne
    obtain ⟨p1, p2⟩ := union_pos (h7 u hu) (h7 v hv) hne
    have p3 := hcard u hu v hv
    obtain ⟨q1, q2, q3⟩ := quotient64 p2 p1 (by omega)
    refine ⟨q1, q2, round64_rel ?_, q3.trans ?_⟩
    · unfold tagSimilarity
      have hb0 : (0 : ℝ) < ((unlinked v (T u) ∪ unlinked u (T v)).card : ℝ) := by exact_mod_cast p2.trans_le p1
      have z1 : (2 : ℝ) ^ (-1022 : ℤ) ≤ 2 ^ (-53 : ℤ) := zpow_le_zpow_right₀ (by norm_num) (by norm_num)
      refine z1.trans ?_
      rw [le_div_iff₀ hb0]
      have z2 : ((unlinked v (T u) ∪ unlinked u (T v)).card : ℝ) ≤ 2 ^ 53 := by
        exact_mod_cast (by omega : (unlinked v (T u) ∪ unlinked u (T v)).card ≤ 2 ^ 53)
      have z3 : (1 : ℝ) ≤ ((T u ∩ T v).card : ℝ) := by exact_mod_cast p2
      have z4 : (2 : ℝ) ^ (-53 : ℤ) = (2 ^ 53)⁻¹ := by norm_num
      rw [z4, inv_mul_le_iff₀ (by positivity)]
      linarith
    · rw [← unlinked_inter (h7 u hu) (h7 v hv)]
      unfold SameSurroundings
      constructor
      · intro he
        have hs := Finset.eq_of_subset_of_card_le (Finset.inter_subset_left.trans Finset.subset_union_left) he.ge
        refine Finset.Subset.antisymm ?_ ?_
        · intro x hx
          exact (Finset.mem_inter.1 (hs ▸ Finset.mem_union_left _ hx)).2
        · intro x hx
          exact (Finset.mem_inter.1 (hs ▸ Finset.mem_union_right _ hx)).1
      · intro he
        rw [he, Finset.inter_self, Finset.union_self]
  · intro ho u hu v hv hne u' hu' v' hv' hne'
    obtain ⟨p1, p2⟩ := union_pos (h7 u hu) (h7 v hv) hne
    obtain ⟨p1', p2'⟩ := union_pos (h7 u' hu') (h7 v' hv') hne'
    have p3 := hcard u hu v hv
    have p3' := hcard u' hu' v' hv'
    exact quotient64_lt p2 p1 (by omega) p2' p1' (by omega)

/-- Non-triviality: the two chains of `chains` which meet, over the reals. -/
def chainsReal : Graph Nat (Val ℝ) :=
  ⟨true, false, [], [(3, []), (4, []), (5, []), (6, []), (7, [])],
    [⟨3, 4, [(.int 0, [])]⟩, ⟨4, 7, [(.int 0, [])]⟩, ⟨5, 6, [(.int 0, [])]⟩, ⟨6, 7, [(.int 0, [])]⟩]⟩

theorem chainsReal_ok : chainsReal.WF ∧ chainsReal.directed = true ∧ chainsReal.order < 2 ^ 24 ∧
    ∀ n a, chainsReal.node.get? n = some a → Graph.NodeKwSafe a := by
  refine ⟨?_, rfl, by simp [chainsReal, Graph.order], ?_⟩
  · constructor <;> simp [chainsReal, Graph.nodes, Dict.keys, samePair]
  · intro n a h
    have := Dict.mem_of_get? h
    simp only [chainsReal, List.mem_cons, Prod.mk.injEq, List.not_mem_nil, or_false] at this
    have : a = [] := by tauto
    subst this
    intro k hk; cases hk

section
attribute [local instance] binary64
variable (A B C D : Finset V) (a b c d : V → ℝ)

/-- C97.  Jaccard, dice and overlap similarities computed with doubles rank the pairs of nodes exactly as the exact ones do, as
long as no node has `2 ^ 25` neighbors. -/
theorem similarity64_ranking (h : (A ∩ B).Nonempty) (h' : (C ∩ D).Nonempty) (hA : A.card < 2 ^ 25) (hB : B.card < 2 ^ 25)
    (hC : C.card < 2 ^ 25) (hD : D.card < 2 ^ 25) :
    (similarity .jaccard A B a b < similarity .jaccard C D c d ↔
      ((A ∩ B).card : ℝ) / (A ∪ B).card < ((C ∩ D).card : ℝ) / (C ∪ D).card) ∧
    (similarity .dice A B a b < similarity .dice C D c d ↔
      2 * ((A ∩ B).card : ℝ) / (A.card + B.card : ℕ) < 2 * ((C ∩ D).card : ℝ) / (C.card + D.card : ℕ)) ∧
    (similarity .overlap A B a b < similarity .overlap C D c d ↔
      ((A ∩ B).card : ℝ) / (min A.card B.card : ℕ) < ((C ∩ D).card : ℝ) / (min C.card D.card : ℕ)) := by
  have hI := Finset.card_pos.2 h
  have hJ := Finset.card_pos.2 h'
  have hIA : (A ∩ B).card ≤ A.card := Finset.card_le_card Finset.inter_subset_left
  have hIB : (A ∩ B).card ≤ B.card := Finset.card_le_card Finset.inter_subset_right
  have hJC : (C ∩ D).card ≤ C.card := Finset.card_le_card Finset.inter_subset_left
  have hJD : (C ∩ D).card ≤ D.card := Finset.card_le_card Finset.inter_subset_right
  have hU := Finset.card_union_add_card_inter A B
  have hU' := Finset.card_union_add_card_inter C D
  refine ⟨?_, ?_, ?_⟩
  · simp only [similarity, rnd64]
    exact quotient64_lt hI (by omega) (by omega) hJ (by omega) (by omega)
  · have e1 : 2 * ((A ∩ B).card : ℝ) = ((2 * (A ∩ B).card : ℕ) : ℝ) := by push_cast; rfl
    have e2 : 2 * ((C ∩ D).card : ℝ) = ((2 * (C ∩ D).card : ℕ) : ℝ) := by push_cast; rfl
    simp only [similarity, rnd64, e1, e2]
    exact quotient64_lt (by omega) (by omega) (by omega) (by omega) (by omega) (by omega)
  · simp only [similarity, rnd64]
    exact quotient64_lt hI (le_min hIA hIB) (by omega) hJ (le_min hJC hJD) (by omega)

/-- Non-triviality of `similarity64_ranking`. -/
example : (({1, 2, 3} : Finset Nat) ∩ {2, 3, 4}).Nonempty ∧ (({1, 2} : Finset Nat) ∩ {2}).Nonempty := by decide

end

end Pelote
