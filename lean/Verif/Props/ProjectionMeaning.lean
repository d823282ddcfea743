import Verif.Props.ProjectionWitness
import Verif.Lemmas.Reorder
import Mathlib.Tactic.Positivity

/-! C100: what the weights of a projection mean together: Jaccard distances satisfy the triangle inequality, counts add up, and
cosines do not depend on the scale of the weights of each node. -/
set_option linter.unusedSectionVars false
namespace Pelote

section
variable {V : Type} [DecidableEq V] (A B C : Finset V) (a b : V → ℝ)

/-- Sizes of three sets in terms of the regions of their diagram. -/
theorem venn : ∃ na nb nc nab nbc nac nabc : ℕ,
    (A ∩ B).card = nab + nabc ∧ (B ∩ C).card = nbc + nabc ∧ (A ∩ C).card = nac + nabc ∧
    (A ∪ B).card = na + nb + nab + nbc + nac + nabc ∧ (B ∪ C).card = nb + nc + nab + nbc + nac + nabc ∧
    (A ∪ C).card = na + nc + nab + nbc + nac + nabc := by
  let U := A ∪ B ∪ C
  let n := fun (x y z : Bool) => (U.filter (fun t => decide (t ∈ A) = x ∧ decide (t ∈ B) = y ∧ decide (t ∈ C) = z)).card
  have key : ∀ P : Bool → Bool → Bool → Bool, P false false false = false →
      (U.filter (fun t => P (decide (t ∈ A)) (decide (t ∈ B)) (decide (t ∈ C)) = true)).card =
        ∑ x : Bool, ∑ y : Bool, ∑ z : Bool, if P x y z = true then n x y z else 0 := by
    intro P _
    have h1 : ∀ x y z, (if P x y z = true then n x y z else 0) =
        ((U.filter (fun t => P (decide (t ∈ A)) (decide (t ∈ B)) (decide (t ∈ C)) = true)).filter
          (fun t => (decide (t ∈ A), decide (t ∈ B), decide (t ∈ C)) = (x, y, z))).card := by
      intro x y z
      rw [Finset.filter_filter]
      split_ifs with h
      · refine congrArg Finset.card (Finset.filter_congr fun t _ => ?_)
        simp only [Prod.mk.injEq]
        constructor
        · rintro ⟨e1, e2, e3⟩; exact ⟨by rw [e1, e2, e3]; exact h, e1, e2, e3⟩
        · exact fun h => h.2
      · symm
        rw [Finset.card_eq_zero, Finset.filter_eq_empty_iff]
        rintro t _ ⟨e1, e2⟩
        simp only [Prod.mk.injEq] at e2
        rw [e2.1, e2.2.1, e2.2.2] at e1
        exact h e1
    simp only [h1]
    rw [Finset.card_eq_sum_card_fiberwise (f := fun t => (decide (t ∈ A), decide (t ∈ B), decide (t ∈ C)))
      (t := (Finset.univ : Finset (Bool × Bool × Bool))) (fun _ _ => Finset.mem_coe.2 (Finset.mem_univ _))]
    rw [← Finset.univ_product_univ, Finset.sum_product]
    refine Finset.sum_congr rfl fun x _ => ?_
    rw [← Finset.univ_product_univ, Finset.sum_product]
  have hset : ∀ (S : Finset V) (P : Bool → Bool → Bool → Bool), P false false false = false →
      (∀ t, t ∈ S ↔ P (decide (t ∈ A)) (decide (t ∈ B)) (decide (t ∈ C)) = true) →
      S.card = ∑ x : Bool, ∑ y : Bool, ∑ z : Bool, if P x y z = true then n x y z else 0 := by
    intro S P h0 hS
    rw [← key P h0]
    refine congrArg Finset.card (Finset.ext fun t => ?_)
    rw [Finset.mem_filter, ← hS]
    refine ⟨fun h => ⟨?_, h⟩, fun h => h.2⟩
    by_contra hc
    simp only [U, Finset.mem_union, not_or] at hc
    have := (hS t).1 h
    simp [hc, h0] at this
  refine ⟨n true false false, n false true false, n false false true, n true true false, n false true true, n true false true,
    n true true true, ?_, ?_, ?_, ?_, ?_, ?_⟩
  · rw [hset _ (fun x y _ => x && y) rfl (by simp)]; simp; ring
  · rw [hset _ (fun _ y z => y && z) rfl (by simp)]; simp; ring
  · rw [hset _ (fun x _ z => x && z) rfl (by simp)]; simp; ring
  · rw [hset _ (fun x y _ => x || y) rfl (by simp)]; simp; ring
  · rw [hset _ (fun _ y z => y || z) rfl (by simp)]; simp; ring
  · rw [hset _ (fun x _ z => x || z) rfl (by simp)]; simp; ring

theorem jaccard_poly {K : Type} [Field K] [LinearOrder K] [IsStrictOrderedRing K] {a b c p q r x : K} (ha : 0 ≤ a) (hb : 0 ≤ b) (hc : 0 ≤ c) (hp : 0 ≤ p) (hq : 0 ≤ q) (hr : 0 ≤ r)
    (hx : 0 ≤ x) :
    (p + x) / (a + b + p + q + r + x) + (q + x) / (b + c + p + q + r + x) ≤ 1 + (r + x) / (a + c + p + q + r + x) := by
  rcases (by positivity : 0 ≤ a + b + p + q + r + x).eq_or_lt with h1 | h1
  · rw [← h1, div_zero, zero_add]
    have : (q + x) / (b + c + p + q + r + x) ≤ 1 := div_le_one_of_le₀ (by linarith) (by positivity)
    have h2 : 0 ≤ (r + x) / (a + c + p + q + r + x) := by positivity
    linarith
  rcases (by positivity : 0 ≤ b + c + p + q + r + x).eq_or_lt with h2 | h2
  · rw [← h2, div_zero, add_zero]
    have : (p + x) / (a + b + p + q + r + x) ≤ 1 := div_le_one_of_le₀ (by linarith) (by positivity)
    have h2 : 0 ≤ (r + x) / (a + c + p + q + r + x) := by positivity
    linarith
  rcases (by positivity : 0 ≤ a + c + p + q + r + x).eq_or_lt with h3 | h3
  · have : p + x = 0 := by linarith
    have h4 : q + x = 0 := by linarith
    have h5 : 0 ≤ (r + x) / (a + c + p + q + r + x) := by positivity
    rw [this, h4, zero_div, zero_div]
    linarith
  rw [div_add_div _ _ h1.ne' h2.ne', one_add_div h3.ne', div_le_div_iff₀ (mul_pos h1 h2) h3, ← sub_nonneg]
  ring_nf
  positivity

/-- The Jaccard distance satisfies the triangle inequality. -/
theorem jaccard_triangle {K : Type} [Field K] [LinearOrder K] [IsStrictOrderedRing K] :
    1 - ((A ∩ C).card : K) / ((A ∪ C).card : K) ≤
      (1 - ((A ∩ B).card : K) / ((A ∪ B).card : K)) + (1 - ((B ∩ C).card : K) / ((B ∪ C).card : K)) := by
  obtain ⟨na, nb, nc, nab, nbc, nac, nabc, h1, h2, h3, h4, h5, h6⟩ := venn A B C
  have := jaccard_poly (Nat.cast_nonneg (α := K) na) (Nat.cast_nonneg nb) (Nat.cast_nonneg nc) (Nat.cast_nonneg nab)
    (Nat.cast_nonneg nbc) (Nat.cast_nonneg nac) (Nat.cast_nonneg nabc)
  rw [h1, h2, h3, h4, h5, h6]
  push_cast
  linarith

/-- Cosine similarity does not depend on the scale of the weights on each side. -/
theorem cosine_scale {c d : ℝ} (hc : 0 < c) (hd : 0 < d) :
    similarity .cosine A B (fun t => c * a t) (fun t => d * b t) = similarity .cosine A B a b := by
  simp only [similarity, rnd_real]
  have e1 : ∑ t ∈ A, c * a t * (c * a t) = c ^ 2 * ∑ t ∈ A, a t * a t := by
    rw [Finset.mul_sum]; exact Finset.sum_congr rfl fun t _ => by ring
  have e2 : ∑ t ∈ B, d * b t * (d * b t) = d ^ 2 * ∑ t ∈ B, b t * b t := by
    rw [Finset.mul_sum]; exact Finset.sum_congr rfl fun t _ => by ring
  have e3 : ∑ t ∈ A ∩ B, c * a t * (d * b t) = (c * d) * ∑ t ∈ A ∩ B, a t * b t := by
    rw [Finset.mul_sum]; exact Finset.sum_congr rfl fun t _ => by ring
  have e4 : ∀ (c x : ℝ), 0 < c → PyMath.sqrt (c ^ 2 * x) = c * PyMath.sqrt x := by
    intro c x hc
    change Real.sqrt (c ^ 2 * x) = c * Real.sqrt x
    rw [Real.sqrt_mul (sq_nonneg c), Real.sqrt_sq hc.le]
  rw [e1, e2, e3, e4 c _ hc, e4 d _ hd]
  rw [show c * PyMath.sqrt (∑ t ∈ A, a t * a t) * (d * PyMath.sqrt (∑ t ∈ B, b t * b t)) =
    (c * d) * (PyMath.sqrt (∑ t ∈ A, a t * a t) * PyMath.sqrt (∑ t ∈ B, b t * b t)) by ring]
  exact mul_div_mul_left _ _ (mul_pos hc hd).ne'

/-- Cosine similarity of positive weights is 1 exactly when the neighborhoods are the same and the weights proportional. -/
theorem cosine_eq_one (h : (A ∩ B).Nonempty) (ha : ∀ t ∈ A, 0 < a t) (hb : ∀ t ∈ B, 0 < b t) :
    similarity .cosine A B a b = 1 ↔ A = B ∧ ∃ c : ℝ, ∀ t ∈ A, a t = c * b t := by
  have hA : A.Nonempty := h.mono Finset.inter_subset_left
  have hB : B.Nonempty := h.mono Finset.inter_subset_right
  have pA : 0 < ∑ t ∈ A, a t * a t := Finset.sum_pos (fun t ht => mul_pos (ha t ht) (ha t ht)) hA
  have pB : 0 < ∑ t ∈ B, b t * b t := Finset.sum_pos (fun t ht => mul_pos (hb t ht) (hb t ht)) hB
  have e : PyMath.sqrt (∑ t ∈ A, a t * a t) * PyMath.sqrt (∑ t ∈ B, b t * b t) =
      Real.sqrt ((∑ t ∈ A, a t * a t) * ∑ t ∈ B, b t * b t) :=
    (Real.sqrt_mul pA.le _).symm
  have pR := Real.sqrt_pos.2 (mul_pos pA pB)
  simp only [similarity, rnd_real]
  rw [e, div_eq_one_iff_eq pR.ne']
  constructor
  · intro he
    have hsq : (∑ t ∈ A ∩ B, a t * b t) ^ 2 = (∑ t ∈ A, a t * a t) * ∑ t ∈ B, b t * b t := by
      rw [he, Real.sq_sqrt (mul_pos pA pB).le]
    have pP : 0 < ∑ t ∈ A ∩ B, a t * b t := he ▸ pR
    -- the vectors, zero outside of the neighborhoods
    let a' : V → ℝ := fun t => if t ∈ A then a t else 0
    let b' : V → ℝ := fun t => if t ∈ B then b t else 0
    have s1 : ∑ t ∈ A ∪ B, a' t * a' t = ∑ t ∈ A, a t * a t := by
      rw [← Finset.sum_subset (Finset.subset_union_left (s₁ := A) (s₂ := B))
        (fun t _ ht => by simp [a', ht])]
      exact Finset.sum_congr rfl fun t ht => by simp [a', ht]
    have s2 : ∑ t ∈ A ∪ B, b' t * b' t = ∑ t ∈ B, b t * b t := by
      rw [← Finset.sum_subset (Finset.subset_union_right (s₁ := A) (s₂ := B))
        (fun t _ ht => by simp [b', ht])]
      exact Finset.sum_congr rfl fun t ht => by simp [b', ht]
    have s3 : ∑ t ∈ A ∪ B, a' t * b' t = ∑ t ∈ A ∩ B, a t * b t := by
      rw [← Finset.sum_subset (s₁ := A ∩ B) (fun t ht => Finset.mem_union_left _ (Finset.mem_inter.1 ht).1)
        (fun t _ ht => by
          simp only [Finset.mem_inter, not_and_or] at ht
          rcases ht with ht | ht <;> simp [a', b', ht])]
      exact Finset.sum_congr rfl fun t ht => by simp [a', b', (Finset.mem_inter.1 ht).1, (Finset.mem_inter.1 ht).2]
    set P := ∑ t ∈ A ∩ B, a t * b t
    set SA := ∑ t ∈ A, a t * a t
    set SB := ∑ t ∈ B, b t * b t
    have hz : ∑ t ∈ A ∪ B, (SB * a' t - P * b' t) ^ 2 = 0 := by
      have : ∑ t ∈ A ∪ B, (SB * a' t - P * b' t) ^ 2 =
          SB ^ 2 * ∑ t ∈ A ∪ B, a' t * a' t - 2 * SB * P * ∑ t ∈ A ∪ B, a' t * b' t + P ^ 2 * ∑ t ∈ A ∪ B, b' t * b' t := by
        simp only [Finset.mul_sum]
        rw [← Finset.sum_sub_distrib, ← Finset.sum_add_distrib]
        exact Finset.sum_congr rfl fun t _ => by ring
      rw [this, s1, s2, s3]
      linear_combination (-SB) * hsq
    have hall : ∀ t ∈ A ∪ B, SB * a' t = P * b' t := by
      intro t ht
      have := (Finset.sum_eq_zero_iff_of_nonneg (fun t _ => sq_nonneg (SB * a' t - P * b' t))).1 hz t ht
      have := pow_eq_zero_iff (two_ne_zero) |>.1 this
      linarith
    have hAB : A = B := by
      ext t
      constructor
      · intro ht
        by_contra hc
        have := hall t (Finset.mem_union_left _ ht)
        simp only [a', b', ht, hc, if_true, if_false, mul_zero] at this
        exact (mul_pos pB (ha t ht)).ne' this
      · intro ht
        by_contra hc
        have := hall t (Finset.mem_union_right _ ht)
        simp only [a', b', ht, hc, if_true, if_false, mul_zero] at this
        exact (mul_pos pP (hb t ht)).ne this
    refine ⟨hAB, P / SB, fun t ht => ?_⟩
    have := hall t (Finset.mem_union_left _ ht)
    simp only [a', b', ht, hAB ▸ ht, if_true] at this
    rw [div_mul_eq_mul_div, eq_div_iff pB.ne']
    linarith
  · rintro ⟨rfl, c, hc⟩
    obtain ⟨t0, ht0⟩ := hA
    have pc : 0 < c := by
      have := ha t0 ht0
      rw [hc t0 ht0] at this
      exact (pos_iff_pos_of_mul_pos this).2 (hb t0 ht0)
    have e1 : ∑ t ∈ A, a t * a t = c ^ 2 * ∑ t ∈ A, b t * b t := by
      rw [Finset.mul_sum]; exact Finset.sum_congr rfl fun t ht => by rw [hc t ht]; ring
    have e2 : ∑ t ∈ A, a t * b t = c * ∑ t ∈ A, b t * b t := by
      rw [Finset.mul_sum]; exact Finset.sum_congr rfl fun t ht => by rw [hc t ht]; ring
    rw [Finset.inter_self, e1, e2]
    rw [show c ^ 2 * (∑ t ∈ A, b t * b t) * ∑ t ∈ A, b t * b t = (c * ∑ t ∈ A, b t * b t) ^ 2 by ring,
      Real.sqrt_sq (mul_pos pc pB).le]

end

/-- The weight of the link between two nodes, 0 if there is none. -/
def Graph.linkWeight {V K : Type} [DecidableEq V] [Zero K] (m : Graph V (Val K)) (u v : V) : K :=
  match (m.edge? u v (.int 0)).bind (fun a => a.get? (.str "weight")) with
  | some (.num x) => x
  | _ => 0

theorem linkWeight_none {V K : Type} [DecidableEq V] [Zero K] {m : Graph V (Val K)} {u v : V} (h : m.hasEdge u v = false) :
    m.linkWeight u v = 0 := by
  have : m.edge? u v (.int 0) = none := by
    cases he : m.edge? u v (.int 0) with
    | none => rfl
    | some a => rw [hasEdge_of_edge? he] at h; cases h
  unfold Graph.linkWeight
  rw [this]
  rfl

section
variable {V K : Type} [LinearOrder V] [PyOrd V] [Field K] [LinearOrder K] [IsStrictOrderedRing K] [PyMath K] [AttrVal (Val K)]
  {g : Graph V (Val K)} {part : Part V K} {partAttr weightAttr : String} {kind : Metric} {check : Bool} {w : V → V → K}

theorem reaches_none (x : K) : ReachesThreshold (none : Option (Val K)) x := by intro v t hv; cases hv

theorem projection_part (h : g.WF) (hf : ∀ ns r, part ≠ .frozen ns r) {metric : Option String} {threshold : Option (Val K)}
    {m : Graph V (Val K)} (hm : monopartiteProjection g part partAttr weightAttr metric check threshold = .ok m) (x : V) :
    x ∈ m.nodes ↔ InPart g partAttr part x := by
  have hn := (projection_nodes_partial _ _ _ _ _ _ _ h hf hm).2.2.2.1
  constructor
  · intro hx
    obtain ⟨a, ha⟩ := Dict.exists_get?_of_mem_keys hx
    exact ((hn x a).1 ha).1
  · intro hx
    obtain ⟨b, hb⟩ := Dict.exists_get?_of_mem_keys (inPart_mem hx)
    exact Dict.mem_keys_of_mem (Dict.mem_of_get? ((hn x _).2 ⟨hx, b, hb, rfl⟩))

/-- The weights of a projection without threshold. -/
theorem projection_linkWeight (hsqrt : ∀ x : K, 0 < x → 0 < PyMath.sqrt x) (hrnd : ∀ x : K, 0 < x → 0 < PyMath.rnd x)
    (h : Projectable g part partAttr weightAttr kind check w) {metric : Option String} (hk : (metric, kind) ∈ metricNames) :
    ∃ m, monopartiteProjection g part partAttr weightAttr metric check none = .ok m ∧ m.WF ∧
      (∀ u v, m.hasEdge u v = true ↔ u ≠ v ∧ InPart g partAttr part u ∧ InPart g partAttr part v ∧
        (g.nbhd u ∩ g.nbhd v).Nonempty) ∧
      ∀ u v, m.hasEdge u v = true → m.linkWeight u v = similarity kind (g.nbhd u) (g.nbhd v) (w u) (w v) := by
  obtain ⟨m, h1, h2, h3⟩ := projection_exact hsqrt hrnd h hk (threshold := none) (by simp)
  have hm : m.multi = false := (projection_nodes_partial _ _ _ _ _ _ _ h.wf h.notFrozen h1).2.1
  have hE : ∀ u v, m.hasEdge u v = true ↔ u ≠ v ∧ InPart g partAttr part u ∧ InPart g partAttr part v ∧
      (g.nbhd u ∩ g.nbhd v).Nonempty := by
    intro u v
    constructor
    · intro he
      obtain ⟨a, ha⟩ := edge_exists h2 hm he
      obtain ⟨c1, c2, c3, c4, -⟩ := (h3 u v a).1 ha
      exact ⟨c1, c2, c3, c4⟩
    · rintro ⟨c1, c2, c3, c4⟩
      exact hasEdge_of_edge? ((h3 u v _).2 ⟨c1, c2, c3, c4, reaches_none _, rfl⟩)
  refine ⟨m, h1, h2, hE, ?_⟩
  intro u v he
  obtain ⟨c1, c2, c3, c4⟩ := (hE u v).1 he
  unfold Graph.linkWeight
  rw [(h3 u v _).2 ⟨c1, c2, c3, c4, reaches_none _, rfl⟩]
  rfl

/-- C100.  When nothing is rounded, 1 minus the weights of the projection by Jaccard similarity (1 between nodes that are not
linked) satisfies the triangle inequality. -/
theorem projection_jaccard_distance (hsqrt : ∀ x : K, 0 < x → 0 < PyMath.sqrt x) (hrnd : ∀ x : K, PyMath.rnd x = x)
    (h : Projectable g part partAttr weightAttr .jaccard check w) :
    ∃ m, monopartiteProjection g part partAttr weightAttr (some "jaccard") check none = .ok m ∧
      ∀ x ∈ m.nodes, ∀ y ∈ m.nodes, ∀ z ∈ m.nodes, x ≠ y → y ≠ z → x ≠ z →
        1 - m.linkWeight x z ≤ (1 - m.linkWeight x y) + (1 - m.linkWeight y z) := by
  obtain ⟨m, h1, h2, h3, h4⟩ := projection_linkWeight hsqrt (fun x hx => by rwa [hrnd]) h (metric := some "jaccard")
    (by simp [metricNames])
  refine ⟨m, h1, ?_⟩
  have hin : ∀ x, x ∈ m.nodes ↔ InPart g partAttr part x := projection_part h.wf h.notFrozen h1
  have hval : ∀ x y, InPart g partAttr part x → InPart g partAttr part y → x ≠ y →
      m.linkWeight x y = ((g.nbhd x ∩ g.nbhd y).card : K) / ((g.nbhd x ∪ g.nbhd y).card : K) := by
    intro x y hx hy hne
    cases he : m.hasEdge x y with
    | true => rw [h4 x y he]; simp only [similarity, hrnd]
    | false =>
      rw [linkWeight_none he]
      have : g.nbhd x ∩ g.nbhd y = ∅ := by
        by_contra hc
        have := (h3 x y).2 ⟨hne, hx, hy, Finset.nonempty_iff_ne_empty.2 hc⟩
        rw [he] at this
        cases this
      rw [this, Finset.card_empty, Nat.cast_zero, zero_div]
  intro x hx y hy z hz n1 n2 n3
  rw [hin] at hx hy hz
  rw [hval x z hx hz n3, hval x y hx hy n1, hval y z hy hz n2]
  exact jaccard_triangle _ _ _

/-- The links of a node in a projection, counted by the neighbors they come from. -/
theorem sum_links {m : Graph V (Val K)} (h : Projectable g part partAttr weightAttr kind check w) (hm : m.WF)
    (hE : ∀ u v, m.hasEdge u v = true ↔ u ≠ v ∧ InPart g partAttr part u ∧ InPart g partAttr part v ∧
      (g.nbhd u ∩ g.nbhd v).Nonempty) (u : V) (hu : InPart g partAttr part u) (f : V → V → K) :
    ∑ v ∈ m.nbhd u, ∑ t ∈ g.nbhd u ∩ g.nbhd v, f v t = ∑ t ∈ g.nbhd u, ∑ v ∈ (g.nbhd t).erase u, f v t := by
  refine Finset.sum_comm' ?_
  intro v t
  rw [mem_nbhd hm, hE, Finset.mem_inter, Finset.mem_erase, mem_nbhd h.wf, mem_nbhd h.wf, mem_nbhd h.wf]
  have hsym : g.hasEdge v t = g.hasEdge t v := Graph.hasEdge_comm h.undirected v t
  constructor
  · rintro ⟨⟨h1, -, -, -⟩, h2, h3⟩
    exact ⟨⟨Ne.symm h1, hsym ▸ h3⟩, h2⟩
  · rintro ⟨⟨h1, h2⟩, h3⟩
    have hv : InPart g partAttr part v := by
      by_contra hc
      have := (h.bipartite t v h2).2 hc
      exact (h.bipartite u t h3).1 hu this
    refine ⟨⟨Ne.symm h1, hu, hv, ⟨t, Finset.mem_inter.2 ⟨(mem_nbhd h.wf).2 h3, (mem_nbhd h.wf).2 (hsym ▸ h2)⟩⟩⟩, h3, hsym ▸ h2⟩

/-- C100.  Without a metric the weights of the links of a node add up to the number of other nodes of the part next to its
neighbors: each neighbor of degree `d` counts for `d - 1`. -/
theorem projection_strength (hsqrt : ∀ x : K, 0 < x → 0 < PyMath.sqrt x) (hrnd : ∀ x : K, 0 < x → 0 < PyMath.rnd x)
    (h : Projectable g part partAttr weightAttr .intersection check w) :
    ∃ m, monopartiteProjection g part partAttr weightAttr none check none = .ok m ∧
      ∀ u ∈ m.nodes, ∑ v ∈ m.nbhd u, m.linkWeight u v = ∑ t ∈ g.nbhd u, (((g.nbhd t).card - 1 : ℕ) : K) := by
  obtain ⟨m, h1, h2, h3, h4⟩ := projection_linkWeight hsqrt hrnd h (metric := none) (by simp [metricNames])
  refine ⟨m, h1, fun u hu => ?_⟩
  have hu' := (projection_part h.wf h.notFrozen h1 u).1 hu
  have := sum_links h h2 h3 u hu' (fun _ _ => 1)
  simp only [Finset.sum_const, nsmul_eq_mul, mul_one] at this
  refine Eq.trans (Finset.sum_congr rfl fun v hv => ?_) (this.trans (Finset.sum_congr rfl fun t ht => ?_))
  · rw [h4 u v ((mem_nbhd h2).1 hv)]; rfl
  · rw [Finset.card_erase_of_mem]
    rw [mem_nbhd h.wf, Graph.hasEdge_comm h.undirected]
    exact (mem_nbhd h.wf).1 ht

/-- C100.  By dot product, the weights of the links of a node add up to the sum over its neighbors of the weight of the edge
leading there times the weights of the other edges there. -/
theorem projection_strength_dot (hsqrt : ∀ x : K, 0 < x → 0 < PyMath.sqrt x) (hrnd : ∀ x : K, 0 < x → 0 < PyMath.rnd x)
    (h : Projectable g part partAttr weightAttr .dotProduct check w) :
    ∃ m, monopartiteProjection g part partAttr weightAttr (some "dot_product") check none = .ok m ∧
      ∀ u ∈ m.nodes, ∑ v ∈ m.nbhd u, m.linkWeight u v = ∑ t ∈ g.nbhd u, w u t * ∑ v ∈ (g.nbhd t).erase u, w v t := by
  obtain ⟨m, h1, h2, h3, h4⟩ := projection_linkWeight hsqrt hrnd h (metric := some "dot_product") (by simp [metricNames])
  refine ⟨m, h1, fun u hu => ?_⟩
  have hu' := (projection_part h.wf h.notFrozen h1 u).1 hu
  have := sum_links h h2 h3 u hu' (fun v t => w u t * w v t)
  simp only [← Finset.mul_sum] at this
  refine Eq.trans (Finset.sum_congr rfl fun v hv => ?_) this
  rw [h4 u v ((mem_nbhd h2).1 hv)]; rfl

end

section
variable {V : Type} [LinearOrder V] [PyOrd V] [AttrVal (Val ℝ)] {g g' : Graph V (Val ℝ)} {part : Part V ℝ}
  {partAttr weightAttr : String} {check : Bool} {w w' : V → V → ℝ}

/-- C100.  Multiplying the weights of all the edges of each node of the part by a positive number, that may depend on the
node, changes nothing to the projection by cosine similarity. -/
theorem projection_cosine_scale (h : Projectable g part partAttr weightAttr .cosine check w)
    (h' : Projectable g' part partAttr weightAttr .cosine check w')
    (hin : ∀ n, InPart g' partAttr part n ↔ InPart g partAttr part n) (he : ∀ u v, g'.hasEdge u v = g.hasEdge u v)
    {c : V → ℝ} (hc : ∀ n, 0 < c n) (hw : ∀ u t, InPart g partAttr part u → g.hasEdge u t = true → w' u t = c u * w u t)
    {threshold : Option (Val ℝ)} (ht : ∀ v, threshold = some v → ∃ t, v.toNum = .ok t ∧ 0 < t) :
    ∃ m m', monopartiteProjection g part partAttr weightAttr (some "cosine") check threshold = .ok m ∧
      monopartiteProjection g' part partAttr weightAttr (some "cosine") check threshold = .ok m' ∧
      (∀ x, x ∈ m'.nodes ↔ x ∈ m.nodes) ∧ ∀ u v, m'.edge? u v (.int 0) = m.edge? u v (.int 0) := by
  obtain ⟨m, h1, h2, h3⟩ := projection_exact_real h (metric := some "cosine") (by simp [metricNames]) ht
  obtain ⟨m', h1', h2', h3'⟩ := projection_exact_real h' (metric := some "cosine") (by simp [metricNames]) ht
  refine ⟨m, m', h1, h1', fun x => ?_, fun u v => ?_⟩
  · rw [projection_part h.wf h.notFrozen h1, projection_part h'.wf h'.notFrozen h1', hin]
  · have hn : ∀ n, g'.nbhd n = g.nbhd n := by
      intro n
      ext t
      rw [mem_nbhd h.wf, mem_nbhd h'.wf, he]
    ext a
    rw [h3, h3']
    simp only [hin, hn]
    refine and_congr_right fun _ => and_congr_right fun hu => and_congr_right fun hv => and_congr_right fun hne => ?_
    have hs : similarity .cosine (g.nbhd u) (g.nbhd v) (w' u) (w' v) =
        similarity .cosine (g.nbhd u) (g.nbhd v) (w u) (w v) := by
      rw [← cosine_scale (g.nbhd u) (g.nbhd v) (w u) (w v) (hc u) (hc v)]
      simp only [similarity]
      have e1 : ∀ t ∈ g.nbhd u, w' u t = c u * w u t := fun t ht => hw u t hu ((mem_nbhd h.wf).1 ht)
      have e2 : ∀ t ∈ g.nbhd v, w' v t = c v * w v t := fun t ht => hw v t hv ((mem_nbhd h.wf).1 ht)
      congr 2
      · exact Finset.sum_congr rfl fun t ht => by rw [e1 t (Finset.mem_inter.1 ht).1, e2 t (Finset.mem_inter.1 ht).2]
      · congr 3
        · exact Finset.sum_congr rfl fun t ht => by rw [e1 t ht]
        · exact Finset.sum_congr rfl fun t ht => by rw [e2 t ht]
    rw [hs]

/-- C100.  With positive weights, a link of the projection by cosine similarity has weight 1 exactly when its ends have the same
neighbors, with proportional weights. -/
theorem projection_cosine_one (h : Projectable g part partAttr weightAttr .cosine check w)
    (hw : ∀ u v, g.hasEdge u v = true → 0 < w u v) :
    ∃ m, monopartiteProjection g part partAttr weightAttr (some "cosine") check none = .ok m ∧
      ∀ u v, m.hasEdge u v = true →
        (m.linkWeight u v = 1 ↔ g.nbhd u = g.nbhd v ∧ ∃ c : ℝ, ∀ t ∈ g.nbhd u, w u t = c * w v t) := by
  obtain ⟨m, h1, h2, h3, h4⟩ := projection_linkWeight sqrt_pos_real (fun _ h => h) h (metric := some "cosine")
    (by simp [metricNames])
  refine ⟨m, h1, fun u v he => ?_⟩
  rw [h4 u v he]
  exact cosine_eq_one _ _ _ _ ((h3 u v).1 he).2.2.2 (fun t ht => hw u t ((mem_nbhd h.wf).1 ht))
    (fun t ht => hw v t ((mem_nbhd h.wf).1 ht))

end

/-- Stand-ins, exact on 0 and 1; nothing is rounded. -/
local instance ratMathMeaning : PyMath ℚ := ⟨id, id, id⟩

/-- Accounts 1, 2, 3 and pages 10, 11: account 2 shares both pages, account 1 the first one and account 3 the second one. -/
def chainSample : Graph Int (Val ℚ) :=
  ⟨false, false, [], [(1, []), (2, []), (3, []), (10, []), (11, [])],
    [⟨1, 10, [(.int 0, [])]⟩, ⟨2, 10, [(.int 0, [])]⟩, ⟨2, 11, [(.int 0, [])]⟩, ⟨3, 11, [(.int 0, [])]⟩]⟩

/-- By dice and overlap, 1 minus the weights do not satisfy the triangle inequality: accounts 1 and 3 are not linked. -/
theorem projection_dice_not_distance : chainSample.WF ∧
    (monopartiteProjection chainSample (.collection [1, 2, 3]) "part" "weight" (some "dice") true none).map
      (fun m => (m.linkWeight 1 2, m.linkWeight 2 3, m.linkWeight 1 3)) = .ok (2 / 3, 2 / 3, 0) ∧
    (monopartiteProjection chainSample (.collection [1, 2, 3]) "part" "weight" (some "overlap") true none).map
      (fun m => (m.linkWeight 1 2, m.linkWeight 2 3, m.linkWeight 1 3)) = .ok (1, 1, 0) ∧
    (monopartiteProjection chainSample (.collection [1, 2, 3]) "part" "weight" (some "jaccard") true none).map
      (fun m => (m.linkWeight 1 2, m.linkWeight 2 3, m.linkWeight 1 3)) = .ok (1 / 2, 1 / 2, 0) ∧
    ¬ (1 - (0 : ℚ) ≤ (1 - 2 / 3) + (1 - 2 / 3)) ∧ ¬ (1 - (0 : ℚ) ≤ (1 - 1) + (1 - 1)) := by
  refine ⟨by constructor <;> decide +kernel, by decide +kernel, by decide +kernel, by decide +kernel, by norm_num, by norm_num⟩

/-- Non-triviality: the hypotheses hold of `accounts`, where the strength of account 1 is 1 and 6 by dot product. -/
example : (∃ m, monopartiteProjection accounts (.value (.str "account")) "part" "weight" none true none = .ok m ∧
    ∀ u ∈ m.nodes, ∑ v ∈ m.nbhd u, m.linkWeight u v = ∑ t ∈ accounts.nbhd u, (((accounts.nbhd t).card - 1 : ℕ) : ℚ)) ∧
    (∃ m, monopartiteProjection accounts (.value (.str "account")) "part" "weight" (some "jaccard") true none = .ok m ∧
      ∀ x ∈ m.nodes, ∀ y ∈ m.nodes, ∀ z ∈ m.nodes, x ≠ y → y ≠ z → x ≠ z →
        1 - m.linkWeight x z ≤ (1 - m.linkWeight x y) + (1 - m.linkWeight y z)) :=
  ⟨projection_strength (fun _ h => h) (fun _ h => h) (accounts_projectable _ (.inl rfl) _ _),
    projection_jaccard_distance (fun _ h => h) (fun _ => rfl) (accounts_projectable _ (.inl rfl) _ _)⟩

end Pelote
