import Verif.Spec.BackboneSize
import Verif.Props.Sparsification
import Verif.Lemmas.Degree
import Mathlib.Analysis.SpecialFunctions.Log.Basic
import Mathlib.Analysis.Complex.ExponentialBounds

/-! Property C110: how many edges the multiscale backbone keeps. -/
namespace Pelote
open Real
variable {V : Type} [LinearOrder V]

theorem pow_le_iff_share {x alpha : ℝ} {n : Nat} (hn : n ≠ 0) (hx : x ≤ 1) (h0 : 0 ≤ alpha) :
    (1 - x) ^ n ≤ alpha ↔ 1 - alpha ^ (1 / (n : ℝ)) ≤ x := by
  have h1 : (alpha ^ (1 / (n : ℝ))) ^ n = alpha := by
    rw [one_div]
    exact rpow_inv_natCast_pow h0 hn
  conv_lhs => rw [← h1]
  rw [pow_le_pow_iff_left₀ (sub_nonneg.2 hx) (rpow_nonneg h0 _) hn, sub_le_comm]

/-- A share which is significant at the level `alpha` among `n + 1` is not small. -/
theorem log_le_share {x alpha : ℝ} {n : Nat} (hx0 : 0 < x) (hx : x ≤ 1) (h0 : 0 < alpha) (h : (1 - x) ^ n ≤ alpha) :
    log (1 / alpha) ≤ x * (log (1 / alpha) + n) := by
  rcases hx.lt_or_eq with hx | rfl
  · have hy : 0 < 1 - x := sub_pos.2 hx
    have h1 : n * log (1 - x) ≤ log alpha := by
      rw [← log_pow]
      exact log_le_log (pow_pos hy n) h
    have h2 : 1 - (1 - x)⁻¹ ≤ log (1 - x) := one_sub_inv_le_log_of_pos hy
    have h3 : log (1 / alpha) = -log alpha := by rw [one_div, log_inv]
    rw [h3]
    have h4 : -log alpha ≤ n * ((1 - x)⁻¹ - 1) := by
      have : (n : ℝ) * (1 - (1 - x)⁻¹) ≤ n * log (1 - x) := mul_le_mul_of_nonneg_left h2 n.cast_nonneg
      linarith
    have h5 : -log alpha * (1 - x) ≤ n * x := by
      have h6 := mul_le_mul_of_nonneg_right h4 hy.le
      have h7 : (n : ℝ) * ((1 - x)⁻¹ - 1) * (1 - x) = n * x := by
        field_simp
        ring
      linarith
    linarith
  · have : (0 : ℝ) ≤ n := n.cast_nonneg
    linarith

variable {g : Graph V (Val ℝ)}

/-- C110.  The criterion in terms of shares. -/
theorem disparity_dominates (h : g.WF) (hd : g.directed = false) {w : V → V → ℝ} (hsym : ∀ u v, w u v = w v u)
    (hpos : ∀ u v, g.hasEdge u v = true → 0 < w u v) {alpha : ℝ} (h0 : 0 ≤ alpha) (h1 : alpha < 1) {u v : V}
    (he : g.hasEdge u v = true) :
    g.disparity w u v ≤ alpha ↔ g.Dominates w alpha u v ∨ g.Dominates w alpha v u := by
  have side : ∀ a b, g.hasEdge a b = true →
      ((1 - w a b / g.nodeStrength w a) ^ (g.degree a - 1) ≤ alpha ↔ g.Dominates w alpha a b) := by
    intro a b hab
    have hle := weight_le_nodeStrength h hsym (fun u v he => (hpos u v he).le) hab
    have hS := (hpos a b hab).trans_le hle
    unfold Graph.Dominates
    by_cases hk : 2 ≤ g.degree a
    · rw [pow_le_iff_share (by omega) ((div_le_one hS).2 hle) h0, le_div_iff₀ hS, Nat.cast_sub (by omega)]
      simp [hk]
    · have : g.degree a - 1 = 0 := by omega
      simp [this, hk, h1]
  unfold Graph.disparity
  rw [min_le_iff, side u v he, ← side v u (by rwa [Graph.hasEdge_comm hd]), hsym v u]

/-- C110.  The backbone keeps the edges which have a large enough share of the strength of one of their ends. -/
theorem multiscaleBackbone_dominates [PyOrd V] [AttrVal (Val ℝ)] (ulongMax : Nat) (ho : OrderedKeys V)
    (h : g.WF) (hd : g.directed = false) (hm : g.multi = false) {attr : String} {w : V → V → ℝ}
    (hsym : ∀ u v, w u v = w v u) (hw : g.Weighted attr w)
    (hpos : ∀ u v, g.hasEdge u v = true → 0 < w u v) {alpha : ℝ} (h0 : 0 ≤ alpha) (h1 : alpha < 1)
    (hkw : ∀ e ∈ g.edgesData, Graph.EdgeKwSafe g.multi e.2.2) :
    ∃ g', multiscaleBackbone ulongMax g alpha attr false = .ok g' ∧ g'.WF ∧ g'.node = g.node ∧
      ∃ p : V × V × Attrs (Val ℝ) → Bool, g'.edgesData = g.edgesData.filter p ∧
        ∀ e ∈ g.edgesData, p e = true ↔ g.Dominates w alpha e.1 e.2.1 ∨ g.Dominates w alpha e.2.1 e.1 := by
  obtain ⟨g', e1, e2, -, -, -, e6, e7⟩ := multiscaleBackbone_exact ulongMax ho h hd hm hsym hw hpos alpha false (by simp) hkw
  refine ⟨g', e1, e2, e6, _, e7, fun e he => ?_⟩
  rw [← disparity_dominates h hd hsym hpos h0 h1 ((hasEdge_listed h).2 (.inl (mem_edges.2 ⟨e.2.2, he⟩)))]
  simp

/-- The number of edges of a list which take at least the part `x` of the strength of `u`. -/
theorem count_shares {w : V → V → ℝ} (hnn : ∀ e ∈ g.edges, 0 ≤ w e.1 e.2) (u : V) {x : ℝ} (p : V × V → Bool)
    (hp : ∀ e ∈ g.edges, p e = true → (e.1 = u ∨ e.2 = u) ∧ x ≤ w e.1 e.2) :
    ((g.edges.filter p).length : ℝ) * x ≤ g.nodeStrength w u := by
  unfold Graph.nodeStrength
  revert hnn hp
  generalize g.edges = l
  intro hnn hp
  induction l with
  | nil => simp
  | cons e l ih =>
    have ih := ih (fun e he => hnn e (List.mem_cons_of_mem _ he)) (fun e he => hp e (List.mem_cons_of_mem _ he))
    have hn := hnn e List.mem_cons_self
    have t1 : 0 ≤ (if e.1 = u then w e.1 e.2 else 0) := by split <;> simp [hn]
    have t2 : 0 ≤ (if e.2 = u then w e.1 e.2 else 0) := by split <;> simp [hn]
    rw [List.map_cons, List.sum_cons]
    by_cases hpe : p e = true
    · obtain ⟨h1, h2⟩ := hp e List.mem_cons_self hpe
      rw [List.filter_cons_of_pos hpe, List.length_cons]
      push_cast
      have : x ≤ (if e.1 = u then w e.1 e.2 else 0) + (if e.2 = u then w e.1 e.2 else 0) := by
        rcases h1 with h1 | h1
        · rw [if_pos h1] at t1 ⊢
          linarith
        · rw [if_pos h1] at t2 ⊢
          linarith
      linarith
    · rw [List.filter_cons_of_neg hpe]
      linarith

/-- If every element of `l` is charged to an element of `m`, there are at most as many as charges. -/
theorem length_le_charges {α β : Type} (l : List α) (m : List β) (p : β → α → Bool) (h : ∀ a ∈ l, ∃ b ∈ m, p b a = true) :
    l.length ≤ (m.map (fun b => (l.filter (p b)).length)).sum := by
  induction l with
  | nil => simp
  | cons a l ih =>
    have ih := ih (fun a ha => h a (List.mem_cons_of_mem _ ha))
    obtain ⟨b, hb, hpb⟩ := h a List.mem_cons_self
    have e : m.map (fun b => ((a :: l).filter (p b)).length) =
        m.map (fun b => (l.filter (p b)).length + if p b a = true then 1 else 0) := by
      apply List.map_congr_left
      intro c _
      by_cases hc : p c a = true <;> simp [hc]
    rw [e, List.sum_map_add, List.length_cons]
    have : 1 ≤ (m.map (fun b => if p b a = true then 1 else 0)).sum := by
      have := List.single_le_sum (l := m.map (fun b => if p b a = true then 1 else 0)) (by simp) _
        (List.mem_map_of_mem hb)
      simpa [hpb] using this
    omega

/-- C110.  Sizes: a node of degree `k`, at least 2, brings at most `1 + (k - 1) / log (1 / alpha)` edges to the backbone. -/
theorem multiscaleBackbone_size [PyOrd V] [AttrVal (Val ℝ)] (ulongMax : Nat) (ho : OrderedKeys V)
    (h : g.WF) (hd : g.directed = false) (hm : g.multi = false) {attr : String} {w : V → V → ℝ}
    (hsym : ∀ u v, w u v = w v u) (hw : g.Weighted attr w)
    (hpos : ∀ u v, g.hasEdge u v = true → 0 < w u v) {alpha : ℝ} (h0 : 0 < alpha) (h1 : alpha < 1)
    (hkw : ∀ e ∈ g.edgesData, Graph.EdgeKwSafe g.multi e.2.2) :
    ∃ g', multiscaleBackbone ulongMax g alpha attr false = .ok g' ∧
      (g'.size : ℝ) ≤ ((g.nodes.filter (fun u => 2 ≤ g.degree u)).map
        (fun u => 1 + ((g.degree u : ℝ) - 1) / log (1 / alpha))).sum := by
  obtain ⟨g', e1, e2, -, -, -, e6, e7⟩ := multiscaleBackbone_exact ulongMax ho h hd hm hsym hw hpos alpha false (by simp) hkw
  refine ⟨g', e1, ?_⟩
  have hL : 0 < log (1 / alpha) := log_pos ((one_lt_div h0).2 h1)
  have hedge : ∀ e ∈ g.edges, g.hasEdge e.1 e.2 = true := fun e he => (hasEdge_listed h).2 (.inl he)
  have hee : g'.edges = g.edges.filter (fun e => decide (g.disparity w e.1 e.2 ≤ alpha)) := by
    rw [edges_eq_map, edges_eq_map, e7, List.filter_map]
    congr 1
    apply List.filter_congr
    intro e _
    simp
  let side : V → V × V → Bool := fun u e => decide ((e.1 = u ∨ e.2 = u) ∧ 2 ≤ g.degree u ∧
    (1 - w e.1 e.2 / g.nodeStrength w u) ^ (g.degree u - 1) ≤ alpha)
  have hcharge := length_le_charges g'.edges (g.nodes.filter (fun u => 2 ≤ g.degree u)) side (by
    intro e he
    rw [hee, List.mem_filter] at he
    obtain ⟨he, hdis⟩ := he
    obtain ⟨a, ha⟩ := mem_edges.1 he
    have hends := edgesData_ends h ha
    have hdeg : ∀ u, ∀ x : ℝ, x ^ (g.degree u - 1) ≤ alpha → 2 ≤ g.degree u := by
      intro u x hx
      by_contra hk
      have : g.degree u - 1 = 0 := by omega
      rw [this, pow_zero] at hx
      linarith
    simp only [decide_eq_true_eq] at hdis
    unfold Graph.disparity at hdis
    rcases min_le_iff.1 hdis with hx | hx
    · have := hdeg _ _ hx
      exact ⟨e.1, by simp [hends.1, this], by simp [side, hx, this]⟩
    · have := hdeg _ _ hx
      exact ⟨e.2, by simp [hends.2, this], by simp [side, hx, this]⟩)
  rw [Graph.size_eq e2]
  refine le_trans (Nat.cast_le.2 hcharge) ?_
  rw [Nat.cast_list_sum, List.map_map]
  apply List.sum_le_sum
  intro u hu
  have hk : 2 ≤ g.degree u := by simpa using (List.mem_filter.1 hu).2
  have hk1 : ((g.degree u - 1 : ℕ) : ℝ) = (g.degree u : ℝ) - 1 := by
    rw [Nat.cast_sub (by omega)]
    simp
  have hpk : (0 : ℝ) ≤ (g.degree u : ℝ) - 1 := by
    rw [← hk1]
    exact Nat.cast_nonneg _
  have hmul : ((g'.edges.filter (side u)).length : ℝ) * log (1 / alpha) ≤ log (1 / alpha) + ((g.degree u : ℝ) - 1) := by
    have hcount := count_shares (g := g) (w := w) (fun e he => (hpos _ _ (hedge e he)).le) u
      (x := log (1 / alpha) / (log (1 / alpha) + ((g.degree u : ℝ) - 1)) * g.nodeStrength w u)
      (fun e => side u e && decide (g.disparity w e.1 e.2 ≤ alpha)) (by
        intro e he hpe
        simp only [side, Bool.and_eq_true, decide_eq_true_eq] at hpe
        obtain ⟨⟨hinc, -, hle⟩, -⟩ := hpe
        refine ⟨hinc, ?_⟩
        have hwS : w e.1 e.2 ≤ g.nodeStrength w u := by
          rcases hinc with rfl | rfl
          · exact weight_le_nodeStrength h hsym (fun u v he => (hpos u v he).le) (hedge e he)
          · rw [hsym]
            exact weight_le_nodeStrength h hsym (fun u v he => (hpos u v he).le)
              (by rw [Graph.hasEdge_comm hd]; exact hedge e he)
        have hw0 := hpos _ _ (hedge e he)
        have hS := hw0.trans_le hwS
        have := log_le_share (div_pos hw0 hS) ((div_le_one hS).2 hwS) h0 hle
        rw [hk1] at this
        rw [← le_div_iff₀ hS, div_le_iff₀ (by linarith)]
        exact this)
    rw [← List.filter_filter, ← hee] at hcount
    by_cases hnil : (g'.edges.filter (side u)) = []
    · rw [hnil]
      simp only [List.length_nil, Nat.cast_zero, zero_mul]
      linarith
    · obtain ⟨e, he⟩ := List.exists_mem_of_ne_nil _ hnil
      rw [List.mem_filter, hee, List.mem_filter] at he
      have hS : 0 < g.nodeStrength w u := by
        have hinc : e.1 = u ∨ e.2 = u := by
          have := he.2
          simp only [side, decide_eq_true_eq] at this
          exact this.1
        have hh := hedge e he.1.1
        rcases hinc with rfl | rfl
        · exact (disparity_range h hd hsym hpos hh).1
        · exact (disparity_range h hd hsym hpos (u := e.2) (v := e.1) (by rwa [Graph.hasEdge_comm hd])).1
      rw [← mul_assoc] at hcount
      have h2 : ((g'.edges.filter (side u)).length : ℝ) * (log (1 / alpha) / (log (1 / alpha) + ((g.degree u : ℝ) - 1))) ≤ 1 := by
        by_contra hlt
        push Not at hlt
        have := mul_lt_mul_of_pos_right hlt hS
        linarith
      rw [← mul_div_assoc, div_le_one (by linarith)] at h2
      exact h2
  simp only [Function.comp]
  rw [← mul_le_mul_iff_left₀ hL, add_mul, div_mul_cancel₀ _ hL.ne', one_mul]
  exact hmul

/-- C110.  On a graph of `n` nodes and `m` edges, the backbone has at most `n + (2 * m - n) / log (1 / alpha)` edges, when `alpha`
is at most `1 / e`. -/
theorem multiscaleBackbone_size_bound [PyOrd V] [AttrVal (Val ℝ)] (ulongMax : Nat) (ho : OrderedKeys V)
    (h : g.WF) (hd : g.directed = false) (hm : g.multi = false) {attr : String} {w : V → V → ℝ}
    (hsym : ∀ u v, w u v = w v u) (hw : g.Weighted attr w)
    (hpos : ∀ u v, g.hasEdge u v = true → 0 < w u v) {alpha : ℝ} (h0 : 0 < alpha) (h1 : alpha ≤ exp (-1))
    (hkw : ∀ e ∈ g.edgesData, Graph.EdgeKwSafe g.multi e.2.2) :
    ∃ g', multiscaleBackbone ulongMax g alpha attr false = .ok g' ∧
      (g'.size : ℝ) ≤ g.order + (2 * g.size - g.order) / log (1 / alpha) := by
  have hlt : alpha < 1 := h1.trans_lt (by simp)
  obtain ⟨g', e1, e2⟩ := multiscaleBackbone_size ulongMax ho h hd hm hsym hw hpos h0 hlt hkw
  refine ⟨g', e1, e2.trans ?_⟩
  have hL : 1 ≤ log (1 / alpha) := by
    rw [one_div, log_inv, le_neg]
    exact (log_le_iff_le_exp h0).2 h1
  have hL0 : 0 < log (1 / alpha) := by linarith
  have hdeg : (g.nodes.map (fun u => (g.degree u : ℝ))).sum = 2 * g.size := by
    rw [Graph.size_eq h]
    have := Graph.sum_degree h
    have h3 : (((g.nodes.map g.degree).sum : ℕ) : ℝ) = ((2 * g.edges.length : ℕ) : ℝ) := by rw [this]
    rw [Nat.cast_list_sum, List.map_map] at h3
    push_cast at h3
    exact h3
  have horder : (g.order : ℝ) = g.nodes.length := by
    unfold Graph.order Graph.nodes Dict.keys
    rw [List.length_map]
  rw [horder, ← hdeg]
  generalize g.nodes = ns
  induction ns with
  | nil => simp
  | cons u ns ih =>
    rw [List.map_cons, List.sum_cons, List.length_cons]
    push_cast
    have hsplit : ((ns.length : ℝ) + 1) + ((g.degree u : ℝ) + (ns.map (fun u => (g.degree u : ℝ))).sum - (ns.length + 1)) /
        log (1 / alpha) = (1 + ((g.degree u : ℝ) - 1) / log (1 / alpha)) +
          (ns.length + ((ns.map (fun u => (g.degree u : ℝ))).sum - ns.length) / log (1 / alpha)) := by
      field_simp
      ring
    rw [hsplit]
    by_cases hk : 2 ≤ g.degree u
    · rw [List.filter_cons_of_pos (by simpa using hk), List.map_cons, List.sum_cons]
      linarith
    · rw [List.filter_cons_of_neg (by simpa using hk)]
      have hterm : 0 ≤ 1 + ((g.degree u : ℝ) - 1) / log (1 / alpha) := by
        have h4 : (-1 : ℝ) ≤ (g.degree u : ℝ) - 1 := by
          have : (0 : ℝ) ≤ g.degree u := Nat.cast_nonneg _
          linarith
        have h5 : (-1 : ℝ) ≤ ((g.degree u : ℝ) - 1) / log (1 / alpha) := by
          rw [le_div_iff₀ hL0]
          linarith
        linarith
      linarith

/-! ### Equal weights -/

theorem nodeStrength_uniform (h : g.WF) {w : V → V → ℝ} {c : ℝ} (hc : ∀ e ∈ g.edges, w e.1 e.2 = c) (u : V) :
    g.nodeStrength w u = c * g.degree u := by
  rw [Graph.degree_eq h, Nat.cast_list_sum, List.map_map, ← List.sum_map_mul_left]
  unfold Graph.nodeStrength
  congr 1
  apply List.map_congr_left
  intro e he
  rw [hc e he]
  by_cases a : e.1 = u <;> by_cases b : e.2 = u <;> simp [a, b]
  ring

/-- The score of an edge at an end of degree `k` which has edges of the same weight. -/
noncomputable def equalScore (k : Nat) : ℝ := (1 - 1 / (k : ℝ)) ^ (k - 1)

theorem equalScore_succ (n : Nat) : equalScore (n + 1) = ((n : ℝ) / (n + 1)) ^ n := by
  unfold equalScore
  rw [Nat.add_sub_cancel]
  congr 1
  push_cast
  have : (n : ℝ) + 1 ≠ 0 := by positivity
  field_simp
  ring

theorem equalScore_antitone {k l : Nat} (hk : 1 ≤ k) (h : k ≤ l) : equalScore l ≤ equalScore k := by
  induction l, h using Nat.le_induction with
  | base => exact le_refl _
  | succ l hl ih =>
    refine le_trans ?_ ih
    obtain ⟨n, rfl⟩ : ∃ n, l = n + 1 := ⟨l - 1, by omega⟩
    rw [equalScore_succ, equalScore_succ]
    rcases n.eq_zero_or_pos with rfl | hn
    · norm_num
    have hn0 : (0 : ℝ) < n := Nat.cast_pos.2 hn
    push_cast
    have hb := one_add_mul_le_pow (a := -(1 / ((n : ℝ) + 1) ^ 2)) (by
      have : 1 / ((n : ℝ) + 1) ^ 2 ≤ 1 := by
        rw [div_le_one (by positivity)]
        nlinarith
      linarith) n
    have hfac : (n : ℝ) / (n + 1) = (1 + -(1 / ((n : ℝ) + 1) ^ 2)) * ((n + 1) / (n + 1 + 1)) := by
      field_simp
      ring
    have hle : ((n : ℝ) + 1) / (n + 1 + 1) ≤ 1 + n * -(1 / ((n : ℝ) + 1) ^ 2) := by
      rw [div_le_iff₀ (by positivity)]
      have : (1 + (n : ℝ) * -(1 / ((n : ℝ) + 1) ^ 2)) * (n + 1 + 1) - (n + 1) = 1 / (n + 1) ^ 2 := by
        field_simp
        ring
      have h2 : 0 ≤ 1 / ((n : ℝ) + 1) ^ 2 := by positivity
      linarith
    rw [pow_succ, hfac, mul_pow, mul_comm]
    exact mul_le_mul_of_nonneg_right (hle.trans hb) (by positivity)

theorem equalScore_gt (k : Nat) : exp (-1) < equalScore k := by
  rcases k.eq_zero_or_pos with rfl | hk
  · simp [equalScore]
  obtain ⟨n, rfl⟩ : ∃ n, k = n + 1 := ⟨k - 1, by omega⟩
  rw [equalScore_succ]
  rcases n.eq_zero_or_pos with rfl | hn
  · simp
  have hn0 : (0 : ℝ) < n := Nat.cast_pos.2 hn
  have h1 : 1 + 1 / (n : ℝ) < exp (1 / n) := by
    rw [add_comm]
    exact add_one_lt_exp (by positivity)
  have h2 : (1 + 1 / (n : ℝ)) ^ n < exp 1 := by
    have := pow_lt_pow_left₀ h1 (by positivity) hn.ne'
    rwa [← exp_nat_mul, mul_one_div_cancel hn0.ne'] at this
  have h3 : ((n : ℝ) / (n + 1)) ^ n = ((1 + 1 / (n : ℝ)) ^ n)⁻¹ := by
    rw [← inv_pow]
    congr 1
    field_simp
  rw [h3, exp_neg]
  exact (inv_lt_inv₀ (exp_pos 1) (by positivity)).2 h2

/-- C110.  If all the edges have the same weight, the score of an edge depends only on the greater of the degrees of its ends,
and is more than `1 / e`. -/
theorem disparity_uniform (h : g.WF) (hd : g.directed = false) {w : V → V → ℝ} (hsym : ∀ u v, w u v = w v u) {c : ℝ} (h0 : 0 < c)
    (hc : ∀ e ∈ g.edges, w e.1 e.2 = c) {u v : V} (he : g.hasEdge u v = true) :
    g.disparity w u v = equalScore (max (g.degree u) (g.degree v)) ∧ exp (-1) < g.disparity w u v := by
  have hwc : w u v = c := by
    rcases (hasEdge_listed h).1 he with h1 | ⟨_, h1⟩
    · exact hc _ h1
    · rw [hsym]
      exact hc _ h1
  have hpos : ∀ a b, g.hasEdge a b = true → 0 < w a b := by
    intro a b hab
    rcases (hasEdge_listed h).1 hab with h1 | ⟨_, h1⟩
    · rw [hc _ h1]; exact h0
    · rw [hsym, hc _ h1]; exact h0
  have hdeg : ∀ a b, g.hasEdge a b = true → 1 ≤ g.degree a := by
    intro a b hab
    have := (disparity_range h hd hsym hpos hab).1
    rw [nodeStrength_uniform h hc] at this
    by_contra hz
    have : g.degree a = 0 := by omega
    simp_all
  have hu := hdeg u v he
  have hv := hdeg v u (by rwa [Graph.hasEdge_comm hd])
  have hval : g.disparity w u v = min (equalScore (g.degree u)) (equalScore (g.degree v)) := by
    unfold Graph.disparity equalScore
    rw [nodeStrength_uniform h hc, nodeStrength_uniform h hc, hwc, div_mul_cancel_left₀ h0.ne', div_mul_cancel_left₀ h0.ne',
      one_div, one_div]
  have heq : g.disparity w u v = equalScore (max (g.degree u) (g.degree v)) := by
    rw [hval]
    rcases le_total (g.degree u) (g.degree v) with hle | hle
    · rw [max_eq_right hle, min_eq_right (equalScore_antitone hu hle)]
    · rw [max_eq_left hle, min_eq_left (equalScore_antitone hv hle)]
  exact ⟨heq, by rw [heq]; exact equalScore_gt _⟩

/-- C110.  If all the edges have the same weight, the backbone has no edge when `alpha` is at most `1 / e`. -/
theorem multiscaleBackbone_uniform [PyOrd V] [AttrVal (Val ℝ)] (ulongMax : Nat) (ho : OrderedKeys V)
    (h : g.WF) (hd : g.directed = false) (hm : g.multi = false) {attr : String} {w : V → V → ℝ}
    (hsym : ∀ u v, w u v = w v u) (hw : g.Weighted attr w) {c : ℝ} (h0 : 0 < c) (hc : ∀ e ∈ g.edges, w e.1 e.2 = c)
    {alpha : ℝ} (h1 : alpha ≤ exp (-1)) (hkw : ∀ e ∈ g.edgesData, Graph.EdgeKwSafe g.multi e.2.2) :
    ∃ g', multiscaleBackbone ulongMax g alpha attr false = .ok g' ∧ g'.node = g.node ∧ g'.edgesData = [] := by
  have hpos : ∀ a b, g.hasEdge a b = true → 0 < w a b := by
    intro a b hab
    rcases (hasEdge_listed h).1 hab with h1 | ⟨_, h1⟩
    · rw [hc _ h1]; exact h0
    · rw [hsym, hc _ h1]; exact h0
  obtain ⟨g', e1, -, -, -, -, e6, e7⟩ := multiscaleBackbone_exact ulongMax ho h hd hm hsym hw hpos alpha false (by simp) hkw
  refine ⟨g', e1, e6, ?_⟩
  rw [e7, List.filter_eq_nil_iff]
  intro e he
  have := (disparity_uniform h hd hsym h0 hc ((hasEdge_listed h).2 (.inl (mem_edges.2 ⟨e.2.2, he⟩)))).2
  simp only [Bool.false_eq_true, false_and, or_false, decide_eq_true_eq, not_le]
  exact h1.trans_lt this

/-! ### Cases -/

/-- A triangle with a pendant edge, whose weights are `x` but for that of the pendant edge, `y`. -/
noncomputable def kite (x y : ℝ) : Graph Int (Val ℝ) :=
  ⟨false, false, [], [(1, []), (2, []), (3, []), (4, [])],
    [⟨1, 2, [(.int 0, [(.str "weight", .num x)])]⟩, ⟨1, 3, [(.int 0, [(.str "weight", .num x)])]⟩,
     ⟨2, 3, [(.int 0, [(.str "weight", .num x)])]⟩, ⟨3, 4, [(.int 0, [(.str "weight", .num y)])]⟩]⟩

/-- Its weights. -/
noncomputable def kiteWeights (x y : ℝ) (u v : Int) : ℝ := if u = 4 ∨ v = 4 then y else x

theorem kite_meets {x y : ℝ} (hx : 0 < x) (hy : 0 < y) :
    (kite x y).WF ∧ (kite x y).directed = false ∧ (kite x y).multi = false ∧ (∀ u v, kiteWeights x y u v = kiteWeights x y v u) ∧
      (kite x y).Weighted "weight" (kiteWeights x y) ∧ (∀ u v, (kite x y).hasEdge u v = true → 0 < kiteWeights x y u v) ∧
      (∀ e ∈ (kite x y).edgesData, Graph.EdgeKwSafe (kite x y).multi e.2.2) ∧
      (kite x y).degree 3 = 3 ∧ (kite x y).nodeStrength (kiteWeights x y) 3 = 2 * x + y := by
  have he : (kite x y).edgesData = [(1, 2, [(.str "weight", .num x)]), (1, 3, [(.str "weight", .num x)]),
    (2, 3, [(.str "weight", .num x)]), (3, 4, [(.str "weight", .num y)])] := rfl
  refine ⟨?_, rfl, rfl, ?_, ?_, ?_, ?_, rfl, ?_⟩
  · constructor <;> simp [kite, Graph.nodes, Dict.keys, samePair]
  · intro u v
    unfold kiteWeights
    simp only [or_comm]
  · intro e h
    rw [he] at h
    simp only [List.mem_cons, List.not_mem_nil, or_false] at h
    rcases h with rfl | rfl | rfl | rfl <;> exact ⟨_, rfl, rfl⟩
  · intro u v _
    unfold kiteWeights
    split
    · exact hy
    · exact hx
  · intro e h
    rw [he] at h
    simp only [List.mem_cons, List.not_mem_nil, or_false] at h
    rcases h with rfl | rfl | rfl | rfl <;>
    · intro k hk
      simp [Dict.keys] at hk
      subst hk
      exact ⟨_, rfl, by simp [kite]⟩
  · have hee : (kite x y).edges = [(1, 2), (1, 3), (2, 3), (3, 4)] := rfl
    unfold Graph.nodeStrength
    rw [hee]
    simp [kiteWeights]
    ring

/-- The pendant edge of a kite with weights 1 and 8 is in the backbone for the usual level, since it has four fifths of the
strength of its end of degree 3; `1 - sqrt 0.05` is about 0.776. -/
example : (kite 1 8).Dominates (kiteWeights 1 8) (1 / 20) 3 4 := by
  obtain ⟨-, -, -, -, -, -, -, h1, h2⟩ := kite_meets (x := 1) (y := 8) one_pos (by norm_num)
  refine ⟨by rw [h1]; norm_num, ?_⟩
  have h3 : kiteWeights 1 8 3 4 = 8 := by simp [kiteWeights]
  rw [h1, h2, h3]
  have h4 : (1 / 5 : ℝ) ≤ (1 / 20) ^ (1 / (((3 : ℕ) : ℝ) - 1)) := by
    have h5 : (1 / (((3 : ℕ) : ℝ) - 1)) = 1 / 2 := by norm_num
    rw [h5, ← sqrt_eq_rpow]
    apply le_sqrt_of_sq_le
    norm_num
  linarith

/-- With weights all equal to 5, no edge is in the backbone. -/
example [AttrVal (Val ℝ)] (ulongMax : Nat) : ∃ g', multiscaleBackbone ulongMax (kite 5 5) (1 / 20) "weight" false = .ok g' ∧
    g'.node = (kite 5 5).node ∧ g'.edgesData = [] := by
  obtain ⟨h1, h2, h3, h4, h5, -, h6, -⟩ := kite_meets (x := 5) (y := 5) (by norm_num) (by norm_num)
  refine multiscaleBackbone_uniform ulongMax (fun _ _ => rfl) h1 h2 h3 h4 h5 (c := 5) (by norm_num) (by simp [kiteWeights]) ?_ h6
  have := exp_neg_one_gt_d9
  linarith

end Pelote
