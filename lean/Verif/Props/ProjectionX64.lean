import Verif.Props.ProjectionX
import Verif.Lemmas.ProjectionX64
import Verif.Props.ProjectionFloat

/-! C107: infinite, NaN and huge weights in projections by cosine similarity and by dot product. -/
set_option linter.unusedSectionVars false
namespace Pelote
open XNum

section
variable {V K : Type} [LinearOrder V] [Field K] [LinearOrder K] [IsStrictOrderedRing K] [FloorRing K]

/-- Neither NaN nor an infinity. -/
def XNum.isNumber : XNum K → Bool
  | .fin _ => true
  | _ => false

/-- No weight of the node is NaN, and the square of one of them is not 0. -/
def Usable {A : Type} (g : Graph V A) (w : V → V → XNum K) (u : V) : Prop :=
  (∀ t ∈ g.neighbors u, w u t ≠ .nan) ∧ ∃ t ∈ g.neighbors u, mul64 (w u t) (w u t) ≠ 0

/-- The squares of the weights of the node add up to an infinity: one of them is infinite, or the sum overflows. -/
def Overflows {A : Type} (sqrt : K → K) (g : Graph V A) (w : V → V → XNum K) (u : V) : Prop := squareN (metric64 sqrt) g w u = .inf false

theorem metric64_sane (sqrt : K → K) : Sane (metric64 sqrt) :=
  ⟨by simp [metric64, zero_def, lt], by show decide ((0 : K) < 1) = true; simp⟩

theorem square64 {A : Type} (sqrt : K → K) (g : Graph V A) (w : V → V → XNum K) (u : V) :
    (squareN (metric64 sqrt) g w u).NonNeg ∧ (squareN (metric64 sqrt) g w u = .nan ↔ ∃ t ∈ g.neighbors u, w u t = .nan) ∧
    (squareN (metric64 sqrt) g w u = 0 ↔ ∀ t ∈ g.neighbors u, mul64 (w u t) (w u t) = 0) := by
  obtain ⟨h1, h2, h3, _⟩ := squares (g.neighbors u) (w u) (s := (0 : XNum K)) zero_nonNeg
  refine ⟨h1, h2.trans (by simp [zero_def]), h3.trans (by simp)⟩

/-- Nodes that have a norm. -/
theorem hasNorm64 {A : Type} {sqrt : K → K} {g : Graph V A} {w : V → V → XNum K} {u : V} :
    HasNorm (metric64 sqrt) true g w u ↔ Usable g w u := by
  obtain ⟨h1, h2, h3⟩ := square64 sqrt g w u
  have h4 : (metric64 sqrt).lt 0 (squareN (metric64 sqrt) g w u) = true ↔
      squareN (metric64 sqrt) g w u ≠ .nan ∧ squareN (metric64 sqrt) g w u ≠ 0 := lt_zero_iff h1
  unfold HasNorm Usable
  simp only [h4, ne_eq, h2, h3]
  push Not
  constructor
  · rintro ⟨_, h⟩
    exact h trivial
  · rintro ⟨h5, t, ht, h6⟩
    exact ⟨List.ne_nil_of_mem ht, fun _ => ⟨h5, t, ht, h6⟩⟩

/-- An infinite weight makes the norm infinite, unless another one is NaN. -/
theorem overflows_of_infinite {A : Type} (sqrt : K → K) {g : Graph V A} {w : V → V → XNum K} {u t : V} {b : Bool}
    (hn : ∀ t ∈ g.neighbors u, w u t ≠ .nan) (ht : t ∈ g.neighbors u) (hw : w u t = .inf b) : Overflows sqrt g w u :=
  (squares (g.neighbors u) (w u) (s := (0 : XNum K)) zero_nonNeg).2.2.2 ⟨by simp [zero_def], hn⟩ (.inr ⟨t, ht, b, hw⟩)

/-- The cosine of two nodes that have a norm can always be computed. -/
theorem similarity64_ok {A : Type} {sqrt : K → K} (hq : SqrtRange sqrt) {g : Graph V A} {w : V → V → XNum K} {u v : V}
    (hu : HasNorm (metric64 sqrt) true g w u) (hv : HasNorm (metric64 sqrt) true g w v) :
    ∃ x, similarityN (metric64 sqrt) true g w u v = .ok x := by
  have h := norms_mul hq (square64 sqrt g w u).1 (square64 sqrt g w v).1 (hu.2 rfl) (hv.2 rfl)
  unfold similarityN
  simp only [if_true]
  show ∃ x, div64 (productN (metric64 sqrt) g w u v)
    (mul64 (XNum.sqrt64 sqrt (squareN (metric64 sqrt) g w u)) (XNum.sqrt64 sqrt (squareN (metric64 sqrt) g w v))) = .ok x
  rcases h with ⟨d, hd, h⟩ | h <;> rw [h]
  · cases productN (metric64 sqrt) g w u v with
    | fin a => exact ⟨_, by simp only [div64, hd.ne', if_false]; rfl⟩
    | inf s => exact ⟨_, by simp only [div64, div, hd.ne', if_false]; rfl⟩
    | nan => exact ⟨_, by simp only [div64, div, hd.ne', if_false]; rfl⟩
  · cases productN (metric64 sqrt) g w u v <;> exact ⟨_, rfl⟩

/-- When a norm is infinite, the cosine is 0 if the dot product is a number and NaN otherwise. -/
theorem similarity64_overflow {A : Type} {sqrt : K → K} (hq : SqrtRange sqrt) {g : Graph V A} {w : V → V → XNum K} {u v : V}
    (hu : HasNorm (metric64 sqrt) true g w u) (hv : HasNorm (metric64 sqrt) true g w v)
    (ho : Overflows sqrt g w u ∨ Overflows sqrt g w v) :
    similarityN (metric64 sqrt) true g w u v =
      .ok (if (productN (metric64 sqrt) g w u v).isNumber then 0 else .nan) := by
  have h := norms_mul hq (square64 sqrt g w u).1 (square64 sqrt g w v).1 (hu.2 rfl) (hv.2 rfl)
  have hinf : mul64 (XNum.sqrt64 sqrt (squareN (metric64 sqrt) g w u)) (XNum.sqrt64 sqrt (squareN (metric64 sqrt) g w v)) = .inf false := by
    rcases h with ⟨d, hd, h⟩ | h
    · rcases ho with ho | ho <;> rw [show squareN (metric64 sqrt) g w _ = XNum.inf false from ho] at h
      · cases hs : XNum.sqrt64 sqrt (squareN (metric64 sqrt) g w v) with
        | fin a => rw [hs] at h; simp only [XNum.sqrt64, mul64] at h; split at h <;> cases h
        | inf s => rw [hs] at h; cases h
        | nan => rw [hs] at h; cases h
      · cases hs : XNum.sqrt64 sqrt (squareN (metric64 sqrt) g w u) with
        | fin a => rw [hs] at h; simp only [XNum.sqrt64, mul64] at h; split at h <;> cases h
        | inf s => rw [hs] at h; cases h
        | nan => rw [hs] at h; cases h
    · exact h
  unfold similarityN
  simp only [if_true]
  show div64 (productN (metric64 sqrt) g w u v)
    (mul64 (XNum.sqrt64 sqrt (squareN (metric64 sqrt) g w u)) (XNum.sqrt64 sqrt (squareN (metric64 sqrt) g w v))) = _
  rw [hinf]
  cases productN (metric64 sqrt) g w u v <;> simp [div64, div, zero_def, isNumber]

variable [PyOrd V] [AttrVal (Val (XNum K))]

/-- C107, cosine, for all floats: the projection raises `KeyError` exactly if a node with a NaN weight, or whose weights are all so
small that their squares are 0, shares a neighbor with a node of lesser label that has none of this; it raises nothing else.  Otherwise
the nodes sharing a neighbor are linked, the similarity being their weight, unless it is below the threshold or the lesser of them is
such a node. -/
theorem projection64_cases {sqrt : K → K} (hq : SqrtRange sqrt) {g : Graph V (Val (XNum K))} {ns : List V}
    {partAttr weightAttr : String} (check : Bool) {w : V → V → XNum K} (h : ProjectableN g ns partAttr weightAttr w)
    {threshold : Option (XNum K)} (ht : ∀ t, threshold = some t → t.le 0 = false) :
    ((∃ u v, u < v ∧ u ∈ ns ∧ v ∈ ns ∧ g.Sharing u v ∧ Usable g w u ∧ ¬ Usable g w v) →
      monopartiteProjectionN (metric64 sqrt) true g ns partAttr weightAttr check threshold = .error .keyError) ∧
    ((¬ ∃ u v, u < v ∧ u ∈ ns ∧ v ∈ ns ∧ g.Sharing u v ∧ Usable g w u ∧ ¬ Usable g w v) →
      ∃ m, monopartiteProjectionN (metric64 sqrt) true g ns partAttr weightAttr check threshold = .ok m ∧ m.WF ∧
        (∀ n a, m.node.get? n = some a ↔ n ∈ ns ∧ ∃ b, g.node.get? n = some b ∧ a = b.erase (.str partAttr)) ∧
        ∀ u v a, m.edge? u v (.int 0) = some a ↔
          u ≠ v ∧ u ∈ ns ∧ v ∈ ns ∧ g.Sharing u v ∧ Usable g w (min u v) ∧
          ∃ x, similarityN (metric64 sqrt) true g w (min u v) (max u v) = .ok x ∧ (∀ t, threshold = some t → x.lt t = false) ∧
            a = [(.str "weight", .num x)]) := by
  have := projectionN_cases (ops := metric64 sqrt) (cosine := true) (check := check) (metric64_sane sqrt) h ht (fun _ _ _ _ => ⟨_, rfl⟩)
    (fun u v _ _ _ _ hu hv => similarity64_ok hq hu hv)
  simp only [hasNorm64] at this
  exact this

/-- C107.  A node with a NaN weight: when it shares a neighbor with a usable node of lesser label the projection raises `KeyError`, and
otherwise it is linked with nothing. -/
theorem projection64_nan {sqrt : K → K} (hq : SqrtRange sqrt) {g : Graph V (Val (XNum K))} {ns : List V}
    {partAttr weightAttr : String} (check : Bool) {w : V → V → XNum K} (h : ProjectableN g ns partAttr weightAttr w)
    {threshold : Option (XNum K)} (ht : ∀ t, threshold = some t → t.le 0 = false) {n t : V} (hn : n ∈ ns)
    (he : g.hasEdge n t = true) (hnan : w n t = .nan) :
    (∀ u ∈ ns, u < n → g.Sharing u n → Usable g w u →
      monopartiteProjectionN (metric64 sqrt) true g ns partAttr weightAttr check threshold = .error .keyError) ∧
    ∀ m, monopartiteProjectionN (metric64 sqrt) true g ns partAttr weightAttr check threshold = .ok m →
      n ∈ m.nodes ∧ ∀ v, m.edge? n v (.int 0) = none := by
  have hnot : ¬ Usable g w n := fun hu => hu.1 t (Graph.mem_neighbors.2 he) hnan
  obtain ⟨h1, h2⟩ := projection64_cases hq check h ht
  refine ⟨fun u hu hlt hsh huse => h1 ⟨u, n, hlt, hu, hn, hsh, huse, hnot⟩, fun m hm => ?_⟩
  have hgood : ¬ ∃ u v, u < v ∧ u ∈ ns ∧ v ∈ ns ∧ g.Sharing u v ∧ Usable g w u ∧ ¬ Usable g w v := by
    intro hbad
    rw [h1 hbad] at hm
    cases hm
  obtain ⟨m', hm', _, hnodes, hedges⟩ := h2 hgood
  rw [hm] at hm'
  cases hm'
  refine ⟨?_, fun v => ?_⟩
  · obtain ⟨⟨n', a⟩, hp, rfl⟩ := List.mem_map.1 (Graph.hasEdge_mem h.wf he).1
    exact Dict.mem_keys_of_mem (Dict.mem_of_get? ((hnodes _ _).2 ⟨hn, a, Dict.get?_of_mem h.wf.nodup hp, rfl⟩))
  · cases hx : m.edge? n v (.int 0) with
    | none => rfl
    | some a =>
      obtain ⟨h3, h4, h5, h6, h7, _⟩ := (hedges n v a).1 hx
      rcases lt_or_gt_of_ne h3 with hlt | hlt
      · rw [min_eq_left hlt.le] at h7
        exact absurd h7 hnot
      · rw [min_eq_right hlt.le] at h7
        obtain ⟨t', e1, e2⟩ := h6
        exact absurd ⟨v, n, hlt, h5, hn, ⟨t', e2, e1⟩, h7, hnot⟩ hgood

/-- C107.  A node whose squares add up to an infinity: each of its links weighs 0 if the dot product of the two nodes is a number, and NaN
otherwise; with a threshold the former are dropped and the latter kept, whatever the threshold is. -/
theorem projection64_overflow {sqrt : K → K} (hq : SqrtRange sqrt) {g : Graph V (Val (XNum K))} {ns : List V}
    {partAttr weightAttr : String} (check : Bool) {w : V → V → XNum K} (h : ProjectableN g ns partAttr weightAttr w)
    (huse : ∀ u ∈ ns, g.neighbors u ≠ [] → Usable g w u)
    {threshold : Option (XNum K)} (ht : ∀ t, threshold = some t → XNum.lt 0 t = true) {n : V} (hn : n ∈ ns)
    (ho : Overflows sqrt g w n) :
    ∃ m, monopartiteProjectionN (metric64 sqrt) true g ns partAttr weightAttr check threshold = .ok m ∧
      ∀ v a, m.edge? n v (.int 0) = some a ↔ v ≠ n ∧ v ∈ ns ∧ g.Sharing n v ∧
        if (productN (metric64 sqrt) g w (min n v) (max n v)).isNumber then
          threshold = none ∧ a = [(.str "weight", .num 0)]
        else a = [(.str "weight", .num .nan)] := by
  have hthr : ∀ t, threshold = some t → t.le 0 = false := by
    intro t htt
    have := ht t htt
    cases t with
    | fin a => rw [zero_def] at this ⊢; simpa [le, lt] using this
    | inf s => cases s <;> simp_all [zero_def, le, lt]
    | nan => rfl
  have hne : ∀ {u v}, g.Sharing u v → g.neighbors u ≠ [] := by
    rintro u v ⟨t, h1, _⟩
    exact List.ne_nil_of_mem (Graph.mem_neighbors.2 h1)
  have hcomm : ∀ {u v}, g.Sharing u v → g.Sharing v u := fun ⟨t, h1, h2⟩ => ⟨t, h2, h1⟩
  obtain ⟨-, h2⟩ := projection64_cases hq check h hthr
  obtain ⟨m, hm, -, -, hedges⟩ := h2 (by
    rintro ⟨u, v, h1, h2, h3, h4, h5, h6⟩
    exact h6 (huse v h3 (hne (hcomm h4))))
  refine ⟨m, hm, fun v a => ?_⟩
  rw [hedges]
  have hsim : v ≠ n → v ∈ ns → g.Sharing n v → similarityN (metric64 sqrt) true g w (min n v) (max n v) =
      .ok (if (productN (metric64 sqrt) g w (min n v) (max n v)).isNumber then 0 else .nan) := by
    intro h1 h3 h4
    have e1 := hasNorm64 (sqrt := sqrt).2 (huse n hn (hne h4))
    have e2 := hasNorm64 (sqrt := sqrt).2 (huse v h3 (hne (hcomm h4)))
    rcases lt_or_gt_of_ne h1 with hlt | hlt
    · rw [min_eq_right hlt.le, max_eq_left hlt.le]
      exact similarity64_overflow hq e2 e1 (.inr ho)
    · rw [min_eq_left hlt.le, max_eq_right hlt.le]
      exact similarity64_overflow hq e1 e2 (.inl ho)
  constructor
  · rintro ⟨h1, _, h3, h4, _, x, h6, h7, rfl⟩
    refine ⟨h1.symm, h3, h4, ?_⟩
    rw [hsim h1.symm h3 h4] at h6
    split
    · rename_i hp
      rw [if_pos hp] at h6
      cases h6
      refine ⟨?_, rfl⟩
      cases threshold with
      | none => rfl
      | some t =>
        have := h7 t rfl
        rw [ht t rfl] at this
        cases this
    · rename_i hp
      rw [if_neg hp] at h6
      cases h6
      rfl
  · rintro ⟨h1, h3, h4, h5⟩
    refine ⟨h1.symm, hn, h3, h4, ?_, _, hsim h1 h3 h4, ?_, ?_⟩
    · rcases le_total n v with hle | hle
      · rw [min_eq_left hle]; exact huse n hn (hne h4)
      · rw [min_eq_right hle]; exact huse v h3 (hne (hcomm h4))
    · intro t htt
      split at h5
      · rw [h5.1] at htt
        cases htt
      · rename_i hp
        rw [if_neg hp]
        rfl
    · split at h5 <;> rename_i hp
      · rw [if_pos hp]; exact h5.2
      · rw [if_neg hp]; exact h5

/-- C107, dot product, for all floats: nothing is raised, and the nodes sharing a neighbor are linked, the sum of the products of their
weights being the weight of the link, be it an infinity or NaN, unless it is below the threshold (NaN is not). -/
theorem projection64_dot {sqrt : K → K} {g : Graph V (Val (XNum K))} {ns : List V} {partAttr weightAttr : String} (check : Bool)
    {w : V → V → XNum K} (h : ProjectableN g ns partAttr weightAttr w) {threshold : Option (XNum K)}
    (ht : ∀ t, threshold = some t → t.le 0 = false) :
    ∃ m, monopartiteProjectionN (metric64 sqrt) false g ns partAttr weightAttr check threshold = .ok m ∧ m.WF ∧
      (∀ n a, m.node.get? n = some a ↔ n ∈ ns ∧ ∃ b, g.node.get? n = some b ∧ a = b.erase (.str partAttr)) ∧
      ∀ u v a, m.edge? u v (.int 0) = some a ↔ u ≠ v ∧ u ∈ ns ∧ v ∈ ns ∧ g.Sharing u v ∧
        (∀ t, threshold = some t → (productN (metric64 sqrt) g w (min u v) (max u v)).lt t = false) ∧
        a = [(.str "weight", .num (productN (metric64 sqrt) g w (min u v) (max u v)))] := by
  have hne : ∀ {u v}, g.Sharing u v → g.neighbors u ≠ [] := by
    rintro u v ⟨t, h1, _⟩
    exact List.ne_nil_of_mem (Graph.mem_neighbors.2 h1)
  obtain ⟨m, h1, h2, h3, h4⟩ := (projectionN_cases (ops := metric64 sqrt) (cosine := false) (check := check) (metric64_sane sqrt) h ht (fun _ _ _ _ => ⟨_, rfl⟩)
    (fun u v _ _ _ _ _ _ => ⟨_, rfl⟩)).2 (by
      rintro ⟨u, v, _, _, _, ⟨t, _, h4⟩, _, h6⟩
      exact h6 ⟨List.ne_nil_of_mem (Graph.mem_neighbors.2 h4), by simp⟩)
  refine ⟨m, h1, h2, h3, fun u v a => ?_⟩
  rw [h4]
  constructor
  · rintro ⟨b1, b2, b3, b4, _, x, b6, b7, rfl⟩
    cases b6
    exact ⟨b1, b2, b3, b4, b7, rfl⟩
  · rintro ⟨b1, b2, b3, b4, b5, rfl⟩
    refine ⟨b1, b2, b3, b4, ⟨?_, by simp⟩, _, rfl, b5, rfl⟩
    rcases le_total u v with hle | hle
    · rw [min_eq_left hle]; exact hne b4
    · rw [min_eq_right hle]
      obtain ⟨t, e1, e2⟩ := b4
      exact hne ⟨t, e2, e1⟩

/-- C107.  A NaN threshold is accepted and filters nothing, for all graphs. -/
theorem projection64_nan_threshold (sqrt : K → K) (cosine : Bool) (g : Graph V (Val (XNum K))) (ns : List V)
    (partAttr weightAttr : String) (check : Bool) :
    monopartiteProjectionN (metric64 sqrt) cosine g ns partAttr weightAttr check (some .nan) =
      monopartiteProjectionN (metric64 sqrt) cosine g ns partAttr weightAttr check none := by
  have hb : ∀ x : XNum K, belowThresholdN (metric64 sqrt) (some .nan) x = false := by
    intro x
    show x.lt .nan = false
    cases x <;> rfl
  have hl : ∀ norms source (n1 : V) (I : Dict V (XNum K)) (mono : Graph V (Val (XNum K))),
      linkLoopN (metric64 sqrt) cosine norms source (some .nan) n1 I mono =
        linkLoopN (metric64 sqrt) cosine norms source none n1 I mono := by
    intro norms source n1 I
    induction I with
    | nil => intro _; rfl
    | cons p I ih =>
      intro mono
      obtain ⟨n2, i⟩ := p
      simp only [linkLoopN, hb, ih]
      rfl
  have hp : ∀ norms (L : List V) (mono : Graph V (Val (XNum K))),
      projectLoopN (metric64 sqrt) cosine g weightAttr norms (some .nan) L mono =
        projectLoopN (metric64 sqrt) cosine g weightAttr norms none L mono := by
    intro norms L
    induction L with
    | nil => intro _; rfl
    | cons n L ih =>
      intro mono
      simp only [projectLoopN, hl, ih]
  unfold monopartiteProjectionN
  simp only [hp]
  rfl

end

/-! ### Moderate weights -/
section
variable {V K : Type} [LinearOrder V] [Field K] [LinearOrder K] [IsStrictOrderedRing K] [FloorRing K]

/-- With weights of at most `2 ** 499` and at most `2 ** 23` neighbors, nothing overflows: the sums are those of C86. -/
theorem dot64_moderate (sqrt : K → K) (l : List V) (a b : V → K) (ha : ∀ t ∈ l, |a t| ≤ 2 ^ 499) (hb : ∀ t ∈ l, |b t| ≤ 2 ^ 499)
    (hl : l.length ≤ 2 ^ 23) :
    dotN (metric64 sqrt) l (fun t => .fin (a t)) (fun t => .fin (b t)) = .fin (roundedDot round64 l a b) ∧
      |roundedDot round64 l a b| ≤ 2 ^ 1021 := by
  have key : ∀ (l : List V) (s : K) (k : ℕ), (∀ t ∈ l, |a t| ≤ 2 ^ 499) → (∀ t ∈ l, |b t| ≤ 2 ^ 499) → k + l.length ≤ 2 ^ 23 →
      |s| ≤ k * 2 ^ 998 →
      l.foldl (fun s t => add64 s (mul64 (.fin (a t)) (.fin (b t)))) (.fin s) =
        .fin (l.foldl (fun s t => round64 (s + round64 (a t * b t))) s) ∧
      |l.foldl (fun s t => round64 (s + round64 (a t * b t))) s| ≤ (k + l.length : ℕ) * 2 ^ 998 := by
    intro l
    induction l with
    | nil => intro s k _ _ _ hs; exact ⟨rfl, by simpa using hs⟩
    | cons t l ih =>
      intro s k ha hb hk hs
      have hfl : ∀ j : ℕ, j ≤ 2 ^ 23 → IsFloat64 ((j : K) * 2 ^ 998) := fun j hj =>
        ⟨j, 998, by
          rw [abs_of_nonneg (by positivity)]
          have : (j : ℤ) ≤ 2 ^ 23 := by exact_mod_cast hj
          exact lt_of_le_of_lt this (by norm_num), by norm_num, by
          rw [Int.cast_natCast]; congr 1; exact (zpow_natCast 2 998).symm⟩
      have htop : ∀ j : ℕ, j ≤ 2 ^ 23 → (j : K) * 2 ^ 998 < 2 ^ 1024 := by
        intro j hj
        have h1 : (j : K) ≤ 2 ^ 23 := by exact_mod_cast hj
        have h2 : (2 : K) ^ 1024 = 2 ^ 26 * 2 ^ 998 := by rw [← pow_add]
        have h3 : (0 : K) < 2 ^ 998 := by positivity
        rw [h2]
        exact mul_lt_mul_of_pos_right (lt_of_le_of_lt h1 (by norm_num)) h3
      simp only [List.length_cons] at hk
      have hp : |a t * b t| ≤ ((1 : ℕ) : K) * 2 ^ 998 := by
        rw [abs_mul, Nat.cast_one, one_mul]
        have h1 := mul_le_mul (ha t List.mem_cons_self) (hb t List.mem_cons_self) (abs_nonneg _) (by positivity)
        have h2 : (2 : K) ^ 998 = 2 ^ 499 * 2 ^ 499 := by rw [← pow_add]
        rw [h2]
        exact h1
      have hp' := abs_round64_le' (hfl 1 (by norm_num)) hp
      have hs1 : |s + round64 (a t * b t)| ≤ ((k + 1 : ℕ) : K) * 2 ^ 998 := by
        refine le_trans (abs_add_le _ _) ?_
        rw [Nat.cast_add, add_mul]
        exact add_le_add hs hp'
      have hs2 := abs_round64_le' (hfl (k + 1) (by omega)) hs1
      have e1 : mul64 (.fin (a t)) (.fin (b t)) = .fin (round64 (a t * b t)) :=
        store_fin (lt_of_le_of_lt hp' (htop 1 (by norm_num)))
      have e2 : add64 (.fin s) (.fin (round64 (a t * b t))) = .fin (round64 (s + round64 (a t * b t))) :=
        store_fin (lt_of_le_of_lt hs2 (htop (k + 1) (by omega)))
      have := ih (round64 (s + round64 (a t * b t))) (k + 1) (fun t ht => ha t (List.mem_cons_of_mem _ ht))
        (fun t ht => hb t (List.mem_cons_of_mem _ ht)) (by omega) hs2
      simp only [List.foldl_cons, e1, e2]
      refine ⟨this.1, ?_⟩
      rw [show k + (t :: l).length = k + 1 + l.length by simp only [List.length_cons]; omega]
      exact this.2
  obtain ⟨h1, h2⟩ := key l 0 0 ha hb (by omega) (by simp)
  refine ⟨h1, le_trans h2 ?_⟩
  have h3 : ((0 + l.length : ℕ) : K) ≤ 2 ^ 23 := by exact_mod_cast (by omega : 0 + l.length ≤ 2 ^ 23)
  have h4 : (2 : K) ^ 1021 = 2 ^ 23 * 2 ^ 998 := by rw [← pow_add]
  rw [h4]
  exact mul_le_mul_of_nonneg_right h3 (by positivity)

/-- C107.  With weights of at most `2 ** 499` and at most `2 ** 23` neighbors, the similarities are those of C86. -/
theorem similarity64_moderate [PyMath K] (hr : ∀ x : K, PyMath.rnd x = round64 x) (hq : SqrtRange (PyMath.sqrt : K → K))
    {g : Graph V (Val K)} {w : V → V → K} {u v : V}
    (hu : ∀ t ∈ g.neighbors u, |w u t| ≤ 2 ^ 499) (hv : ∀ t ∈ g.neighbors v, |w v t| ≤ 2 ^ 499)
    (hdu : (g.neighbors u).length ≤ 2 ^ 23) (hdv : (g.neighbors v).length ≤ 2 ^ 23) :
    similarityN (metric64 PyMath.sqrt) false g (fun u t => .fin (w u t)) u v =
      .ok (.fin (roundedSimilarity round64 g .dotProduct w u v)) ∧
    (0 < roundedDot round64 (g.neighbors u) (w u) (w u) → 0 < roundedDot round64 (g.neighbors v) (w v) (w v) →
      |roundedSimilarity round64 g .cosine w u v| < 2 ^ 1024 →
      similarityN (metric64 PyMath.sqrt) true g (fun u t => .fin (w u t)) u v =
        .ok (.fin (roundedSimilarity round64 g .cosine w u v))) := by
  have hsub : ∀ t ∈ g.sharedList u v, t ∈ g.neighbors u ∧ t ∈ g.neighbors v := by
    intro t ht
    obtain ⟨h1, h2⟩ := List.mem_filter.1 ht
    exact ⟨h1, Graph.mem_neighbors.2 h2⟩
  have hp := dot64_moderate PyMath.sqrt (g.sharedList u v) (w u) (w v) (fun t ht => hu t (hsub t ht).1) (fun t ht => hv t (hsub t ht).2)
    (le_trans (List.length_filter_le _ _) hdu)
  have h1 := dot64_moderate PyMath.sqrt (g.neighbors u) (w u) (w u) hu hu hdu
  have h2 := dot64_moderate PyMath.sqrt (g.neighbors v) (w v) (w v) hv hv hdv
  refine ⟨by unfold similarityN productN; simp only [Bool.false_eq_true, if_false, hp.1]; rfl, fun p1 p2 hsmall => ?_⟩
  have s1 := (square64 PyMath.sqrt g (fun u t => .fin (w u t)) u).1
  have s2 := (square64 PyMath.sqrt g (fun u t => .fin (w u t)) v).1
  unfold squareN at s1 s2
  simp only at s1 s2
  rw [h1.1] at s1
  rw [h2.1] at s2
  have hn := norms_mul hq s1 s2 ((lt_zero_iff s1).2 ⟨by simp, fun h => p1.ne' (XNum.fin.inj h)⟩)
    ((lt_zero_iff s2).2 ⟨by simp, fun h => p2.ne' (XNum.fin.inj h)⟩)
  have htop : (2 : K) ^ 1021 ≤ 2 ^ 1022 := pow_le_pow_right₀ one_le_two (by norm_num)
  have q1 := hq.upper _ p1.le (le_trans (le_trans (le_abs_self _) h1.2) htop)
  have q2 := hq.upper _ p2.le (le_trans (le_trans (le_abs_self _) h2.2) htop)
  simp only [XNum.sqrt64, mul64] at hn
  have hnorms : ∃ d, 0 < d ∧ d = round64 (roundedNorm round64 g w u * roundedNorm round64 g w v) ∧
      store (PyMath.sqrt (roundedDot round64 (g.neighbors u) (w u) (w u)) * PyMath.sqrt (roundedDot round64 (g.neighbors v) (w v) (w v))) =
        .fin d := by
    have hlt : |round64 (PyMath.sqrt (roundedDot round64 (g.neighbors u) (w u) (w u)) *
        PyMath.sqrt (roundedDot round64 (g.neighbors v) (w v) (w v)))| < (2 : K) ^ 1024 := by
      have hf : IsFloat64 ((2 : K) ^ 1022) := ⟨1, 1022, by norm_num, by norm_num, by
        rw [Int.cast_one, one_mul]; exact (zpow_natCast 2 1022).symm⟩
      refine lt_of_le_of_lt (abs_round64_le' hf ?_) (pow_lt_pow_right₀ one_lt_two (by norm_num))
      have r1 := abs_sqrt_le hq p1 s1.2 q1
      have r2 := abs_sqrt_le hq p2 s2.2 q2
      have e : (2 : K) ^ 1022 = 2 ^ 511 * 2 ^ 511 := by rw [← pow_add]
      rw [abs_mul, e]
      exact mul_le_mul r1 r2 (abs_nonneg _) (by positivity)
    have hst := store_fin hlt
    rcases hn with ⟨d, hd, hn⟩ | hn
    · refine ⟨d, hd, ?_, hn⟩
      rw [hst] at hn
      exact (XNum.fin.inj hn).symm
    · rw [hst] at hn
      cases hn
  obtain ⟨d, hd, hde, hst⟩ := hnorms
  unfold similarityN productN squareN
  simp only [if_true, hp.1, h1.1, h2.1]
  show div64 (.fin (roundedDot round64 (g.sharedList u v) (w u) (w v))) (store _) = _
  rw [hst]
  simp only [div64, hd.ne', if_false]
  have hval : roundedSimilarity round64 g .cosine w u v = round64 (roundedDot round64 (g.sharedList u v) (w u) (w v) / d) := by
    unfold roundedSimilarity
    simp only [hr, hde]
  rw [hval] at hsmall ⊢
  rw [store_fin hsmall]

end

/-! ### Square roots -/

/-- The square root of CPython has the range that the theorems of this file ask for. -/
theorem sqrtRange_real : SqrtRange (fun x : ℝ => round64 (Real.sqrt x)) where
  lower a ha := by
    have h0 : (0 : ℝ) < 2 ^ (-537 : ℤ) := two_zpow_pos _
    have h1 : (2 : ℝ) ^ (-537 : ℤ) ≤ Real.sqrt a := by
      apply Real.le_sqrt_of_sq_le
      refine le_trans (le_of_eq ?_) ha
      rw [← zpow_natCast, ← zpow_mul]
      norm_num
    have h2 := round64_mono h0.le h1
    rwa [round64_float h0.le ⟨1, -537, by norm_num, by norm_num, by simp⟩] at h2
  upper a h0 ha := by
    have h1 : Real.sqrt a ≤ 2 ^ 511 := by
      rw [Real.sqrt_le_left (by positivity)]
      refine le_trans ha (le_of_eq ?_)
      rw [← pow_mul]
    have h2 := round64_mono (Real.sqrt_nonneg a) h1
    have hf : IsFloat64 ((2 : ℝ) ^ 511) := ⟨1, 511, by norm_num, by norm_num, by
      rw [Int.cast_one, one_mul]; exact (zpow_natCast 2 511).symm⟩
    rwa [round64_float (x := (2 : ℝ) ^ 511) (by positivity) hf] at h2

/-! ### Witnesses -/

/-- A value as a multigraph edge key; no case is met on simple graphs. -/
local instance pairAttrVal : AttrVal (Val (XNum ℚ)) where
  asKey _ := .ok none

/-- Something with the range of the square root, exact for 1. -/
def clampSqrt (x : ℚ) : ℚ := max (2 ^ (-537 : ℤ)) (min x (2 ^ 511))

theorem clampSqrt_range : SqrtRange clampSqrt where
  lower _ _ := le_max_left _ _
  upper _ _ _ := max_le (le_trans (zpow_le_zpow_right₀ one_le_two (by norm_num : (-537 : ℤ) ≤ 511)) (le_of_eq (zpow_natCast 2 511)))
    (min_le_right _ _)

/-- Accounts 1 and 2 share the same page 10 with the given weights: their vectors are parallel. -/
def pairSample (a b : XNum ℚ) : Graph Int (Val (XNum ℚ)) :=
  ⟨false, false, [], [(1, []), (2, []), (10, [])],
    [⟨1, 10, [(.int 0, [(.str "weight", .num a)])]⟩, ⟨2, 10, [(.int 0, [(.str "weight", .num b)])]⟩]⟩

/-- The link of the projection of the accounts. -/
def pairLink (a b : XNum ℚ) (cosine : Bool) (threshold : Option (XNum ℚ)) : Py (Option (Attrs (Val (XNum ℚ)))) :=
  (monopartiteProjectionN (metric64 clampSqrt) cosine (pairSample a b) [1, 2] "part" "weight" true threshold).map
    (fun m => m.edge? 1 2 (.int 0))

set_option synthInstance.maxSize 2000 in
/-- C107, findings.  Two parallel vectors have cosine 1, but weights of `2 ** 700` (a float whose square is not one) and 1 get a link of
weight 0, which a threshold drops, and two such weights get a NaN link, which no threshold drops; NaN weights make the projection fail or
not according to the order of the labels, and so do weights of `2 ** -600`, the squares of which are 0. -/
theorem pairSample_findings :
    pairLink (.fin 1) (.fin 1) true (some (.fin (1 / 2))) = .ok (some [(.str "weight", .num (.fin 1))]) ∧
    pairLink (.fin (2 ^ 700)) (.fin 1) true none = .ok (some [(.str "weight", .num (.fin 0))]) ∧
    pairLink (.fin (2 ^ 700)) (.fin 1) true (some (.fin (1 / 2))) = .ok none ∧
    pairLink (.fin (2 ^ 700)) (.fin (2 ^ 700)) true (some (.fin (1 / 2))) = .ok (some [(.str "weight", .num .nan)]) ∧
    pairLink (.inf false) (.inf true) true (some (.inf false)) = .ok (some [(.str "weight", .num .nan)]) ∧
    pairLink .nan (.fin 1) true none = .ok none ∧
    pairLink (.fin 1) .nan true none = .error .keyError ∧
    pairLink (.fin (2 ^ (-600 : ℤ))) (.fin 1) true none = .ok none ∧
    pairLink (.fin 1) (.fin (2 ^ (-600 : ℤ))) true none = .error .keyError ∧
    pairLink (.fin (2 ^ 700)) (.fin (2 ^ 700)) false none = .ok (some [(.str "weight", .num (.inf false))]) ∧
    pairLink (.fin 1) .nan false (some (.fin 1)) = .ok (some [(.str "weight", .num .nan)]) := by
  refine ⟨?_, ?_, ?_, ?_, ?_, ?_, ?_, ?_, ?_, ?_, ?_⟩ <;> decide +kernel

/-- The weights of the sample. -/
def pairWeights (a b : XNum ℚ) (u v : Int) : XNum ℚ := if u = 1 ∨ v = 1 then a else b

set_option synthInstance.maxSize 2000 in
/-- The hypotheses of the theorems of this file hold of the sample, whatever the weights. -/
theorem pairSample_projectable (a b : XNum ℚ) : ProjectableN (pairSample a b) [1, 2] "part" "weight" (pairWeights a b) where
  wf := by constructor <;> simp [pairSample, Graph.nodes, Dict.keys, samePair]
  undirected := rfl
  simple := rfl
  nonempty := ⟨1, by simp [pairSample, Graph.nodes, Dict.keys], by simp⟩
  bipartite := by
    intro u v he
    obtain ⟨l, hl, hs⟩ := Graph.hasEdge_iff.1 he
    simp only [pairSample, List.mem_cons, List.not_mem_nil, or_false] at hl
    rcases hl with rfl | rfl <;> rcases samePair_iff.1 hs with ⟨rfl, rfl⟩ | ⟨_, rfl, rfl⟩ <;> simp
  comparable := by intro u _ v _; rfl
  names := by
    intro n c hc _
    have : (n, c) ∈ (pairSample a b).node := Dict.mem_of_get? hc
    simp only [pairSample, List.mem_cons, Prod.mk.injEq, List.not_mem_nil, or_false] at this
    rcases this with ⟨_, rfl⟩ | ⟨_, rfl⟩ | ⟨_, rfl⟩ <;> simp [Graph.NodeKwSafe, Dict.erase, Dict.keys]
  weights := by
    intro u v c hc
    obtain ⟨l, hl, hs, hd⟩ : ∃ l ∈ (pairSample a b).links, samePair false u v l.u l.v = true ∧ l.data.get? (.int 0) = some c := by
      unfold Graph.edge? Graph.keydict? at hc
      obtain ⟨d, hd, hc⟩ := Option.bind_eq_some_iff.1 hc
      obtain ⟨l, hl, rfl⟩ := Option.map_eq_some_iff.1 hd
      exact ⟨l, List.mem_of_find?_eq_some hl, List.find?_some (p := fun x : Link Int (Val (XNum ℚ)) => samePair false u v x.u x.v) hl, hc⟩
    simp only [pairSample, List.mem_cons, List.not_mem_nil, or_false] at hl
    rcases hl with rfl | rfl <;> simp only [Dict.get?_cons, if_true, Option.some.injEq] at hd <;> subst hd <;>
      rcases samePair_iff.1 hs with ⟨rfl, rfl⟩ | ⟨_, rfl, rfl⟩ <;> rfl

/-- The theorems at work on the sample. -/
example : (∀ m, monopartiteProjectionN (metric64 clampSqrt) true (pairSample .nan (.fin 1)) [1, 2] "part" "weight" true none = .ok m →
      1 ∈ m.nodes ∧ ∀ v, m.edge? 1 v (.int 0) = none) ∧
    Overflows clampSqrt (pairSample (.fin (2 ^ 700)) (.fin 1)) (pairWeights (.fin (2 ^ 700)) (.fin 1)) 1 ∧
    Usable (pairSample (.fin (2 ^ 700)) (.fin 1)) (pairWeights (.fin (2 ^ 700)) (.fin 1)) 1 ∧
    Usable (pairSample (.fin (2 ^ 700)) (.fin 1)) (pairWeights (.fin (2 ^ 700)) (.fin 1)) 2 :=
  ⟨(projection64_nan clampSqrt_range true (pairSample_projectable .nan (.fin 1)) (by intro t ht; cases ht) (n := 1) (t := 10) (by simp)
      rfl rfl).2,
    by unfold Overflows; decide +kernel, by unfold Usable; decide +kernel, by unfold Usable; decide +kernel⟩

end Pelote
