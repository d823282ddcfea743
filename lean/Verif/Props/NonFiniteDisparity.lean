import Verif.Props.NonFinite
import Verif.Props.Disparity

/-! C90: edge disparity and the multiscale backbone with infinite and NaN weights. -/
set_option linter.unusedSectionVars false
namespace Pelote
open Graph
variable {V K : Type} [LinearOrder V] [Field K] [LinearOrder K]

/-! ### Sums -/

/-- What a sum of floats other than minus infinity gives. -/
def totalX (l : List (XNum K)) : XNum K :=
  if .nan ∈ l then .nan else if .inf false ∈ l then .inf false else .fin (l.map XNum.num).sum

theorem totalX_add {l : List (XNum K)} {x : XNum K} (hx : x ≠ .inf true) :
    (totalX l).add x = totalX (l ++ [x]) := by
  unfold totalX
  by_cases h1 : XNum.nan ∈ l
  · simp [h1, XNum.add]
  · by_cases h2 : XNum.inf false ∈ l
    · cases x with
      | nan => simp [h1, h2, XNum.add]
      | fin k => simp [h1, h2, XNum.add]
      | inf s =>
        cases s
        · simp [h1, h2, XNum.add]
        · exact absurd rfl hx
    · cases x with
      | nan => simp [h1, h2, XNum.add]
      | fin k => simp [h1, h2, XNum.add, XNum.num]
      | inf s =>
        cases s
        · simp [h1, h2, XNum.add]
        · exact absurd rfl hx

theorem foldl_addX {E : Type} (w : E → XNum K) (es : List E) (hes : ∀ e ∈ es, w e ≠ .inf true) (l : List (XNum K)) :
    es.foldl (fun s e => XNum.add s (w e)) (totalX l) = totalX (l ++ es.map w) := by
  induction es generalizing l with
  | nil => simp
  | cons e es ih =>
    rw [List.foldl_cons, totalX_add (hes e (by simp)), ih (fun e he => hes e (by simp [he]))]
    simp

theorem XNum.PosOrNaN.ne {x : XNum K} (h : x.PosOrNaN) : x ≠ .inf true := by
  rintro rfl
  rcases h with h | h | ⟨_, h, -⟩ <;> simp at h

theorem XNum.PosOrNaN.nonneg {x : XNum K} (h : x.PosOrNaN) : 0 ≤ x.num := by
  rcases h with rfl | rfl | ⟨k, rfl, hk⟩
  · exact le_rfl
  · exact le_rfl
  · exact hk.le

/-- The strength of a node. -/
theorem strengthX {g : Graph V (Val (XNum K))} (h : g.WF) (hd : g.directed = false) {w : V → V → XNum K}
    (hsym : ∀ u v, w u v = w v u) (hpos : ∀ u v, g.hasEdge u v = true → (w u v).PosOrNaN) (n : V) :
    ((∃ v, g.hasEdge n v = true ∧ w n v = .nan) → g.strengthN XNum.ops w n = .nan) ∧
      (¬ (∃ v, g.hasEdge n v = true ∧ w n v = .nan) → (∃ v, g.hasEdge n v = true ∧ w n v = .inf false) →
        g.strengthN XNum.ops w n = .inf false) ∧
      (¬ (∃ v, g.hasEdge n v = true ∧ w n v = .nan) → ¬ (∃ v, g.hasEdge n v = true ∧ w n v = .inf false) →
        g.strengthN XNum.ops w n = .fin (g.nodeStrength (fun u v => (w u v).num) n)) := by
  have hmem : ∀ v, v ∈ (g.edgesOf n).map (fun e => e.2.1) ↔ g.hasEdge n v = true := by
    intro v
    constructor
    · intro hv
      obtain ⟨⟨u, m, k, a⟩, he, rfl⟩ := List.mem_map.1 hv
      obtain ⟨_, l, hl, hs, _⟩ := (mem_edgesOf h).1 he
      exact Graph.hasEdge_iff.2 ⟨l, hl, hs⟩
    · intro he
      obtain ⟨l, hl, hs⟩ := Graph.hasEdge_iff.1 he
      obtain ⟨⟨k, a⟩, hka⟩ := List.exists_mem_of_ne_nil _ (h.nonempty l hl)
      exact List.mem_map.2 ⟨(n, v, k, a), (mem_edgesOf h).2 ⟨rfl, l, hl, hs, hka⟩, rfl⟩
  have hne : ∀ e ∈ g.edgesOf n, w n e.2.1 ≠ .inf true :=
    fun e he => (hpos n e.2.1 ((hmem _).1 (List.mem_map.2 ⟨e, he, rfl⟩))).ne
  have key : g.strengthN XNum.ops w n = totalX ((g.edgesOf n).map (fun e => w n e.2.1) ++
      ((g.edgesOf n).filter (fun e => e.2.1 = n)).map (fun e => w n e.2.1)) := by
    have h0 : (0 : XNum K) = totalX [] := by simp [totalX]; rfl
    unfold strengthN
    simp only [XNum.ops, List.foldl_map]
    rw [h0, foldl_addX _ _ hne, foldl_addX _ _ (fun e he => hne e (List.mem_filter.1 he).1), List.nil_append]
  have hin : ∀ x, x ∈ (g.edgesOf n).map (fun e => w n e.2.1) ++
      ((g.edgesOf n).filter (fun e => e.2.1 = n)).map (fun e => w n e.2.1) ↔ ∃ v, g.hasEdge n v = true ∧ w n v = x := by
    intro x
    rw [List.mem_append]
    constructor
    · rintro (hx | hx)
      · obtain ⟨e, he, rfl⟩ := List.mem_map.1 hx
        exact ⟨_, (hmem _).1 (List.mem_map.2 ⟨e, he, rfl⟩), rfl⟩
      · obtain ⟨e, he, rfl⟩ := List.mem_map.1 hx
        exact ⟨_, (hmem _).1 (List.mem_map.2 ⟨e, (List.mem_filter.1 he).1, rfl⟩), rfl⟩
    · rintro ⟨v, hv, rfl⟩
      obtain ⟨e, he, rfl⟩ := List.mem_map.1 ((hmem v).2 hv)
      exact .inl (List.mem_map.2 ⟨e, he, rfl⟩)
  rw [key]
  unfold totalX
  refine ⟨fun h1 => by rw [if_pos ((hin _).2 h1)],
    fun h1 h2 => by rw [if_neg (fun h => h1 ((hin _).1 h)), if_pos ((hin _).2 h2)], fun h1 h2 => ?_⟩
  rw [if_neg (fun h => h1 ((hin _).1 h)), if_neg (fun h => h2 ((hin _).1 h))]
  congr 1
  unfold nodeStrength
  rw [← sum_edgesOf h hd (fun u v => (w u v).num) (fun u v => by rw [hsym u v]) n, List.map_append, List.sum_append,
    List.map_map, List.map_map]
  rfl

/-- One side of a score: the quotient can be computed, and gives the side. -/
theorem sideX_eq [IsStrictOrderedRing K] {g : Graph V (Val (XNum K))} (h : g.WF) (hd : g.directed = false) {w : V → V → XNum K}
    (hsym : ∀ u v, w u v = w v u) (hpos : ∀ u v, g.hasEdge u v = true → (w u v).PosOrNaN) {n m : V}
    (he : g.hasEdge n m = true) :
    ∃ q, XNum.div (w n m) (g.strengthN XNum.ops w n) = .ok q ∧
      XNum.pow (XNum.sub .fin 1 q) (g.degree n - 1) = XNum.ofOption (g.sideX w n (w n m)) := by
  obtain ⟨s1, s2, s3⟩ := strengthX h hd hsym hpos n
  have hdeg : 1 ≤ g.degree n := by
    obtain ⟨l, hl, hs⟩ := Graph.hasEdge_iff.1 he
    obtain ⟨⟨k, a⟩, hka⟩ := List.exists_mem_of_ne_nil _ (h.nonempty l hl)
    have h1 : (n, m, k, a) ∈ g.edgesOf n := (mem_edgesOf h).2 ⟨rfl, l, hl, hs, hka⟩
    have h2 : (g.edgesOf n).length = ((g.adj n).map (fun p => p.2.length)).sum := by
      simp [edgesOf, List.length_flatMap]
    have h3 := List.length_pos_of_mem h1
    unfold degree
    rw [hd]
    simp only [Bool.false_eq_true, if_false]
    omega
  have hone : (1 : XNum K) = .fin 1 := rfl
  have hp := hpos n m he
  by_cases h1 : ∃ v, g.hasEdge n v = true ∧ w n v = .nan
  · rw [s1 h1]
    have : XNum.div (w n m) (.nan : XNum K) = .ok .nan := by cases w n m <;> rfl
    refine ⟨_, this, ?_⟩
    unfold sideX
    by_cases hd1 : g.degree n = 1
    · rw [if_pos hd1, hd1]; rfl
    · rw [if_neg hd1, if_pos (.inl h1), hone]
      simp only [XNum.sub, XNum.pow, XNum.ofOption]
      rw [if_neg (by omega)]
  · by_cases h2 : ∃ v, g.hasEdge n v = true ∧ w n v = .inf false
    · rw [s2 h1 h2]
      unfold sideX
      rcases hp with hx | hx | ⟨k, hx, hk⟩
      · exact absurd ⟨m, he, hx⟩ h1
      · refine ⟨.nan, by rw [hx]; rfl, ?_⟩
        by_cases hd1 : g.degree n = 1
        · rw [if_pos hd1, hd1]; rfl
        · rw [if_neg hd1, if_pos (.inr hx), hone]
          simp only [XNum.sub, XNum.pow, XNum.ofOption]
          rw [if_neg (by omega)]
      · refine ⟨.fin 0, by rw [hx]; rfl, ?_⟩
        have hx' : ¬ w n m = .inf false := by rw [hx]; simp
        have : XNum.pow (XNum.sub .fin 1 (.fin (0 : K))) (g.degree n - 1) = .fin 1 := by
          rw [hone]
          simp [XNum.sub, XNum.pow]
        rw [this]
        by_cases hd1 : g.degree n = 1
        · rw [if_pos hd1]; rfl
        · rw [if_neg hd1, if_neg (not_or.2 ⟨h1, hx'⟩), if_pos h2]; rfl
    · rw [s3 h1 h2]
      rcases hp with hx | hx | ⟨k, hx, hk⟩
      · exact absurd ⟨m, he, hx⟩ h1
      · exact absurd ⟨m, he, hx⟩ h2
      · have hle := weight_le_nodeStrength (w := fun u v => (w u v).num) h (fun u v => by rw [hsym u v])
          (fun u v he => (hpos u v he).nonneg) he
        simp only [hx, XNum.num] at hle
        have hS := lt_of_lt_of_le hk hle
        refine ⟨.fin (k / g.nodeStrength (fun u v => (w u v).num) n), ?_, ?_⟩
        · rw [hx]
          simp only [XNum.div]
          exact if_neg hS.ne'
        · have hx' : ¬ w n m = .inf false := by rw [hx]; simp
          rw [hone]
          unfold sideX
          simp only [XNum.sub, XNum.pow]
          by_cases hd1 : g.degree n = 1
          · rw [if_pos hd1, hd1]; rfl
          · rw [if_neg hd1, if_neg (not_or.2 ⟨h1, hx'⟩), if_neg h2, if_neg (by omega), hx]; rfl

theorem least_ofOption (a b : Option K) : XNum.least (XNum.ofOption a) (XNum.ofOption b) = XNum.ofOption (leastOrFirst a b) := by
  unfold XNum.least
  cases a with
  | none => cases b <;> simp [XNum.ofOption, XNum.lt, leastOrFirst]
  | some a => cases b with
    | none => simp [XNum.ofOption, XNum.lt, leastOrFirst]
    | some b =>
      simp only [XNum.ofOption, XNum.lt, leastOrFirst, decide_eq_true_eq]
      split_ifs with h
      · rw [min_eq_right h.le]
      · rw [min_eq_left (not_lt.1 h)]

theorem greatest_ofOption [IsStrictOrderedRing K] (a b : Option K) :
    XNum.greatest (XNum.sub .fin 1 (XNum.ofOption a)) (XNum.sub .fin 1 (XNum.ofOption b)) =
      XNum.ofOption ((leastOrFirst a b).map (1 - ·)) := by
  have hone : (1 : XNum K) = .fin 1 := rfl
  rw [hone]
  unfold XNum.greatest
  cases a with
  | none => cases b <;> simp [XNum.ofOption, XNum.lt, XNum.sub, leastOrFirst]
  | some a => cases b with
    | none => simp [XNum.ofOption, XNum.lt, XNum.sub, leastOrFirst]
    | some b =>
      simp only [XNum.ofOption, XNum.lt, XNum.sub, leastOrFirst, decide_eq_true_eq, Option.map_some, sub_lt_sub_iff_left]
      split_ifs with h
      · rw [min_eq_right h.le]
      · rw [min_eq_left (not_lt.1 h)]

/-- C90.  On a simple undirected graph all the weights of which are NaN, infinite or positive numbers, `edge_disparity` never
raises; there is exactly one entry per edge, under the ordered pair of its ends: the score `disparityX`, NaN when that is
`none`, and 1 minus it with `reverse`. -/
theorem edgeDisparity_nonfinite [IsStrictOrderedRing K] [PyOrd V] (ho : OrderedKeys V) {g : Graph V (Val (XNum K))}
    (h : g.WF) (hd : g.directed = false) (hm : g.multi = false) {attr : String} {w : V → V → XNum K}
    (hsym : ∀ u v, w u v = w v u) (hw : g.Weighted attr w)
    (hpos : ∀ u v, g.hasEdge u v = true → (w u v).PosOrNaN) (reverse : Bool) :
    ∃ d, edgeDisparityX g attr reverse = .ok d ∧ d.keys.Nodup ∧
      ∀ u v x, d.get? (u, v) = some x ↔ u ≤ v ∧ g.hasEdge u v = true ∧
        x = XNum.ofOption (if reverse then (g.disparityX w u v).map (1 - ·) else g.disparityX w u v) := by
  refine edgeDisparityN_exact XNum.ops ho h hd hm hsym hw reverse ?_
  intro u v x he hx
  obtain ⟨q, q1, q2⟩ := sideX_eq h hd hsym hpos he
  obtain ⟨r, r1, r2⟩ := sideX_eq h hd hsym hpos (n := v) (m := u) (by rwa [Graph.hasEdge_comm hd])
  rw [hsym v u] at r1 r2
  have e1 : XNum.ops.div (w u v) (g.strengthN XNum.ops w u) = .ok q := q1
  have e2 : XNum.ops.div (w u v) (g.strengthN XNum.ops w v) = .ok r := r1
  simp only [disparityScore, hx, e1, e2]
  have e3 : XNum.ops.pow (XNum.ops.oneMinus q) (g.degree u - 1) = XNum.ofOption (g.sideX w u (w u v)) := q2
  have e4 : XNum.ops.pow (XNum.ops.oneMinus r) (g.degree v - 1) = XNum.ofOption (g.sideX w v (w u v)) := r2
  rw [e3, e4]
  cases reverse
  · exact congrArg Except.ok (least_ofOption _ _)
  · exact congrArg Except.ok (greatest_ofOption _ _)

/-- C90.  When no weight is NaN or infinite the scores are the documented ones. -/
theorem disparityX_finite {g : Graph V (Val (XNum K))} {w : V → V → XNum K} (hfin : ∀ u v, g.hasEdge u v = true → ∃ k, w u v = .fin k ∧ 0 < k) {u v : V}
    (he : g.hasEdge u v = true) :
    g.disparityX w u v = some (min ((1 - (w u v).num / g.nodeStrength (fun u v => (w u v).num) u) ^ (g.degree u - 1))
      ((1 - (w u v).num / g.nodeStrength (fun u v => (w u v).num) v) ^ (g.degree v - 1))) := by
  have key : ∀ n, g.sideX w n (w u v) = some ((1 - (w u v).num / g.nodeStrength (fun u v => (w u v).num) n) ^ (g.degree n - 1)) := by
    intro n
    unfold sideX
    have h1 : ∀ y : XNum K, (∀ k, y ≠ .fin k) → ¬ ∃ v, g.hasEdge n v = true ∧ w n v = y := by
      rintro y hy ⟨v, hv, rfl⟩
      obtain ⟨k, hk, -⟩ := hfin n v hv
      exact hy k hk
    have h2 : ¬ w u v = .inf false := by
      obtain ⟨k, hk, -⟩ := hfin u v he
      rw [hk]; simp
    by_cases hd1 : g.degree n = 1
    · rw [if_pos hd1, hd1]; simp
    · rw [if_neg hd1, if_neg (not_or.2 ⟨h1 .nan (by simp), h2⟩), if_neg (h1 _ (by simp))]
  unfold disparityX
  rw [key, key]
  rfl

/-- C90.  The score of an edge whose weight is NaN or infinite is 1 or NaN. -/
theorem disparityX_special {g : Graph V (Val (XNum K))} (hd : g.directed = false) {w : V → V → XNum K}
    (hsym : ∀ u v, w u v = w v u) {u v : V} (he : g.hasEdge u v = true) (hw : w u v = .nan ∨ w u v = .inf false) :
    g.disparityX w u v = some 1 ∨ g.disparityX w u v = none := by
  have key : ∀ n m, g.hasEdge n m = true → w n m = w u v → g.sideX w n (w u v) = some 1 ∨ g.sideX w n (w u v) = none := by
    intro n m hnm hx
    unfold sideX
    by_cases hd1 : g.degree n = 1
    · rw [if_pos hd1]; exact .inl rfl
    · rw [if_neg hd1, if_pos]
      · exact .inr rfl
      · rcases hw with hw | hw
        · exact .inl ⟨m, hnm, hx.trans hw⟩
        · exact .inr hw
  unfold disparityX
  rcases key u v he rfl with h1 | h1 <;> rcases key v u (by rwa [Graph.hasEdge_comm hd]) (hsym v u) with h2 | h2 <;>
    rw [h1, h2] <;> simp [leastOrFirst]

/-! ### The multiscale backbone -/

open Classical in
/-- The predicate of the backbone. -/
theorem backbone_nonfinite_answers [IsStrictOrderedRing K] [PyOrd V] (ho : OrderedKeys V) {g : Graph V (Val (XNum K))}
    (h : g.WF) (hd : g.directed = false) (hm : g.multi = false) {attr : String} {w : V → V → XNum K}
    (hsym : ∀ u v, w u v = w v u) (hw : g.Weighted attr w)
    (hpos : ∀ u v, g.hasEdge u v = true → (w u v).PosOrNaN) (alpha : XNum K) :
    FactoryAnswers (backboneFactoryX alpha attr) g
      (fun u v _ => decide ((XNum.ofOption (g.disparityX w (min u v) (max u v))).AtMost alpha)) := by
  obtain ⟨d, h1, -, h3⟩ := edgeDisparity_nonfinite ho h hd hm hsym hw hpos false
  refine ⟨disparityPredicateX d alpha, by rw [backboneFactoryX]; simp only [h1], ?_⟩
  rintro ⟨u, v, a⟩ he
  have hedge : g.hasEdge u v = true :=
    (hasEdge_listed h).2 (.inl (by rw [edges_eq_map]; exact List.mem_map.2 ⟨_, he, rfl⟩))
  unfold disparityPredicateX Dict.getItem
  simp only [ho u v]
  simp only [Bool.false_eq_true, if_false] at h3
  by_cases hlt : v < u
  · have : d.get? (v, u) = some (XNum.ofOption (g.disparityX w v u)) :=
      (h3 _ _ _).2 ⟨hlt.le, by rw [Graph.hasEdge_comm hd]; exact hedge, rfl⟩
    simp only [decide_eq_true hlt, if_true, this, min_eq_right hlt.le, max_eq_left hlt.le]
    congr 1
    rw [Bool.eq_iff_iff, decide_eq_true_eq, XNum.le_iff]
  · have hle := not_lt.1 hlt
    have : d.get? (u, v) = some (XNum.ofOption (g.disparityX w u v)) := (h3 _ _ _).2 ⟨hle, hedge, rfl⟩
    simp only [decide_eq_false hlt, Bool.false_eq_true, if_false, this, min_eq_left hle, max_eq_right hle]
    congr 1
    rw [Bool.eq_iff_iff, decide_eq_true_eq, XNum.le_iff]

variable {sort : List ((V × V × Attrs (Val (XNum K))) × XNum K) → List ((V × V × Attrs (Val (XNum K))) × XNum K)}

open Classical in
/-- C90.  Without `keep_connected` the backbone has the nodes of the graph and exactly the edges whose score is a number at
most `alpha`. -/
theorem multiscaleBackbone_nonfinite [IsStrictOrderedRing K] [PyOrd V] [AttrVal (Val (XNum K))] (ho : OrderedKeys V)
    (rnd : K → XNum K) (ulongMax : Nat) {g : Graph V (Val (XNum K))}
    (h : g.WF) (hd : g.directed = false) (hm : g.multi = false) {attr : String} {w : V → V → XNum K}
    (hsym : ∀ u v, w u v = w v u) (hw : g.Weighted attr w)
    (hpos : ∀ u v, g.hasEdge u v = true → (w u v).PosOrNaN) (alpha : XNum K)
    (hkw : ∀ e ∈ g.edgesData, EdgeKwSafe g.multi e.2.2) :
    ∃ g', multiscaleBackboneX sort rnd ulongMax g alpha attr false = .ok g' ∧ g'.WF ∧
      g'.directed = g.directed ∧ g'.multi = g.multi ∧ g'.attrs = g.attrs ∧ g'.node = g.node ∧
      g'.edgesData = g.edgesData.filter (fun e =>
        decide ((XNum.ofOption (g.disparityX w (min e.1 e.2.1) (max e.1 e.2.1))).AtMost alpha)) := by
  obtain ⟨pred, h1, ha⟩ := backbone_nonfinite_answers ho h hd hm hsym hw hpos alpha
  obtain ⟨g', e1, e2, e3, e4, e5, e6, e7⟩ := filterEdges_exact h ha (fun e he _ => hkw e he)
  refine ⟨g', Eq.trans ?_ e1, e2, e3, e4, e5, e6, e7⟩
  unfold multiscaleBackboneX Sparsifier.filter filterEdges Sparsifier.makeX defaultGenerator
  simp only [Bool.false_eq_true, if_false, h1]
  exact filterLoop_eq _ g.edgesKeys g.createEmptyCopy

/-- C90.  An edge whose weight is NaN or infinite is never kept below `alpha = 1`: the strongest edges of all are dropped. -/
theorem multiscaleBackbone_drops [IsStrictOrderedRing K] [PyOrd V] [AttrVal (Val (XNum K))] (ho : OrderedKeys V)
    (rnd : K → XNum K) (ulongMax : Nat) {g : Graph V (Val (XNum K))}
    (h : g.WF) (hd : g.directed = false) (hm : g.multi = false) {attr : String} {w : V → V → XNum K}
    (hsym : ∀ u v, w u v = w v u) (hw : g.Weighted attr w)
    (hpos : ∀ u v, g.hasEdge u v = true → (w u v).PosOrNaN) {alpha : K} (halpha : alpha < 1)
    (hkw : ∀ e ∈ g.edgesData, EdgeKwSafe g.multi e.2.2) :
    ∃ g', multiscaleBackboneX sort rnd ulongMax g (.fin alpha) attr false = .ok g' ∧
      ∀ e ∈ g'.edgesData, ∃ k, w e.1 e.2.1 = .fin k := by
  obtain ⟨g', e1, -, -, -, -, -, e2⟩ := multiscaleBackbone_nonfinite (sort := sort) ho rnd ulongMax h hd hm hsym hw hpos (.fin alpha) hkw
  refine ⟨g', e1, ?_⟩
  rintro ⟨u, v, a⟩ he
  rw [e2] at he
  obtain ⟨he, hs⟩ := List.mem_filter.1 he
  replace hs := @of_decide_eq_true _ (Classical.propDecidable _) hs
  have hedge : g.hasEdge u v = true :=
    (hasEdge_listed h).2 (.inl (by rw [edges_eq_map]; exact List.mem_map.2 ⟨_, he, rfl⟩))
  have hmm : g.hasEdge (min u v) (max u v) = true ∧ w (min u v) (max u v) = w u v := by
    rcases le_total u v with hle | hle
    · rw [min_eq_left hle, max_eq_right hle]; exact ⟨hedge, rfl⟩
    · rw [min_eq_right hle, max_eq_left hle]; exact ⟨by rwa [Graph.hasEdge_comm hd], hsym _ _⟩
  have key : ¬ (w u v = .nan ∨ w u v = .inf false) := by
    intro hx
    rw [← hmm.2] at hx
    rcases disparityX_special hd hsym hmm.1 hx with h1 | h1
    · simp only [h1] at hs
      rcases hs with ⟨-, -, hs | hs | ⟨a, b, ha, hb, hab⟩⟩
      · simp [XNum.ofOption] at hs
      · simp at hs
      · simp only [XNum.ofOption, XNum.fin.injEq] at ha hb
        subst ha hb
        exact absurd halpha (not_lt.2 hab)
    · simp only [h1] at hs
      exact hs.1 rfl
  rcases hpos u v hedge with hx | hx | ⟨k, hx, -⟩
  · exact absurd (.inl hx) key
  · exact absurd (.inr hx) key
  · exact ⟨k, hx⟩

open Classical in
/-- C90.  With `keep_connected` the edges of the spanning trees are kept as well, and the connected components are those of
the graph. -/
theorem multiscaleBackbone_nonfinite_connected [IsStrictOrderedRing K] [PyOrd V] [AttrVal (Val (XNum K))] (ho : OrderedKeys V)
    {ulongMax : Nat} (hu : 2^32 - 1 ≤ ulongMax) (hsort : SortsDecreasing sort) (rnd : K → XNum K)
    {g : Graph V (Val (XNum K))} (h : g.WF) (hd : g.directed = false) (hm : g.multi = false) {attr : String}
    {w : V → V → XNum K} (hsym : ∀ u v, w u v = w v u) (hw : g.Weighted attr w)
    (hpos : ∀ u v, g.hasEdge u v = true → (w u v).PosOrNaN) (alpha : XNum K)
    (hw' : ∀ e ∈ g.edgesData, ∃ w, HasWeight "weight" e.2.2 w) (hord : SafeOrder ulongMax g.order)
    (hkw : ∀ e ∈ g.edgesData, EdgeKwSafe g.multi e.2.2) :
    ∃ g', multiscaleBackboneX sort rnd ulongMax g alpha attr true = .ok g' ∧ g'.WF ∧ g'.node = g.node ∧
      g'.edgesData = g.edgesData.filter (fun e =>
        decide ((XNum.ofOption (g.disparityX w (min e.1 e.2.1) (max e.1 e.2.1))).AtMost alpha) ||
        decide ((e.1, e.2.1) ∈
          (unionOfMaximumSpanningTreesX sort rnd ulongMax g "weight").yields.map (fun e => (e.1, e.2.1)))) ∧
      (∀ x y, Linked g'.edges x y ↔ Linked g.edges x y) ∧
      componentOrders g'.nodes g'.edges = componentOrders g.nodes g.edges := by
  obtain ⟨g', e1, e2, -, -, -, e3, e4, e5, e6⟩ := keepConnected_nonfinite hu hsort rnd h
    (backbone_nonfinite_answers ho h hd hm hsym hw hpos alpha) hw' hord hkw
  exact ⟨g', e1, e2, e3, e4, e5, e6⟩

/-! ### Witnesses -/

/-- A chain `1 - b - c - 4` with weights NaN, 1 and 9. -/
def nanChain (first : XNum ℚ) (b c : Int) : Graph Int (Val (XNum ℚ)) where
  directed := false
  multi := false
  attrs := []
  node := [(1, []), (b, []), (c, []), (4, [])]
  links := [⟨1, b, [(.int 0, [(.str "weight", .num first)])]⟩, ⟨b, c, [(.int 0, [(.str "weight", .num (.fin 1))])]⟩,
    ⟨c, 4, [(.int 0, [(.str "weight", .num (.fin 9))])]⟩]

/-- The weights of the chain. -/
def nanChainWeights (first : XNum ℚ) (u v : Int) : XNum ℚ :=
  if u = 1 ∨ v = 1 then first else if u = 4 ∨ v = 4 then .fin 9 else .fin 1

/-- The hypotheses of the theorems of this file hold on the chain. -/
theorem nanChain_meets : (nanChain .nan 2 3).WF ∧ (nanChain .nan 2 3).Weighted "weight" (nanChainWeights .nan) ∧
    (∀ u v, nanChainWeights .nan u v = nanChainWeights .nan v u) ∧
    (∀ u v, (nanChain .nan 2 3).hasEdge u v = true → (nanChainWeights .nan u v).PosOrNaN) ∧
    (∀ e ∈ (nanChain .nan 2 3).edgesData, EdgeKwSafe false e.2.2) := by
  refine ⟨by constructor <;> decide, ?_, ?_, ?_, ?_⟩
  · intro e he
    have : e ∈ [((1 : Int), (2 : Int), ([(.str "weight", .num .nan)] : Attrs (Val (XNum ℚ)))),
      (2, 3, [(.str "weight", .num (.fin 1))]), (3, 4, [(.str "weight", .num (.fin 9))])] := he
    simp only [List.mem_cons, List.not_mem_nil, or_false] at this
    rcases this with rfl | rfl | rfl
    · exact ⟨.num .nan, rfl, rfl⟩
    · exact ⟨.num (.fin 1), rfl, rfl⟩
    · exact ⟨.num (.fin 9), rfl, rfl⟩
  · intro u v; unfold nanChainWeights; simp only [or_comm]
  · intro u v _
    unfold nanChainWeights
    split
    · exact .inl rfl
    · split
      · exact .inr (.inr ⟨9, rfl, by norm_num⟩)
      · exact .inr (.inr ⟨1, rfl, by norm_num⟩)
  · intro e he
    have : e ∈ [((1 : Int), (2 : Int), ([(.str "weight", .num .nan)] : Attrs (Val (XNum ℚ)))),
      (2, 3, [(.str "weight", .num (.fin 1))]), (3, 4, [(.str "weight", .num (.fin 9))])] := he
    simp only [List.mem_cons, List.not_mem_nil, or_false] at this
    rcases this with rfl | rfl | rfl <;> simp [EdgeKwSafe, Dict.keys]

/-- C90.  A NaN weight makes the scores depend on the labels: with the labels `2` and `3` of the inner nodes exchanged, the
middle edge has score NaN or 9/10. -/
theorem edgeDisparity_nan_labels :
    edgeDisparityX (nanChain .nan 2 3) "weight" false = .ok [((1, 2), .fin 1), ((2, 3), .nan), ((3, 4), .fin (1 / 10))] ∧
      edgeDisparityX (nanChain .nan 3 2) "weight" false =
        .ok [((1, 3), .fin 1), ((2, 3), .fin (9 / 10)), ((2, 4), .fin (1 / 10))] := by
  constructor <;> decide +kernel

/-- C90.  An infinite weight: its edge has score 1, the other edge at its end the score given by the other end. -/
theorem edgeDisparity_inf_sample :
    edgeDisparityX (nanChain (.inf false) 2 3) "weight" false =
        .ok [((1, 2), .fin 1), ((2, 3), .fin (9 / 10)), ((3, 4), .fin (1 / 10))] ∧
      edgeDisparityX (nanChain (.fin 1000) 2 3) "weight" false =
        .ok [((1, 2), .fin (1 / 1001)), ((2, 3), .fin (9 / 10)), ((3, 4), .fin (1 / 10))] := by
  constructor <;> decide +kernel

end Pelote
