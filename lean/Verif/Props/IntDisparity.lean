import Verif.Model.IntWeights
import Verif.Spec.IntWeights
import Verif.Props.PowerOfTwo
import Verif.Props.Overflow

/-! C112: edge disparities and the multiscale backbone of integer weights. -/
set_option linter.unusedSectionVars false
namespace Pelote
open Graph

section
variable {V K : Type} [LinearOrder V] [Field K] [LinearOrder K] [IsStrictOrderedRing K] [FloorRing K]

theorem strengthN_int {g : Graph V (Val K)} (h : g.WF) (hd : g.directed = false) {w : V → V → K} (hsym : ∀ u v, w u v = w v u)
    (pow : K → Nat → K) (n : V) : g.strengthN (intOps pow) w n = g.nodeStrength w n := by
  rw [← roundedStrength_id h hd hsym n]
  exact (strengthN_ops Arith.exact g w n)

theorem intDiv_unit {a b : K} (ha : 0 < a) (hb : a ≤ b) : intDiv a b = .ok (round64 (a / b)) := by
  have hb0 : 0 < b := ha.trans_le hb
  have h0 : 0 ≤ a / b := (div_pos ha hb0).le
  have h1 : a / b ≤ 1 := (div_le_one hb0).2 hb
  have h2 : |round64 (a / b)| < 2 ^ 1024 := by
    refine (abs_round64_le' (M := 1) ⟨1, 0, by norm_num, by norm_num, by simp⟩ ?_).trans_lt one_lt_top
    rwa [abs_of_nonneg h0]
  unfold intDiv pyDiv
  rw [if_neg hb0.ne']
  simp only [h2, if_true]

/-- C112.  On a simple undirected graph whose edges carry positive integers as weights, of any size, `edge_disparity` never raises,
gives exactly one score to every edge, under the ordered pair of its ends, and this score is the documented formula with the exact
strengths of the ends; it is between 0 and 1, reversed or not. -/
theorem edgeDisparity_int [PyOrd V] (ho : OrderedKeys V) {g : Graph V (Val K)} (h : g.WF) (hd : g.directed = false)
    (hm : g.multi = false) {attr : String} {z : V → V → ℤ} (hsym : ∀ u v, z u v = z v u)
    (hw : g.Weighted attr (fun u v => (z u v : K))) (hpos : ∀ u v, g.hasEdge u v = true → 0 < z u v)
    {pow : K → Nat → K} (hp : UnitPow pow) (reverse : Bool) :
    ∃ d, edgeDisparityN (intOps pow) g attr reverse = .ok d ∧ d.keys.Nodup ∧
      (∀ u v x, d.get? (u, v) = some x ↔
        u ≤ v ∧ g.hasEdge u v = true ∧ x = g.quotientDisparity round64 pow reverse (fun u v => (z u v : K)) u v) ∧
      ∀ k x, d.get? k = some x → 0 ≤ x ∧ x ≤ 1 := by
  have hsym' : ∀ u v, (z u v : K) = (z v u : K) := fun u v => by rw [hsym]
  have hpos' : ∀ u v, g.hasEdge u v = true → (0 : K) < z u v := fun u v he => by exact_mod_cast hpos u v he
  have hle : ∀ u v, g.hasEdge u v = true → (z u v : K) ≤ g.nodeStrength (fun u v => (z u v : K)) u := fun u v he =>
    weight_le_nodeStrength h hsym' (fun u v he => (hpos' u v he).le) he
  have hle' : ∀ u v, g.hasEdge u v = true → (z u v : K) ≤ g.nodeStrength (fun u v => (z u v : K)) v := by
    intro u v he
    have := hle v u (by rwa [Graph.hasEdge_comm hd])
    rwa [hsym' v u] at this
  obtain ⟨d, h1, h2, h3⟩ := edgeDisparityN_exact (intOps pow) ho h hd hm hsym' hw reverse
    (f := g.quotientDisparity round64 pow reverse (fun u v => (z u v : K))) (by
      intro u v x he hx
      simp only [disparityScore, hx, strengthN_int h hd hsym']
      simp only [intOps]
      rw [intDiv_unit (hpos' u v he) (hle u v he), intDiv_unit (hpos' u v he) (hle' u v he)]
      unfold Graph.quotientDisparity sideScore
      cases reverse <;> rfl)
  refine ⟨d, h1, h2, h3, ?_⟩
  rintro ⟨u, v⟩ x hx
  obtain ⟨_, he, rfl⟩ := (h3 u v x).1 hx
  obtain ⟨a1, a2⟩ := sideScore_range round64_rounding hp (hpos' u v he) (hle u v he) (g.degree u)
  obtain ⟨b1, b2⟩ := sideScore_range round64_rounding hp (hpos' u v he) (hle' u v he) (g.degree v)
  have hr := round64_rounding (K := K)
  unfold Graph.quotientDisparity
  cases reverse
  · exact ⟨le_min a1 b1, (min_le_left _ _).trans a2⟩
  · simp only [if_true]
    have a3 := sub_nonneg.2 a2
    have b3 := sub_nonneg.2 b2
    exact ⟨(hr.nonneg a3).trans (le_max_left _ _),
      max_le (hr.le_one a3 (sub_le_self _ a1)) (hr.le_one b3 (sub_le_self _ b1))⟩

/-- Integers can be expressed in any unit, although quotients are rounded. -/
theorem int_homogeneous {c : K} (hc : c ≠ 0) (pow : K → Nat → K) (P : K → Prop) (h0 : P 0) (ha : ∀ a b, P a → P b → P (a + b)) :
    (intOps pow).Homogeneous P c where
  add a b h1 h2 := ⟨by simp [intOps, mul_add], ha a b h1 h2⟩
  sum l hl := by
    have : ∀ (l : List K), (∀ x ∈ l, P x) → ∀ s : K, P s →
        (l.map (c * ·)).foldl (fun s x => s + x) (c * s) = c * l.foldl (fun s x => s + x) s ∧ P (l.foldl (fun s x => s + x) s) := by
      intro l
      induction l with
      | nil => intro _ s hs; exact ⟨rfl, hs⟩
      | cons x l ih =>
        intro hl s hs
        simp only [List.map_cons, List.foldl_cons]
        rw [← mul_add]
        exact ih (fun y hy => hl y (by simp [hy])) _ (ha s x hs (hl x (by simp)))
    simpa [intOps] using this l hl 0 h0
  div a b := by simp only [intOps, intDiv]; rw [pyDiv_scale hc]

/-- A number that is an integer. -/
def IsInt (x : K) : Prop := ∃ i : ℤ, x = i

theorem int_unit {c : ℤ} (hc : c ≠ 0) (pow : K → Nat → K) : (intOps pow).Homogeneous (IsInt (K := K)) c :=
  int_homogeneous (by exact_mod_cast hc) pow _ ⟨0, by simp⟩ (by rintro _ _ ⟨i, rfl⟩ ⟨j, rfl⟩; exact ⟨i + j, by push_cast; rfl⟩)

/-- C112.  Multiplying integer weights by an integer other than 0 does not change the scores at all, exceptions included. -/
theorem edgeDisparity_int_scale [PyOrd V] {g g' : Graph V (Val K)} {attr : String} {c : ℤ} (hc : c ≠ 0)
    (h : Rescaled attr IsInt (c : K) g g') (pow : K → Nat → K) (reverse : Bool) :
    edgeDisparityN (intOps pow) g' attr reverse = edgeDisparityN (intOps pow) g attr reverse :=
  edgeDisparityN_rescaled (int_unit hc pow) h reverse

/-- C112.  Nor does it change the backbone, nor the edges it finds relevant (`want = true`) or redundant (`want = false`), but for
the weights themselves. -/
theorem multiscaleBackbone_int_scale [PyOrd V] [AttrVal (Val K)] {g g' : Graph V (Val K)} {attr : String} {c : ℤ} (hc : c ≠ 0)
    (h : Rescaled attr IsInt (c : K) g g') (pow : K → Nat → K) (ulongMax : Nat) (alpha : K) :
    RescaledResult attr IsInt (c : K) (multiscaleBackboneN (intOps pow) ulongMax g alpha attr false)
      (multiscaleBackboneN (intOps pow) ulongMax g' alpha attr false) ∧
    ∀ want, RescaledGen attr IsInt (c : K) (defaultGenerator want (backboneFactoryN (intOps pow) alpha attr) g)
      (defaultGenerator want (backboneFactoryN (intOps pow) alpha attr) g') :=
  ⟨multiscaleBackboneN_rescaled (int_unit hc pow) h ulongMax alpha, fun want => backboneGenerator_rescaled (int_unit hc pow) h alpha want⟩

end

/-! ### Cases -/

/-- C112.  The same weights give another backbone as integers than as floats: the sum of the weights `2 ** 53`, 1 and 1 is not a float,
and the heaviest edge only has a score of 0 when they are floats. -/
theorem int_or_float :
    (edgeDisparityN (intOps arith64.pow) heavyFirst "weight" false).map (fun d => (d.get? (0, 1)).map (fun x => decide (0 < x))) =
      .ok (some true) ∧
    (edgeDisparityA arith64 heavyFirst "weight" false).map (fun d => d.get? (0, 1)) = .ok (some 0) ∧
    (multiscaleBackboneN (intOps arith64.pow) (2^64-1) heavyFirst 0 "weight" false).map (·.edges) = .ok [] ∧
    (multiscaleBackboneA arith64 (2^64-1) heavyFirst 0 "weight" false).map (·.edges) = .ok [(0, 1)] := by
  refine ⟨?_, ?_, ?_, ?_⟩ <;> decide +kernel

/-- The hypothesis of the theorems on units holds of this star, in a unit three times smaller. -/
example : Rescaled "weight" IsInt ((3 : ℤ) : ℚ) heavyFirst (heavyTimes 3) := by
  have h1 : IsInt (1 : ℚ) := ⟨1, by norm_num⟩
  have h2 : IsInt ((2 : ℚ) ^ 53) := ⟨2 ^ 53, by norm_num⟩
  have key : ∀ x : ℚ, IsInt x → List.Forall₂ (fun d d' : PyKey × Attrs (Val ℚ) => d'.1 = d.1 ∧
      RescaledAttrs "weight" IsInt ((3 : ℤ) : ℚ) d.2 d'.2) [(.int 0, [(.str "weight", .num x)])]
      [(.int 0, [(.str "weight", .num (3 * x))])] := fun x hx =>
    .cons ⟨rfl, by simp [Dict.keys], .cons ⟨rfl, by rw [if_pos rfl]; exact ⟨x, hx, rfl, rfl⟩⟩ .nil⟩ .nil
  exact ⟨rfl, rfl, rfl, rfl, .cons ⟨rfl, rfl, key _ h2⟩ (.cons ⟨rfl, rfl, key _ h1⟩ (.cons ⟨rfl, rfl, key _ h1⟩ .nil))⟩

/-- A path whose weights are too large for floats. -/
def hugePath : Graph Int (Val ℚ) :=
  ⟨false, false, [], [(1, []), (2, []), (3, [])],
    [⟨1, 2, [(.int 0, [(.str "weight", .num (3 * 10 ^ 400))])]⟩, ⟨3, 2, [(.int 0, [(.str "weight", .num (10 ^ 400))])]⟩]⟩

/-- Its weights. -/
def hugeWeights (u v : Int) : ℤ := if u = 3 ∨ v = 3 then 10 ^ 400 else 3 * 10 ^ 400

/-- The hypotheses of `edgeDisparity_int` hold of this path, whose scores are 1/4 and 3/4. -/
theorem hugePath_meets : hugePath.WF ∧ hugePath.Weighted "weight" (fun u v => (hugeWeights u v : ℚ)) ∧
    (∀ u v, hugeWeights u v = hugeWeights v u) ∧ (∀ u v, hugePath.hasEdge u v = true → 0 < hugeWeights u v) ∧
    UnitPow (fun (x : ℚ) n => x ^ n) ∧
    edgeDisparityN (intOps (fun (x : ℚ) n => x ^ n)) hugePath "weight" false = .ok [((1, 2), 1 / 4), ((2, 3), 3 / 4)] := by
  refine ⟨by constructor <;> decide, ?_, ?_, ?_, fun x n h0 h1 => ⟨pow_nonneg h0 n, pow_le_one₀ h0 h1⟩, by decide +kernel⟩
  · intro e he
    have : e ∈ [((1 : Int), (2 : Int), ([(.str "weight", .num (3 * 10 ^ 400))] : Attrs (Val ℚ))),
      (2, 3, [(.str "weight", .num (10 ^ 400))])] := he
    simp only [List.mem_cons, List.not_mem_nil, or_false] at this
    rcases this with rfl | rfl
    · exact ⟨.num (3 * 10 ^ 400), rfl, by simp [Val.toNum, hugeWeights]⟩
    · exact ⟨.num (10 ^ 400), rfl, by simp [Val.toNum, hugeWeights]⟩
  · intro u v; unfold hugeWeights; simp only [or_comm]
  · intro u v _; unfold hugeWeights; split <;> positivity

end Pelote
