import Verif.Props.Disparity
import Verif.Props.Sparsification
import Verif.Props.SpanningTrees

/-! Property C73: the unit in which weights are expressed. -/
namespace Pelote

section
variable {V K : Type} [LinearOrder V] [Field K] [LinearOrder K] {g g' : Graph V (Val K)}

theorem hasEdge_of_edges (h : g.WF) (h' : g'.WF) (hd : g'.directed = g.directed) (he : g'.edges = g.edges) (u v : V) :
    g'.hasEdge u v = g.hasEdge u v := by
  rw [Bool.eq_iff_iff, hasEdge_listed h, hasEdge_listed h', he, hd]

theorem degree_of_edges (h : g.WF) (h' : g'.WF) (he : g'.edges = g.edges) (n : V) : g'.degree n = g.degree n := by
  rw [Graph.degree_eq h, Graph.degree_eq h', he]

theorem nodeStrength_scale (he : g'.edges = g.edges) (c : K) (w : V → V → K) (n : V) :
    g'.nodeStrength (fun u v => c * w u v) n = c * g.nodeStrength w n := by
  unfold Graph.nodeStrength
  rw [he]
  induction g.edges with
  | nil => simp
  | cons e l ih =>
    simp only [List.map_cons, List.sum_cons, ih, mul_add, mul_ite, mul_zero]

theorem disparity_scale (h : g.WF) (h' : g'.WF) (he : g'.edges = g.edges) {c : K} (hc : c ≠ 0) (w : V → V → K) (u v : V) :
    g'.disparity (fun u v => c * w u v) u v = g.disparity w u v := by
  unfold Graph.disparity
  rw [nodeStrength_scale he, nodeStrength_scale he, degree_of_edges h h' he, degree_of_edges h h' he,
    mul_div_mul_left _ _ hc, mul_div_mul_left _ _ hc]

/-- C73.  Disparities do not depend on the unit of the weights. -/
theorem edgeDisparity_scale [IsStrictOrderedRing K] [PyOrd V] (ho : OrderedKeys V) (h : g.WF) (h' : g'.WF)
    (hd : g.directed = false) (hm : g.multi = false) (hd' : g'.directed = false) (hm' : g'.multi = false)
    (he : g'.edges = g.edges) {attr attr' : String} {w : V → V → K} (hsym : ∀ u v, w u v = w v u)
    (hw : g.Weighted attr w) {c : K} (hc : c ≠ 0) (hw' : g'.Weighted attr' (fun u v => c * w u v))
    (hS : ∀ u v, g.hasEdge u v = true → g.nodeStrength w u ≠ 0) (reverse : Bool) :
    ∃ d d', edgeDisparity g attr reverse = .ok d ∧ edgeDisparity g' attr' reverse = .ok d' ∧
      ∀ k, d'.get? k = d.get? k := by
  obtain ⟨d, h1, _, h2⟩ := edgeDisparity_exact ho h hd hm hsym hw hS reverse
  have hE := hasEdge_of_edges h h' (hd'.trans hd.symm) he
  obtain ⟨d', h1', _, h2'⟩ := edgeDisparity_exact ho h' hd' hm' (fun u v => by rw [hsym u v]) hw'
    (fun u v hu => by
      rw [nodeStrength_scale he]
      exact mul_ne_zero hc (hS u v (by rw [← hE]; exact hu))) reverse
  refine ⟨d, d', h1, h1', ?_⟩
  rintro ⟨u, v⟩
  apply Option.ext
  intro x
  rw [h2, h2', hE, disparity_scale h h' he hc]

end

section
variable {V K : Type} [DecidableEq V] [Field K] [LinearOrder K] [IsStrictOrderedRing K] {g g' : Graph V (Val K)}

omit [DecidableEq V] in
theorem finRange_congr {n m : Nat} (h : n = m) {p : Fin n → Bool} {q : Fin m → Bool} {f : Fin n → V × V}
    {f' : Fin m → V × V} (hp : ∀ (i : Fin n) (j : Fin m), i.val = j.val → p i = q j)
    (hf : ∀ (i : Fin n) (j : Fin m), i.val = j.val → f i = f' j) :
    ((List.finRange n).filter p).map f = ((List.finRange m).filter q).map f' := by
  subst h
  have h1 : p = q := funext (fun i => hp i i rfl)
  have h2 : f = f' := funext (fun i => hf i i rfl)
  rw [h1, h2]

/-- C73.  So do the maximum spanning trees, as long as neither unit brings different weights within `1e-8` of each other. -/
theorem unionOfMaximumSpanningTrees_scale {ulongMax : Nat} (hu : 2^32 - 1 ≤ ulongMax) (h : g.WF) (h' : g'.WF)
    {attr attr' : String} (he : g'.edges = g.edges) {c : K} (hc : 0 < c)
    {w : Fin g.edgesData.length → K} (hw : g.Weights attr w) (hsep : NoNearTies w) (hord : SafeOrder ulongMax g.order)
    {w' : Fin g'.edgesData.length → K} (hw' : g'.Weights attr' w') (hsep' : NoNearTies w')
    (hord' : SafeOrder ulongMax g'.order) (hscale : ∀ i j, i.val = j.val → w' i = c * w j) :
    (unionOfMaximumSpanningTrees ulongMax g attr).err = none ∧ (unionOfMaximumSpanningTrees ulongMax g' attr').err = none ∧
      ((unionOfMaximumSpanningTrees ulongMax g' attr').yields.map (fun e => (e.1, e.2.1))).Perm
        ((unionOfMaximumSpanningTrees ulongMax g attr).yields.map (fun e => (e.1, e.2.1))) := by
  classical
  obtain ⟨h1, h2⟩ := unionOfMaximumSpanningTrees_exact hu h hw hsep hord
  obtain ⟨h1', h2'⟩ := unionOfMaximumSpanningTrees_exact hu h' hw' hsep' hord'
  refine ⟨h1, h1', (h2'.map _).trans (List.Perm.trans ?_ (h2.map _).symm)⟩
  apply List.Perm.of_eq
  have hlen : g'.edgesData.length = g.edgesData.length := by
    have := congrArg List.length he
    rw [edges_eq_map, edges_eq_map, List.length_map, List.length_map] at this
    exact this
  have hends : ∀ (i : Fin g'.edgesData.length) (j : Fin g.edgesData.length), i.val = j.val → g'.endsAt i = g.endsAt j := by
    intro i j hij
    have e : ∀ k : Nat, (g'.edges)[k]? = (g.edges)[k]? := fun k => by rw [he]
    have := e j
    rw [edges_eq_map, edges_eq_map, List.getElem?_map, List.getElem?_map] at this
    have a1 : g'.edgesData[(j : Nat)]? = some g'.edgesData[i] := by
      rw [← hij]; exact List.getElem?_eq_getElem i.2
    have a2 : g.edgesData[(j : Nat)]? = some g.edgesData[j] := List.getElem?_eq_getElem j.2
    rw [a1, a2] at this
    exact Option.some.inj this
  have hmem : ∀ (i : Fin g'.edgesData.length) (j : Fin g.edgesData.length), i.val = j.val →
      ((∃ F, IsMaxSpanningForest g'.endsAt w' F ∧ i ∈ F) ↔ ∃ F, IsMaxSpanningForest g.endsAt w F ∧ j ∈ F) := by
    intro i j hij
    rw [mem_some_maxSpanningForest_iff, mem_some_maxSpanningForest_iff, hends i j hij]
    refine not_congr ?_
    have hrel : (fun a b => ∃ k ∈ {k | w' i < w' k}, g'.endsAt k = (a, b)) =
        fun a b => ∃ k ∈ {k | w j < w k}, g.endsAt k = (a, b) := by
      funext a b
      apply propext
      constructor
      · rintro ⟨k, hk, hab⟩
        have hkv : k.val = (Fin.cast hlen k).val := rfl
        refine ⟨Fin.cast hlen k, ?_, by rw [← hends k _ hkv]; exact hab⟩
        have : w' i < w' k := hk
        rw [hscale i j hij, hscale k _ hkv] at this
        exact lt_of_mul_lt_mul_left this hc.le
      · rintro ⟨k, hk, hab⟩
        have hkv : (Fin.cast hlen.symm k).val = k.val := rfl
        refine ⟨Fin.cast hlen.symm k, ?_, by rw [hends _ k hkv]; exact hab⟩
        show w' i < w' _
        rw [hscale i j hij, hscale _ k hkv]
        exact mul_lt_mul_of_pos_left hk hc
    unfold LinkedBy
    rw [hrel]
  rw [List.map_map, List.map_map]
  exact finRange_congr hlen (fun i j hij => decide_eq_decide.2 (hmem i j hij)) hends

/-- Both graphs have maximum spanning trees, made of the same pairs. -/
def SameTrees (ulongMax : Nat) (g g' : Graph V (Val K)) : Prop :=
  (unionOfMaximumSpanningTrees ulongMax g "weight").err = none ∧ (unionOfMaximumSpanningTrees ulongMax g' "weight").err = none ∧
    ((unionOfMaximumSpanningTrees ulongMax g' "weight").yields.map (fun e => (e.1, e.2.1))).Perm
      ((unionOfMaximumSpanningTrees ulongMax g "weight").yields.map (fun e => (e.1, e.2.1)))

theorem SameTrees.mem {ulongMax : Nat} (h : SameTrees ulongMax g g') (u v : V) :
    (∃ b, (u, v, b) ∈ (unionOfMaximumSpanningTrees ulongMax g' "weight").yields) ↔
      ∃ b, (u, v, b) ∈ (unionOfMaximumSpanningTrees ulongMax g "weight").yields := by
  have := h.2.2.mem_iff (a := (u, v))
  simpa only [List.mem_map, Prod.exists, Prod.mk.injEq, exists_and_right, exists_eq_right_right, exists_eq_right] using this

theorem SameTrees.keep {ulongMax : Nat} {keepConnected : Bool} (h : keepConnected = true → SameTrees ulongMax g g') (u v : V) :
    (keepConnected = true ∧ ∃ b, (u, v, b) ∈ (unionOfMaximumSpanningTrees ulongMax g' "weight").yields) ↔
      (keepConnected = true ∧ ∃ b, (u, v, b) ∈ (unionOfMaximumSpanningTrees ulongMax g "weight").yields) :=
  and_congr_right (fun hk => (h hk).mem u v)

/-- The same weights in two units, for the spanning trees of `keep_connected`, which read the attribute `"weight"`: no two
different weights within `1e-8` of each other, in either unit. -/
structure SameWeights (ulongMax : Nat) (g g' : Graph V (Val K)) (k : K) : Prop where
  ulong : 2^32 - 1 ≤ ulongMax
  pos : 0 < k
  weights : ∃ (w : Fin g.edgesData.length → K) (w' : Fin g'.edgesData.length → K), g.Weights "weight" w ∧
    g'.Weights "weight" w' ∧ NoNearTies w ∧ NoNearTies w' ∧ ∀ i j, i.val = j.val → w' i = k * w j
  order : SafeOrder ulongMax g.order
  order' : SafeOrder ulongMax g'.order

theorem SameWeights.trees {ulongMax : Nat} {k : K} (hs : SameWeights ulongMax g g' k) (h : g.WF) (h' : g'.WF)
    (he : g'.edges = g.edges) : SameTrees ulongMax g g' := by
  obtain ⟨w, w', h1, h2, h3, h4, h5⟩ := hs.weights
  exact unionOfMaximumSpanningTrees_scale hs.ulong h h' he hs.pos h1 h3 hs.order h2 h4 hs.order' h5

theorem globalThreshold_scale_of [PyOrd V] [AttrVal (Val K)] (ulongMax : Nat) (h : g.WF) (h' : g'.WF)
    {attr attr' : String} {c : K} (hc : 0 < c)
    (hs : List.Forall₂ (fun e e' => (e'.1, e'.2.1) = (e.1, e.2.1) ∧ ∃ w, HasNumber attr e.2.2 w ∧ HasNumber attr' e'.2.2 (c * w))
      g.edgesData g'.edgesData) (t : K) (reverse : Bool)
    {keepConnected : Bool} (hk : keepConnected = true → SameTrees ulongMax g g')
    (hkw : ∀ e ∈ g.edgesData, Graph.EdgeKwSafe g.multi e.2.2) (hkw' : ∀ e ∈ g'.edgesData, Graph.EdgeKwSafe g'.multi e.2.2) :
    ∃ b b', globalThresholdSparsification ulongMax g t attr reverse keepConnected = .ok b ∧
      globalThresholdSparsification ulongMax g' (c * t) attr' reverse keepConnected = .ok b' ∧ b'.edges = b.edges := by
  classical
  have hn : ∀ e ∈ g.edgesData, ∃ w, HasNumber attr e.2.2 w := by
    intro e he
    obtain ⟨i, hi, rfl⟩ := List.getElem_of_mem he
    obtain ⟨_, w, hw, _⟩ := List.Forall₂.get hs hi (hs.length_eq ▸ hi)
    exact ⟨w, hw⟩
  have hn' : ∀ e ∈ g'.edgesData, ∃ w, HasNumber attr' e.2.2 w := by
    intro e he
    obtain ⟨i, hi, rfl⟩ := List.getElem_of_mem he
    obtain ⟨_, w, _, hw⟩ := List.Forall₂.get hs (hs.length_eq.symm ▸ hi) hi
    exact ⟨_, hw⟩
  obtain ⟨b, h1, -, -, -, -, -, h2⟩ := globalThreshold_exact ulongMax h t reverse keepConnected hn (fun e => (hk e).1) hkw
  obtain ⟨b', h1', -, -, -, -, -, h2'⟩ := globalThreshold_exact ulongMax h' (c * t) reverse keepConnected hn' (fun e => (hk e).2.1) hkw'
  refine ⟨b, b', h1, h1', ?_⟩
  rw [edges_eq_map, edges_eq_map, h2, h2']
  simp only [SameTrees.keep hk]
  clear h2 h2' hn hn' hkw hkw' h1 h1'
  generalize g.edgesData = l, g'.edgesData = l' at hs ⊢
  induction hs with
  | nil => rfl
  | @cons e e' l l' hr hs ih =>
    obtain ⟨hends, w, hw, hw'⟩ := hr
    have e1 : Reaches t attr reverse e.2.2 ↔ Reaches (c * t) attr' reverse e'.2.2 := by
      have key : (if reverse then w ≤ t else t ≤ w) ↔ if reverse then c * w ≤ c * t else c * t ≤ c * w := by
        cases reverse <;> simp [hc]
      constructor
      · rintro ⟨x, hx, hr⟩
        rw [hx.unique hw] at hr
        exact ⟨_, hw', key.1 hr⟩
      · rintro ⟨x, hx, hr⟩
        rw [hx.unique hw'] at hr
        exact ⟨_, hw, key.2 hr⟩
    have e2 := Prod.mk.inj hends
    simp only [List.filter_cons, e1, e2.1, e2.2]
    split
    · simp only [List.map_cons, ih, hends]
    · exact ih

/-- C73.  The threshold follows the unit of the weights. -/
theorem globalThreshold_scale [PyOrd V] [AttrVal (Val K)] (ulongMax : Nat) (h : g.WF) (h' : g'.WF)
    {attr attr' : String} {c : K} (hc : 0 < c)
    (hs : List.Forall₂ (fun e e' => (e'.1, e'.2.1) = (e.1, e.2.1) ∧ ∃ w, HasNumber attr e.2.2 w ∧ HasNumber attr' e'.2.2 (c * w))
      g.edgesData g'.edgesData) (t : K) (reverse : Bool)
    (hkw : ∀ e ∈ g.edgesData, Graph.EdgeKwSafe g.multi e.2.2) (hkw' : ∀ e ∈ g'.edgesData, Graph.EdgeKwSafe g'.multi e.2.2) :
    ∃ b b', globalThresholdSparsification ulongMax g t attr reverse false = .ok b ∧
      globalThresholdSparsification ulongMax g' (c * t) attr' reverse false = .ok b' ∧ b'.edges = b.edges :=
  globalThreshold_scale_of ulongMax h h' hc hs t reverse (by simp) hkw hkw'

/-- C73.  With `keep_connected` as well, when the spanning trees see the same weights. -/
theorem globalThreshold_scale_connected [PyOrd V] [AttrVal (Val K)] (ulongMax : Nat) (h : g.WF) (h' : g'.WF)
    {attr attr' : String} {c : K} (hc : 0 < c)
    (hs : List.Forall₂ (fun e e' => (e'.1, e'.2.1) = (e.1, e.2.1) ∧ ∃ w, HasNumber attr e.2.2 w ∧ HasNumber attr' e'.2.2 (c * w))
      g.edgesData g'.edgesData) (t : K) (reverse : Bool)
    {k : K} (hk : SameWeights ulongMax g g' k)
    (hkw : ∀ e ∈ g.edgesData, Graph.EdgeKwSafe g.multi e.2.2) (hkw' : ∀ e ∈ g'.edgesData, Graph.EdgeKwSafe g'.multi e.2.2) :
    ∃ b b', globalThresholdSparsification ulongMax g t attr reverse true = .ok b ∧
      globalThresholdSparsification ulongMax g' (c * t) attr' reverse true = .ok b' ∧ b'.edges = b.edges := by
  refine globalThreshold_scale_of ulongMax h h' hc hs t reverse (fun _ => hk.trees h h' ?_) hkw hkw'
  rw [edges_eq_map, edges_eq_map]
  clear hkw hkw' hk
  generalize g.edgesData = l, g'.edgesData = l' at hs
  induction hs with
  | nil => rfl
  | cons hr _ ih => rw [List.map_cons, List.map_cons, ih, hr.1]

end

section
variable {V K : Type} [LinearOrder V] [Field K] [LinearOrder K] {g g' : Graph V (Val K)}

theorem multiscaleBackbone_scale_of [IsStrictOrderedRing K] [PyOrd V] [AttrVal (Val K)] (ulongMax : Nat) (ho : OrderedKeys V)
    (h : g.WF) (h' : g'.WF)
    (hd : g.directed = false) (hm : g.multi = false) (hd' : g'.directed = false) (hm' : g'.multi = false)
    (he : g'.edges = g.edges) {attr attr' : String} {w : V → V → K} (hsym : ∀ u v, w u v = w v u)
    (hpos : ∀ u v, g.hasEdge u v = true → 0 < w u v)
    (hw : g.Weighted attr w) {c : K} (hc : 0 < c) (hw' : g'.Weighted attr' (fun u v => c * w u v)) (alpha : K)
    {keepConnected : Bool} (hk : keepConnected = true → SameTrees ulongMax g g')
    (hkw : ∀ e ∈ g.edgesData, Graph.EdgeKwSafe g.multi e.2.2) (hkw' : ∀ e ∈ g'.edgesData, Graph.EdgeKwSafe g'.multi e.2.2) :
    ∃ b b', multiscaleBackbone ulongMax g alpha attr keepConnected = .ok b ∧
      multiscaleBackbone ulongMax g' alpha attr' keepConnected = .ok b' ∧ b'.edges = b.edges := by
  classical
  have hE := hasEdge_of_edges h h' (hd'.trans hd.symm) he
  obtain ⟨b, h1, -, -, -, -, -, h2⟩ := multiscaleBackbone_exact ulongMax ho h hd hm hsym hw hpos alpha keepConnected (fun e => (hk e).1) hkw
  obtain ⟨b', h1', -, -, -, -, -, h2'⟩ := multiscaleBackbone_exact ulongMax ho h' hd' hm' (fun u v => by rw [hsym u v]) hw'
    (fun u v hu => mul_pos hc (hpos u v (by rw [← hE]; exact hu))) alpha keepConnected (fun e => (hk e).2.1) hkw'
  refine ⟨b, b', h1, h1', ?_⟩
  rw [edges_eq_map] at he ⊢
  rw [edges_eq_map] at he ⊢
  rw [h2, h2']
  have key : ∀ (l : List (V × V × Attrs (Val K))) (p : V × V → Bool),
      (l.filter (fun e => p (e.1, e.2.1))).map (fun e => (e.1, e.2.1)) =
        (l.map (fun e => (e.1, e.2.1))).filter p := by
    intro l p
    rw [List.filter_map]
    rfl
  have k1 := key g.edgesData (fun e => decide (g.disparity w e.1 e.2 ≤ alpha ∨ keepConnected = true ∧
    ∃ b, (e.1, e.2, b) ∈ (unionOfMaximumSpanningTrees ulongMax g "weight").yields))
  have k2 := key g'.edgesData (fun e => decide (g'.disparity (fun u v => c * w u v) e.1 e.2 ≤ alpha ∨ keepConnected = true ∧
    ∃ b, (e.1, e.2, b) ∈ (unionOfMaximumSpanningTrees ulongMax g "weight").yields))
  simp only [SameTrees.keep hk]
  refine k2.trans (Eq.trans ?_ k1.symm)
  rw [he]
  simp only [disparity_scale h h' (by rw [edges_eq_map, edges_eq_map]; exact he) hc.ne']

/-- C73.  Nor does the multiscale backbone without `keep_connected`. -/
theorem multiscaleBackbone_scale [IsStrictOrderedRing K] [PyOrd V] [AttrVal (Val K)] (ulongMax : Nat) (ho : OrderedKeys V)
    (h : g.WF) (h' : g'.WF)
    (hd : g.directed = false) (hm : g.multi = false) (hd' : g'.directed = false) (hm' : g'.multi = false)
    (he : g'.edges = g.edges) {attr attr' : String} {w : V → V → K} (hsym : ∀ u v, w u v = w v u)
    (hpos : ∀ u v, g.hasEdge u v = true → 0 < w u v)
    (hw : g.Weighted attr w) {c : K} (hc : 0 < c) (hw' : g'.Weighted attr' (fun u v => c * w u v)) (alpha : K)
    (hkw : ∀ e ∈ g.edgesData, Graph.EdgeKwSafe g.multi e.2.2) (hkw' : ∀ e ∈ g'.edgesData, Graph.EdgeKwSafe g'.multi e.2.2) :
    ∃ b b', multiscaleBackbone ulongMax g alpha attr false = .ok b ∧
      multiscaleBackbone ulongMax g' alpha attr' false = .ok b' ∧ b'.edges = b.edges :=
  multiscaleBackbone_scale_of ulongMax ho h h' hd hm hd' hm' he hsym hpos hw hc hw' alpha (by simp) hkw hkw'

/-- C73.  With `keep_connected` as well, when the spanning trees see the same weights. -/
theorem multiscaleBackbone_scale_connected [IsStrictOrderedRing K] [PyOrd V] [AttrVal (Val K)] (ulongMax : Nat) (ho : OrderedKeys V)
    (h : g.WF) (h' : g'.WF)
    (hd : g.directed = false) (hm : g.multi = false) (hd' : g'.directed = false) (hm' : g'.multi = false)
    (he : g'.edges = g.edges) {attr attr' : String} {w : V → V → K} (hsym : ∀ u v, w u v = w v u)
    (hpos : ∀ u v, g.hasEdge u v = true → 0 < w u v)
    (hw : g.Weighted attr w) {c : K} (hc : 0 < c) (hw' : g'.Weighted attr' (fun u v => c * w u v)) (alpha : K)
    {k : K} (hk : SameWeights ulongMax g g' k)
    (hkw : ∀ e ∈ g.edgesData, Graph.EdgeKwSafe g.multi e.2.2) (hkw' : ∀ e ∈ g'.edgesData, Graph.EdgeKwSafe g'.multi e.2.2) :
    ∃ b b', multiscaleBackbone ulongMax g alpha attr true = .ok b ∧
      multiscaleBackbone ulongMax g' alpha attr' true = .ok b' ∧ b'.edges = b.edges :=
  multiscaleBackbone_scale_of ulongMax ho h h' hd hm hd' hm' he hsym hpos hw hc hw' alpha (fun _ => hk.trees h h' he) hkw hkw'

end

/-- The triangle with weights 1, 2 and 3, in units of `1 / k`. -/
def unitTriangle (k : ℚ) : Graph Int (Val ℚ) :=
  ⟨false, false, [], [(1, []), (2, []), (3, [])],
    [⟨1, 2, [(.int 0, [(.str "weight", .num (1 / k))])]⟩, ⟨2, 3, [(.int 0, [(.str "weight", .num (2 / k))])]⟩,
     ⟨1, 3, [(.int 0, [(.str "weight", .num (3 / k))])]⟩]⟩

/-- C73 is false of maximum spanning trees in a large unit: in billionths, weights 1, 2 and 3 are deemed equal, so that every
edge is yielded. -/
theorem unionOfMaximumSpanningTrees_unit :
    (unitTriangle 1).WF ∧ (unitTriangle (10 ^ 9)).WF ∧ (unitTriangle (10 ^ 9)).edges = (unitTriangle 1).edges ∧
      (unionOfMaximumSpanningTrees (2^64-1) (unitTriangle 1) "weight").yields.map (fun e => (e.1, e.2.1)) =
        [(1, 3), (2, 3)] ∧
      (unionOfMaximumSpanningTrees (2^64-1) (unitTriangle (10 ^ 9)) "weight").yields.map (fun e => (e.1, e.2.1)) =
        [(1, 3), (2, 3), (1, 2)] := by
  refine ⟨by constructor <;> decide, by constructor <;> decide, by decide +kernel, by decide +kernel, by decide +kernel⟩

/-- The same triangle in halves: `edgeDisparity_scale` applies with `c = 2`, and the scores are indeed the same. -/
theorem edgeDisparity_scale_sample :
    (unitTriangle (1 / 2)).WF ∧ (unitTriangle (1 / 2)).edges = (unitTriangle 1).edges ∧
      (unitTriangle 1).Weighted "weight" (fun u v => if u + v = 3 then 1 else if u + v = 5 then 2 else 3) ∧
      (unitTriangle (1 / 2)).Weighted "weight" (fun u v => 2 * if u + v = 3 then 1 else if u + v = 5 then 2 else 3) ∧
      edgeDisparity (unitTriangle 1) "weight" false = .ok [((1, 2), 2 / 3), ((1, 3), 1 / 4), ((2, 3), 1 / 3)] ∧
      edgeDisparity (unitTriangle (1 / 2)) "weight" false = .ok [((1, 2), 2 / 3), ((1, 3), 1 / 4), ((2, 3), 1 / 3)] := by
  refine ⟨by constructor <;> decide, by decide +kernel, ?_, ?_, by decide +kernel, by decide +kernel⟩
  · intro e he
    have hl : (unitTriangle 1).edgesData = [(1, 2, [(.str "weight", .num 1)]), (1, 3, [(.str "weight", .num 3)]),
      (2, 3, [(.str "weight", .num 2)])] := by decide +kernel
    rw [hl] at he
    simp only [List.mem_cons, List.not_mem_nil, or_false] at he
    rcases he with rfl | rfl | rfl <;> exact ⟨_, rfl, by decide +kernel⟩
  · intro e he
    have hl : (unitTriangle (1 / 2)).edgesData = [(1, 2, [(.str "weight", .num 2)]), (1, 3, [(.str "weight", .num 6)]),
      (2, 3, [(.str "weight", .num 4)])] := by decide +kernel
    rw [hl] at he
    simp only [List.mem_cons, List.not_mem_nil, or_false] at he
    rcases he with rfl | rfl | rfl <;> exact ⟨_, rfl, by decide +kernel⟩

/-- The triangle in wholes and in halves meets the hypothesis of the `keep_connected` theorems, and with a threshold no edge
reaches the same two edges are kept. -/
theorem sameWeights_sample :
    SameWeights (2^64-1) (unitTriangle 1) (unitTriangle (1 / 2)) 2 ∧
      (globalThresholdSparsification (2^64-1) (unitTriangle 1) 10 "weight" false true).map (·.edges) =
        .ok [(1, 3), (2, 3)] ∧
      (globalThresholdSparsification (2^64-1) (unitTriangle (1 / 2)) 20 "weight" false true).map (·.edges) =
        .ok [(1, 3), (2, 3)] := by
  have hw : ∀ k : ℚ, ∀ l, (unitTriangle k).edgesData = l → (l.map (fun e => Dict.get? e.2.2 (.str "weight"))) =
      [some (.num (1 / k)), some (.num (3 / k)), some (.num (2 / k))] →
      (unitTriangle k).Weights "weight" (fun i => if i.val = 0 then 1 / k else if i.val = 1 then 3 / k else 2 / k) := by
    rintro k l rfl hl ⟨i, hi⟩
    have h3 : (unitTriangle k).edgesData.length = 3 := by
      have := congrArg List.length hl
      rwa [List.length_map] at this
    have hg : Dict.get? (unitTriangle k).edgesData[i].2.2 (.str "weight") =
        ((unitTriangle k).edgesData.map (fun e => Dict.get? e.2.2 (.str "weight")))[i]'(by rwa [List.length_map]) := by
      rw [List.getElem_map]
    simp only [hl] at hg
    have hi' : i < 3 := h3 ▸ hi
    refine .inr (.inl (hg.trans ?_))
    obtain rfl | rfl | rfl : i = 0 ∨ i = 1 ∨ i = 2 := by omega
    all_goals rfl
  have hn : ∀ k : ℚ, (k = 1 ∨ k = 1 / 2) → NoNearTies (ι := Fin (unitTriangle k).edgesData.length)
      (fun i => if i.val = 0 then 1 / k else if i.val = 1 then 3 / k else 2 / k) := by
    rintro k hk i j
    dsimp only
    rcases hk with rfl | rfl <;> split_ifs <;> norm_num [abs]
  refine ⟨⟨by norm_num, by norm_num, ⟨_, _, hw 1 _ rfl (by decide +kernel), hw (1 / 2) _ rfl (by decide +kernel),
    hn 1 (.inl rfl), hn _ (.inr rfl), ?_⟩, by unfold SafeOrder; decide, by unfold SafeOrder; decide⟩, by decide +kernel,
    by decide +kernel⟩
  intro i j hij
  rw [hij]
  split_ifs <;> norm_num

/-- C73 is false with `keep_connected` too: in billionths the third edge is kept. -/
theorem globalThreshold_unit :
    (globalThresholdSparsification (2^64-1) (unitTriangle 1) 10 "weight" false true).map (·.edges) = .ok [(1, 3), (2, 3)] ∧
      (globalThresholdSparsification (2^64-1) (unitTriangle (10 ^ 9)) (10 / 10 ^ 9) "weight" false true).map (·.edges) =
        .ok [(1, 2), (1, 3), (2, 3)] := by
  refine ⟨by decide +kernel, by decide +kernel⟩

end Pelote
