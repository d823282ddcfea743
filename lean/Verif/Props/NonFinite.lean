import Verif.Model.NonFinite
import Verif.Spec.NonFinite
import Verif.Props.Sparsification
import Mathlib.Data.List.Perm.Basic
import Mathlib.Data.List.Forall2
import Mathlib.Tactic.FinCases
import Mathlib.Tactic.NormNum

/-! C89: infinite and NaN weights. -/
set_option linter.unusedSectionVars false
namespace Pelote
open Graph
open scoped List
variable {V K : Type} [DecidableEq V] [Field K] [LinearOrder K]

section loop
variable {A : Type} {nodes : List V} {m : Nat} {ds : DisjointSet V} {pairs : List (V × V)}

/-- The buckets: the rest of the edges, given the head weight and contents of the current one. -/
def splitBucketsX (rnd : K → XNum K) (c : XNum K) (cur : List ((V × V × A) × XNum K)) :
    List ((V × V × A) × XNum K) → List (List ((V × V × A) × XNum K))
  | [] => [cur]
  | x :: rest => if changesBucketX rnd c x.2 = true then cur :: splitBucketsX rnd x.2 [x] rest
    else splitBucketsX rnd c (cur ++ [x]) rest

theorem flatten_splitBucketsX (rnd : K → XNum K) (c : XNum K) (cur rest : List ((V × V × A) × XNum K)) :
    (splitBucketsX rnd c cur rest).flatten = cur ++ rest := by
  induction rest generalizing c cur with
  | nil => simp [splitBucketsX]
  | cons x rest ih =>
    unfold splitBucketsX
    split
    · simp [ih]
    · simp [ih]

theorem linked_flushed {P cur : List ((V × V × A) × XNum K)}
    (hP : ∀ x y, Linked pairs x y ↔ Linked (P.map wpair) x y) (x y : V) :
    Linked ((((newEdges P cur).map Prod.fst).map epair).reverse ++ pairs) x y ↔ Linked ((P ++ cur).map wpair) x y := by
  rw [← linked_newEdges, List.map_append]
  have : Linked ((((newEdges P cur).map Prod.fst).map epair).reverse ++ pairs) x y ↔
      Linked (pairs ++ (newEdges P cur).map wpair) x y := by
    have hm : ∀ p, p ∈ (((newEdges P cur).map Prod.fst).map epair).reverse ++ pairs ↔
        p ∈ pairs ++ (newEdges P cur).map wpair := by
      intro p
      simp only [List.mem_append, List.mem_reverse, List.map_map]
      exact or_comm
    exact ⟨Linked.mono (fun p => (hm p).1), Linked.mono (fun p => (hm p).2)⟩
  rw [this]
  exact linked_congr_append hP

/-- What the loop yields from inside a bucket, when the disjoint set cannot overflow. -/
theorem bucketLoopX_some (rnd : K → XNum K) (hn : nodes.Nodup) (hne : nodes.length ≠ m + 1)
    (P cur rest : List ((V × V × A) × XNum K)) (c : XNum K)
    (hcur : ∀ x ∈ cur, x.1.1 ∈ nodes ∧ x.1.2.1 ∈ nodes)
    (hrest : ∀ x ∈ rest, x.1.1 ∈ nodes ∧ x.1.2.1 ∈ nodes)
    (h : DSGood nodes m ds pairs) (hP : ∀ x y, Linked pairs x y ↔ Linked (P.map wpair) x y) :
    bucketLoopX rnd ds (some c) ((newEdges P cur).map Prod.fst) rest =
        ⟨(keepNew P (splitBucketsX rnd c cur rest)).map Prod.fst, none⟩ := by
  induction rest generalizing P cur c ds pairs with
  | nil => simp [bucketLoopX, splitBucketsX, keepNew]
  | cons x rest ih =>
    have hx := hrest x (by simp)
    have hr : ∀ x ∈ rest, x.1.1 ∈ nodes ∧ x.1.2.1 ∈ nodes := fun y hy => hrest y (by simp [hy])
    obtain ⟨e, w⟩ := x
    cases hw : changesBucketX rnd c w with
    | true =>
      have hbk : ∀ e ∈ (newEdges P cur).map Prod.fst, e.1 ∈ nodes ∧ e.2.1 ∈ nodes := by
        intro e' he'
        obtain ⟨x, hx, rfl⟩ := List.mem_map.1 he'
        exact hcur x (List.mem_filter.1 hx).1
      have hP' := linked_flushed (cur := cur) hP
      rcases h.flush _ hbk with ⟨ds', h1, h2⟩ | ⟨_, _, -, -, hm, -⟩
      · obtain ⟨ds'', b, h3, h4, h5⟩ := h2.same hn hx.1 hx.2
        have hnew : (if b = true then [] else [e]) =
            (newEdges (P ++ cur) [((e, w) : (V × V × A) × XNum K)]).map Prod.fst := by
          rw [hP'] at h4
          rw [newEdges_single (b := b) (x := (e, w)) h4]
          cases b <;> rfl
        have i := ih (P ++ cur) [(e, w)] w (by simpa using hx) hr h5 hP'
        simp only [bucketLoopX, hw, h1, h3, hnew, i, splitBucketsX, if_true, keepNew, List.map_append]
      · exact absurd hm hne
    | false =>
      obtain ⟨ds'', b, h3, h4, h5⟩ := h.same hn hx.1 hx.2
      have hnew : (if b = true then (newEdges P cur).map Prod.fst else (newEdges P cur).map Prod.fst ++ [e]) =
          (newEdges P (cur ++ [((e, w) : (V × V × A) × XNum K)])).map Prod.fst := by
        rw [hP] at h4
        rw [newEdges_append, newEdges_single (b := b) (x := (e, w)) h4]
        cases b <;> simp
      have i := ih P (cur ++ [(e, w)]) c (fun y hy => by
        rcases List.mem_append.1 hy with hy | hy
        · exact hcur y hy
        · rw [List.mem_singleton.1 hy]; exact hx) hr h5 hP
      simp only [bucketLoopX, hw, h3, hnew, i, splitBucketsX]
      rfl

/-- The buckets of the sorted edges. -/
def bucketsOfX (rnd : K → XNum K) : List ((V × V × A) × XNum K) → List (List ((V × V × A) × XNum K))
  | [] => []
  | x :: rest => splitBucketsX rnd x.2 [x] rest

theorem flatten_bucketsOfX (rnd : K → XNum K) (es : List ((V × V × A) × XNum K)) : (bucketsOfX rnd es).flatten = es := by
  cases es with
  | nil => rfl
  | cons x rest => exact flatten_splitBucketsX _ _ _ _

theorem bucketLoopX_none (rnd : K → XNum K) (hn : nodes.Nodup) (hne : nodes.length ≠ m + 1)
    (es : List ((V × V × A) × XNum K)) (hes : ∀ x ∈ es, x.1.1 ∈ nodes ∧ x.1.2.1 ∈ nodes) (h : DSGood nodes m ds []) :
    bucketLoopX rnd ds none [] es = ⟨(keepNew [] (bucketsOfX rnd es)).map Prod.fst, none⟩ := by
  cases es with
  | nil => rfl
  | cons x rest =>
    obtain ⟨e, w⟩ := x
    have hx := hes (e, w) (by simp)
    obtain ⟨ds'', b, h3, h4, h5⟩ := h.same hn hx.1 hx.2
    have hnew : (if b = true then [] else [e]) = (newEdges [] [((e, w) : (V × V × A) × XNum K)]).map Prod.fst := by
      rw [newEdges_single (P := []) (b := b) (x := (e, w)) h4]
      cases b <;> rfl
    have i := bucketLoopX_some rnd hn hne [] [(e, w)] rest w (by simpa using hx) (fun y hy => hes y (by simp [hy])) h5
      (by simp)
    simp only [bucketLoopX, flushBucket, h3, List.nil_append, hnew, i, bucketsOfX]

end loop

section run

theorem weightOfX_of_hasWeight {attr : String} {a : Attrs (Val (XNum K))} {w : XNum K} (h : HasWeight attr a w) :
    weightOf attr a = .ok w := by
  unfold weightOf
  rcases h with ⟨h, rfl⟩ | h | ⟨h, rfl⟩ | ⟨h, rfl⟩ <;> rw [h] <;> rfl

theorem weightedX_eq {attr : String} (es : List (V × V × Attrs (Val (XNum K)))) (w : Fin es.length → XNum K)
    (hw : ∀ i, HasWeight attr es[i].2.2 (w i)) :
    weighted attr es = .ok ((List.finRange es.length).map (fun i => (es[i], w i))) := by
  induction es with
  | nil => rfl
  | cons e es ih =>
    have h0 := weightOfX_of_hasWeight (hw ⟨0, by simp⟩)
    have := ih (fun i => w i.succ) (fun i => hw i.succ)
    simp only [Fin.getElem_fin, List.getElem_cons_zero] at h0
    simp only [weighted, h0, this, List.length_cons, List.finRange_succ, List.map_cons, List.map_map]
    rfl

theorem sortKeysX_run {attr : String} {sort : List ((V × V × Attrs (Val (XNum K))) × XNum K) → List ((V × V × Attrs (Val (XNum K))) × XNum K)}
    (hsort : SortsDecreasing sort) (rnd : K → XNum K)
    (es : List (V × V × Attrs (Val (XNum K)))) (w : Fin es.length → XNum K)
    (hw : ∀ i, HasWeight attr es[i].2.2 (w i)) (ds : DisjointSet V) :
    ∃ l, sortKeys attr es = .ok l ∧ bucketLoopX rnd ds none [] (sort l) =
      bucketLoopX rnd ds none [] (sort ((List.finRange es.length).map (fun i => (es[i], w i)))) := by
  have hwt := weightedX_eq es w hw
  match es, w, hw, hwt with
  | [], w, hw, hwt => exact ⟨_, hwt, rfl⟩
  | [e], w, hw, hwt =>
    refine ⟨_, rfl, ?_⟩
    have h1 : ∀ c : XNum K, sort [(e, c)] = [(e, c)] := fun c => List.perm_singleton.1 (hsort.perm _)
    have h2 : (List.finRange [e].length).map (fun i => ([e][i], w i)) = [(e, w 0)] := by
      simp [List.finRange_succ]
    rw [h2, h1, h1]
    simp only [bucketLoopX, flushBucket]
  | e :: e' :: es, w, hw, hwt => exact ⟨_, hwt, rfl⟩

/-- The weights of the edges of a graph. -/
def Graph.WeightsX (g : Graph V (Val (XNum K))) (attr : String) (w : Fin g.edgesData.length → XNum K) : Prop :=
  ∀ i, HasWeight attr g.edgesData[i].2.2 (w i)

theorem numeric_weightsX {g : Graph V (Val (XNum K))} {attr : String}
    (hw : ∀ e ∈ g.edgesData, ∃ w, HasWeight attr e.2.2 w) : ∃ w, g.WeightsX attr w := by
  choose w hw using fun i : Fin g.edgesData.length => hw g.edgesData[i] (List.getElem_mem _)
  exact ⟨w, hw⟩

theorem perm_map_exists {α β : Type} {f : α → β} {l : List β} {js : List α} (h : l.Perm (js.map f)) :
    ∃ is : List α, is.Perm js ∧ l = is.map f := by
  have h2 : List.Forall₂ (fun b a => b = f a) (js.map f) js := by
    rw [List.forall₂_map_left_iff]
    exact List.forall₂_same.2 (fun _ _ => rfl)
  obtain ⟨is, h3, h4⟩ := List.perm_comp_forall₂ h h2
  refine ⟨is, h4, ?_⟩
  clear h2 h4 h
  induction h3 with
  | nil => rfl
  | cons h _ ih => rw [List.map_cons, h, ih]

variable {sort : List ((V × V × Attrs (Val (XNum K))) × XNum K) → List ((V × V × Attrs (Val (XNum K))) × XNum K)}

theorem umstX_run {ulongMax : Nat} (hu : 2^32 - 1 ≤ ulongMax) (hsort : SortsDecreasing sort) (rnd : K → XNum K)
    {g : Graph V (Val (XNum K))} (h : g.WF) {attr : String} {w : Fin g.edgesData.length → XNum K}
    (hw : g.WeightsX attr w) (hord : SafeOrder ulongMax g.order) :
    (g.edgesData = [] ∧ unionOfMaximumSpanningTreesX sort rnd ulongMax g attr = ⟨[], none⟩) ∨
    ∃ ds m, DSGood g.nodes m ds [] ∧ g.nodes.length ≠ m + 1 ∧
      DisjointSet.init ulongMax g.order = .ok ds ∧
      unionOfMaximumSpanningTreesX sort rnd ulongMax g attr =
        bucketLoopX rnd ds none [] (sort ((List.finRange g.edgesData.length).map (fun i => (g.edgesData[i], w i)))) := by
  obtain ⟨ds, hds, hcell⟩ := init_ok (V := V) hu hord.1.le
  obtain ⟨hinv, hcap', -⟩ := DisjointSet.init_inv hu hds
  have hlen : g.nodes.length = g.order := by simp [Graph.order, Graph.nodes, Dict.keys]
  have hgood : DSGood g.nodes ds.uf.cellMax ds [] := ⟨[], hinv, by simp, hcap'.trans hlen.symm, rfl⟩
  have hsz : g.size = g.edgesData.length := by
    rw [Graph.size_eq h]; simp [Graph.edges, Graph.edgesData]
  by_cases h0 : g.edgesData.length = 0
  · left
    exact ⟨List.length_eq_zero_iff.1 h0, by simp [unionOfMaximumSpanningTreesX, hsz, h0]⟩
  · right
    refine ⟨ds, ds.uf.cellMax, hgood, fun hc => hord.not_overflow (hcell.1 (by rw [← hlen]; exact hc)), hds, ?_⟩
    unfold unionOfMaximumSpanningTreesX
    rw [if_neg (by omega)]
    obtain ⟨l, hl, hb⟩ := sortKeysX_run hsort rnd g.edgesData w hw ds
    rw [← hb]
    simp only [hl, hds]

/-- C89.  Whatever the weights, infinities and NaN included, however the edges are then sorted and differences rounded: the
edges yielded are edges of the graph, each at most once, and they link exactly the nodes that the edges of the graph link. -/
theorem umst_nonfinite_spans {ulongMax : Nat} (hu : 2^32 - 1 ≤ ulongMax) (hsort : SortsDecreasing sort) (rnd : K → XNum K)
    {g : Graph V (Val (XNum K))} (h : g.WF) {attr : String} (hw : ∀ e ∈ g.edgesData, ∃ w, HasWeight attr e.2.2 w)
    (hord : SafeOrder ulongMax g.order) :
    ∃ is : List (Fin g.edgesData.length), is.Nodup ∧
      unionOfMaximumSpanningTreesX sort rnd ulongMax g attr = ⟨is.map (fun i => g.edgesData[i]), none⟩ ∧
      ∀ x y, LinkedBy g.endsAt {i | i ∈ is} x y ↔ Linked g.edges x y := by
  obtain ⟨w, hw⟩ := numeric_weightsX hw
  rcases umstX_run hu hsort rnd h hw hord with ⟨h0, h1⟩ | ⟨ds, m, hgood, hne, -, hrun⟩
  · refine ⟨[], List.nodup_nil, h1, fun x y => ?_⟩
    have : g.edges = [] := by rw [edges_eq_map, h0]; rfl
    rw [this]
    exact linkedBy_iff (by simp)
  · obtain ⟨js, hjs, hS⟩ := perm_map_exists (hsort.perm ((List.finRange g.edgesData.length).map (fun i => (g.edgesData[i], w i))))
    have hends : ∀ x ∈ js.map (fun i => (g.edgesData[i], w i)), x.1.1 ∈ g.nodes ∧ x.1.2.1 ∈ g.nodes := by
      intro x hx
      obtain ⟨i, -, rfl⟩ := List.mem_map.1 hx
      exact edgesData_ends h (List.getElem_mem _)
    rw [hrun, hS, bucketLoopX_none rnd h.nodup hne _ hends hgood]
    have hsub := keepNew_sublist [] (bucketsOfX rnd (js.map (fun i => (g.edgesData[i], w i))))
    rw [flatten_bucketsOfX] at hsub
    obtain ⟨is, his, hk⟩ := List.sublist_map_iff.1 hsub
    have hlk := fun x y => linked_keepNew [] (bucketsOfX rnd (js.map (fun i => (g.edgesData[i], w i)))) (x := x) (y := y)
    simp only [List.nil_append, flatten_bucketsOfX] at hlk
    rw [hk] at hlk ⊢
    refine ⟨is, his.nodup (hjs.nodup_iff.2 (List.nodup_finRange _)), by rw [List.map_map]; rfl, fun x y => ?_⟩
    have e1 : LinkedBy g.endsAt {i | i ∈ is} x y ↔
        Linked ((is.map (fun i => (g.edgesData[i], w i))).map wpair) x y := by
      refine linkedBy_iff (fun p => ?_)
      simp only [List.map_map, List.mem_map, Set.mem_ofPred_eq]
      exact Iff.rfl
    rw [e1, hlk]
    have hm : ∀ p, p ∈ (js.map (fun i => (g.edgesData[i], w i))).map wpair ↔ p ∈ g.edges := by
      intro p
      rw [edges_eq_map, List.map_map, List.mem_map, List.mem_map]
      constructor
      · rintro ⟨i, -, e⟩
        exact ⟨g.edgesData[i], List.getElem_mem _, e⟩
      · rintro ⟨e, he, rfl⟩
        obtain ⟨i, hi, rfl⟩ := List.mem_iff_getElem.1 he
        exact ⟨⟨i, hi⟩, hjs.mem_iff.2 (List.mem_finRange _), rfl⟩
    exact ⟨Linked.mono (fun p => (hm p).1), Linked.mono (fun p => (hm p).2)⟩

/-! ### `keep_connected` -/

/-- C89.  With `keep_connected`, whatever the predicate and whatever the weights, infinities and NaN included: the result has
the nodes of the graph, its edges are edges of the graph, and two nodes are linked in it exactly when they are in the
original; the connected components are the same. -/
theorem keepConnected_nonfinite [AttrVal (Val (XNum K))] {ulongMax : Nat} (hu : 2^32 - 1 ≤ ulongMax)
    (hsort : SortsDecreasing sort) (rnd : K → XNum K) {factory : PredFactory V (Val (XNum K))}
    {g : Graph V (Val (XNum K))} (h : g.WF) {p : V → V → Attrs (Val (XNum K)) → Bool} (hF : FactoryAnswers factory g p)
    (hw : ∀ e ∈ g.edgesData, ∃ w, HasWeight "weight" e.2.2 w) (hord : SafeOrder ulongMax g.order)
    (hkw : ∀ e ∈ g.edgesData, EdgeKwSafe g.multi e.2.2) :
    ∃ g', (Sparsifier.makeX sort rnd ulongMax factory true).filter g = .ok g' ∧ g'.WF ∧ g'.directed = g.directed ∧
      g'.multi = g.multi ∧ g'.attrs = g.attrs ∧ g'.node = g.node ∧
      g'.edgesData = g.edgesData.filter (fun e => p e.1 e.2.1 e.2.2 || decide ((e.1, e.2.1) ∈
        (unionOfMaximumSpanningTreesX sort rnd ulongMax g "weight").yields.map (fun e => (e.1, e.2.1)))) ∧
      (∀ x y, Linked g'.edges x y ↔ Linked g.edges x y) ∧
      componentOrders g'.nodes g'.edges = componentOrders g.nodes g.edges := by
  obtain ⟨is, -, hrun, hlink⟩ := umst_nonfinite_spans hu hsort rnd h hw hord
  obtain ⟨pred, h1, h2⟩ := hF
  have hdec : FactoryAnswers (decorateWithUmstX sort rnd ulongMax factory) g (fun u v a => p u v a || decide ((u, v) ∈
        (unionOfMaximumSpanningTreesX sort rnd ulongMax g "weight").yields.map (fun e => (e.1, e.2.1)))) := by
    unfold FactoryAnswers decorateWithUmstX
    rw [h1, hrun]
    refine ⟨_, rfl, ?_⟩
    intro e he
    simp only [h2 e he]
    cases p e.1 e.2.1 e.2.2 <;> rfl
  obtain ⟨pred', hp', ha'⟩ := hdec
  have hfil : (Sparsifier.makeX sort rnd ulongMax factory true).filter g = filterEdges g pred' := by
    unfold Sparsifier.filter filterEdges Sparsifier.makeX
    simp only [if_true]
    unfold defaultGenerator
    rw [hp']
    exact filterLoop_eq pred' g.edgesKeys g.createEmptyCopy
  obtain ⟨g', e1, e2, e3, e4, e5, e6, e7⟩ := filterEdges_exact h ha' (fun e he _ => hkw e he)
  have hL : ∀ x y, Linked g'.edges x y ↔ Linked g.edges x y := by
    intro x y
    rw [edges_eq_map g', edges_eq_map g, e7]
    constructor
    · refine Linked.mono (fun q hq => ?_)
      obtain ⟨e, he, rfl⟩ := List.mem_map.1 hq
      exact List.mem_map.2 ⟨e, (List.mem_filter.1 he).1, rfl⟩
    · intro hxy
      rw [← edges_eq_map, ← hlink] at hxy
      unfold LinkedBy at hxy
      unfold Linked
      revert hxy
      apply Relation.EqvGen.mono
      rintro a b ⟨i, hi, hab⟩
      refine List.mem_map.2 ⟨g.edgesData[i], List.mem_filter.2 ⟨List.getElem_mem _, ?_⟩, hab⟩
      rw [Bool.or_eq_true, decide_eq_true_eq]
      right
      rw [hrun]
      exact List.mem_map.2 ⟨_, List.mem_map.2 ⟨i, hi, rfl⟩, rfl⟩
  refine ⟨g', hfil.trans e1, e2, e3, e4, e5, e6, e7, hL, ?_⟩
  have hn : g'.nodes = g.nodes := by unfold nodes; rw [e6]
  rw [hn]
  exact componentOrders_congr _ hL

/-! ### The global threshold -/

theorem XNum.le_iff {x y : XNum K} : x.le y = true ↔ x.AtMost y := by
  cases x with
  | fin a => cases y with
    | fin b => simp [XNum.le, XNum.AtMost]
    | inf s => cases s <;> simp [XNum.le, XNum.AtMost]
    | nan => simp [XNum.le, XNum.AtMost]
  | inf s => cases y with
    | fin b => cases s <;> simp [XNum.le, XNum.AtMost]
    | inf s' => cases s <;> cases s' <;> simp [XNum.le, XNum.AtMost]
    | nan => cases s <;> simp [XNum.le, XNum.AtMost]
  | nan => simp [XNum.le, XNum.AtMost]

theorem hasNumber_toNumX {attr : String} {a : Attrs (Val (XNum K))} {w : XNum K} :
    HasNumber attr a w ↔ ∃ x, a.get? (.str attr) = some x ∧ x.toNum = .ok w := by
  unfold HasNumber
  constructor
  · rintro (h | ⟨h, rfl⟩ | ⟨h, rfl⟩)
    · exact ⟨_, h, rfl⟩
    · exact ⟨_, h, rfl⟩
    · exact ⟨_, h, rfl⟩
  · rintro ⟨x, h, hx⟩
    cases x with
    | none => cases hx
    | bool b => cases b <;> cases hx <;> simp [h]
    | num k => cases hx; simp [h]
    | str s => cases hx
    | obj a b => cases hx

theorem HasNumber.uniqueX {attr : String} {a : Attrs (Val (XNum K))} {w w' : XNum K} (h : HasNumber attr a w)
    (h' : HasNumber attr a w') : w = w' := by
  rw [hasNumber_toNumX] at h h'
  obtain ⟨x, h1, h2⟩ := h
  obtain ⟨y, h3, h4⟩ := h'
  rw [h1] at h3
  cases h3
  rw [h2] at h4
  cases h4
  rfl

open Classical in
/-- C89.  Without `keep_connected`, the edges kept are exactly those whose weight is at least `t` (at most `t` with
`reverse`), neither the weight nor `t` being NaN. -/
theorem globalThreshold_nonfinite [AttrVal (Val (XNum K))] (rnd : K → XNum K) (ulongMax : Nat)
    {g : Graph V (Val (XNum K))} (h : g.WF) (t : XNum K) {attr : String} (reverse : Bool)
    (hw : ∀ e ∈ g.edgesData, ∃ w, HasNumber attr e.2.2 w) (hkw : ∀ e ∈ g.edgesData, EdgeKwSafe g.multi e.2.2) :
    ∃ g', globalThresholdSparsificationX sort rnd ulongMax g t attr reverse false = .ok g' ∧ g'.WF ∧
      g'.directed = g.directed ∧ g'.multi = g.multi ∧ g'.attrs = g.attrs ∧ g'.node = g.node ∧
      g'.edgesData = g.edgesData.filter (fun e => decide (ReachesX t attr reverse e.2.2)) := by
  have ha : EdgeAnswers g (thresholdPredicateX (V := V) t attr reverse) (fun _ _ a => decide (ReachesX t attr reverse a)) := by
    intro e he
    obtain ⟨w, hw⟩ := hw e he
    obtain ⟨x, h1, h2⟩ := hasNumber_toNumX.1 hw
    unfold thresholdPredicateX Dict.getItem
    simp only [h1, h2]
    congr 1
    have : ReachesX t attr reverse e.2.2 ↔ if reverse = true then w.AtMost t else t.AtMost w := by
      unfold ReachesX
      constructor
      · rintro ⟨w', h3, h4⟩
        rw [hw.uniqueX h3]; exact h4
      · exact fun h => ⟨w, hw, h⟩
    rw [Bool.eq_iff_iff, decide_eq_true_eq, this]
    cases reverse <;> simp [XNum.le_iff]
  obtain ⟨g', e1, e2, e3, e4, e5, e6, e7⟩ := filterEdges_exact h ha (fun e he _ => hkw e he)
  refine ⟨g', Eq.trans ?_ e1, e2, e3, e4, e5, e6, e7⟩
  unfold globalThresholdSparsificationX Sparsifier.filter filterEdges Sparsifier.makeX defaultGenerator
  simp only [Bool.false_eq_true, if_false]
  exact filterLoop_eq _ g.edgesKeys g.createEmptyCopy

/-- C89.  An edge whose weight is NaN is kept neither by the threshold nor by its reverse. -/
theorem reachesX_nan {attr : String} {a : Attrs (Val (XNum K))} (h : HasNumber attr a .nan) (t : XNum K) (reverse : Bool) :
    ¬ ReachesX t attr reverse a := by
  rintro ⟨w, hw, hr⟩
  rw [← h.uniqueX hw] at hr
  cases reverse
  · exact hr.2.1 rfl
  · exact hr.1 rfl

/-- C89.  Nothing reaches a NaN threshold. -/
theorem reachesX_nan_threshold {attr : String} {a : Attrs (Val (XNum K))} (reverse : Bool) : ¬ ReachesX .nan attr reverse a := by
  rintro ⟨w, hw, hr⟩
  cases reverse
  · exact hr.1 rfl
  · exact hr.2.1 rfl

/-- C89.  Unless one of them is NaN, the weight reaches the threshold one way or the other. -/
theorem reachesX_total {attr : String} {a : Attrs (Val (XNum K))} {w t : XNum K} (h : HasNumber attr a w) (hw : w ≠ .nan)
    (ht : t ≠ .nan) : ReachesX t attr false a ∨ ReachesX t attr true a := by
  have : t.AtMost w ∨ w.AtMost t := by
    cases w with
    | nan => exact absurd rfl hw
    | inf s =>
      cases s
      · exact .inl ⟨ht, hw, .inr (.inl rfl)⟩
      · exact .inr ⟨hw, ht, .inl rfl⟩
    | fin b =>
      cases t with
      | nan => exact absurd rfl ht
      | inf s =>
        cases s
        · exact .inr ⟨hw, ht, .inr (.inl rfl)⟩
        · exact .inl ⟨ht, hw, .inl rfl⟩
      | fin a =>
        rcases le_total a b with hab | hab
        · exact .inl ⟨ht, hw, .inr (.inr ⟨a, b, rfl, rfl, hab⟩)⟩
        · exact .inr ⟨hw, ht, .inr (.inr ⟨b, a, rfl, rfl, hab⟩)⟩
  rcases this with h' | h'
  · exact .inl ⟨w, h, h'⟩
  · exact .inr ⟨w, h, h'⟩

end run

/-! ### Infinite weights -/

section infinite
variable [IsStrictOrderedRing K]
variable {sort : List ((V × V × Attrs (Val (XNum K))) × XNum K) → List ((V × V × Attrs (Val (XNum K))) × XNum K)}

/-- A number beyond the finite weights: more than `1e-8` larger than their absolute values, and than `1e-8`. -/
def Beyond {ι : Type} (w : ι → XNum K) (M : K) : Prop :=
  1 / 10 ^ 8 < M ∧ ∀ i k, w i = .fin k → |k| + 1 / 10 ^ 8 < M

/-- Same for one weight. -/
def Within (M : K) (x : XNum K) : Prop := x ≠ .nan ∧ ∀ k, x = .fin k → |k| + weightEpsilon < M

theorem clamp_changes {M : K} (hM : weightEpsilon < M) {c w : XNum K} (hc : Within M c) (hw : Within M w) :
    changesBucketX .fin c w = decide (c.clamp M - w.clamp M > weightEpsilon) := by
  have he : (0 : K) < weightEpsilon := weightEpsilon_pos
  unfold changesBucketX
  cases c with
  | nan => exact absurd rfl hc.1
  | fin a =>
    have ha := hc.2 a rfl
    have := neg_abs_le a; have := le_abs_self a
    cases w with
    | nan => exact absurd rfl hw.1
    | fin b => simp [XNum.sub, XNum.lt, XNum.clamp]
    | inf s =>
      cases s
      · exact (decide_eq_false (by simp only [XNum.clamp, gt_iff_lt, not_lt]; linarith)).symm
      · exact (decide_eq_true (by simp only [XNum.clamp]; linarith)).symm
  | inf s =>
    cases w with
    | nan => exact absurd rfl hw.1
    | fin b =>
      have hb := hw.2 b rfl
      have := neg_abs_le b; have := le_abs_self b
      cases s
      · exact (decide_eq_true (by simp only [XNum.clamp]; linarith)).symm
      · exact (decide_eq_false (by simp only [XNum.clamp, gt_iff_lt, not_lt]; linarith)).symm
    | inf s' =>
      cases s <;> cases s'
      · exact (decide_eq_false (by simp only [XNum.clamp, gt_iff_lt, not_lt]; linarith)).symm
      · exact (decide_eq_true (by simp only [XNum.clamp]; linarith)).symm
      · exact (decide_eq_false (by simp only [XNum.clamp, gt_iff_lt, not_lt]; linarith)).symm
      · exact (decide_eq_false (by simp only [XNum.clamp, gt_iff_lt, not_lt]; linarith)).symm

theorem clamp_lt {M : K} (hM : weightEpsilon < M) {x y : XNum K} (hx : Within M x) (hy : Within M y) :
    x.lt y = false ↔ y.clamp M ≤ x.clamp M := by
  have he : (0 : K) < weightEpsilon := weightEpsilon_pos
  cases x with
  | nan => exact absurd rfl hx.1
  | fin a =>
    have ha := hx.2 a rfl
    have := neg_abs_le a; have := le_abs_self a
    cases y with
    | nan => exact absurd rfl hy.1
    | fin b => simp [XNum.lt, XNum.clamp]
    | inf s =>
      cases s
      · simp only [XNum.lt, XNum.clamp, Bool.not_false, Bool.true_eq_false, false_iff, not_le]; linarith
      · simp only [XNum.lt, XNum.clamp, Bool.not_true, true_iff]; linarith
  | inf s =>
    cases y with
    | nan => exact absurd rfl hy.1
    | fin b =>
      have hb := hy.2 b rfl
      have := neg_abs_le b; have := le_abs_self b
      cases s
      · simp only [XNum.lt, XNum.clamp, true_iff]; linarith
      · simp only [XNum.lt, XNum.clamp, Bool.true_eq_false, false_iff, not_le]; linarith
    | inf s' =>
      cases s <;> cases s' <;> simp [XNum.lt, XNum.clamp] <;> linarith

theorem bucketLoopX_clamp {A : Type} {M : K} (hM : weightEpsilon < M) (es : List ((V × V × A) × XNum K))
    (hes : ∀ x ∈ es, Within M x.2) (ds : DisjointSet V) (cur : Option (XNum K)) (hcur : ∀ c, cur = some c → Within M c)
    (bucket : List (V × V × A)) :
    bucketLoopX .fin ds cur bucket es = bucketLoop ds (cur.map (XNum.clamp M)) bucket (es.map (fun x => (x.1, x.2.clamp M))) := by
  induction es generalizing ds cur bucket with
  | nil => rfl
  | cons x es ih =>
    obtain ⟨e, w⟩ := x
    have hw : Within M w := hes (e, w) (by simp)
    have hr : ∀ x ∈ es, Within M x.2 := fun x hx => hes x (by simp [hx])
    have i1 := fun ds b => ih hr ds (some w) (fun c hc => by cases hc; exact hw) b
    have i2 := fun ds b => ih hr ds cur hcur b
    simp only [List.map_cons, bucketLoopX, bucketLoop]
    cases cur with
    | none =>
      simp only [Option.map_none, i1, Option.map_some]
      rfl
    | some c =>
      simp only [Option.map_some, clamp_changes hM (hcur c rfl) hw, i1, i2]
      rfl

theorem sort_clamp {A : Type} {M : K} (hM : weightEpsilon < M) (es : List ((V × V × A) × XNum K))
    (hes : ∀ x ∈ es, Within M x.2) :
    (es.insertionSort (fun a b => a.2.lt b.2 = false)).map (fun x => (x.1, x.2.clamp M)) =
      sortByWeight (es.map (fun x => (x.1, x.2.clamp M))) :=
  List.map_insertionSort _ _ _ es (fun a ha b hb => clamp_lt hM (hes a ha) (hes b hb))

open Classical in
/-- C89.  With infinite weights but no NaN, on a graph of any kind: the edges yielded are exactly the edges belonging to some
maximum spanning forest for the weights where the infinities are replaced by numbers beyond all the others (provided two of
these weights are equal or more than `1e-8` apart). -/
theorem umst_infinite {ulongMax : Nat} (hu : 2^32 - 1 ≤ ulongMax) (hsort : SortsDecreasing sort)
    {g : Graph V (Val (XNum K))} (h : g.WF) {attr : String} {w : Fin g.edgesData.length → XNum K} (hw : g.WeightsX attr w)
    (hnan : ∀ i, w i ≠ .nan) {M : K} (hM : Beyond w M) (hsep : NoNearTies (fun i => (w i).clamp M))
    (hord : SafeOrder ulongMax g.order) :
    (unionOfMaximumSpanningTreesX sort .fin ulongMax g attr).err = none ∧
      (unionOfMaximumSpanningTreesX sort .fin ulongMax g attr).yields.Perm
        (((List.finRange g.edgesData.length).filter
          (fun i => ∃ F, IsMaxSpanningForest g.endsAt (fun i => (w i).clamp M) F ∧ i ∈ F)).map (fun i => g.edgesData[i])) := by
  have hin : ∀ i, Within M (w i) := fun i => ⟨hnan i, hM.2 i⟩
  rcases umstX_run hu hsort .fin h hw hord with ⟨h0, h1⟩ | ⟨ds, m, hgood, hne, -, hrun⟩
  · rw [h1]
    refine ⟨rfl, ?_⟩
    have : List.finRange g.edgesData.length = [] := by
      rw [← List.length_eq_zero_iff, List.length_finRange, h0]; rfl
    rw [this]
    exact List.Perm.refl _
  · have hS : (sort ((List.finRange g.edgesData.length).map (fun i => (g.edgesData[i], w i)))).map
        (fun x => (x.1, x.2.clamp M)) =
        sortByWeight ((List.finRange g.edgesData.length).map (fun i => (g.edgesData[i], (w i).clamp M))) := by
      rw [hsort.stable _ (fun x hx => by obtain ⟨i, -, rfl⟩ := List.mem_map.1 hx; exact hnan i)]
      rw [sort_clamp hM.1 _ (fun x hx => by obtain ⟨i, -, rfl⟩ := List.mem_map.1 hx; exact hin i), List.map_map]
      rfl
    have hall : ∀ x ∈ sort ((List.finRange g.edgesData.length).map (fun i => (g.edgesData[i], w i))), Within M x.2 := by
      intro x hx
      rw [(hsort.perm _).mem_iff] at hx
      obtain ⟨i, -, rfl⟩ := List.mem_map.1 hx
      exact hin i
    rw [hrun, bucketLoopX_clamp hM.1 _ hall ds none (by simp) [], hS]
    have hne' : sortByWeight ((List.finRange g.edgesData.length).map (fun i => (g.edgesData[i], (w i).clamp M))) ≠ [] ∨
        g.edgesData.length = 0 := by
      rcases Nat.eq_zero_or_pos g.edgesData.length with h0 | h0
      · exact .inr h0
      · left
        rw [Ne, ← List.length_eq_zero_iff, (sortByWeight_perm _).length_eq, List.length_map, List.length_finRange]; omega
    rcases hne' with hne' | h0
    · have hSn : ∀ x ∈ sortByWeight ((List.finRange g.edgesData.length).map (fun i => (g.edgesData[i], (w i).clamp M))),
          x.1.1 ∈ g.nodes ∧ x.1.2.1 ∈ g.nodes := by
        intro x hx
        rw [(sortByWeight_perm _).mem_iff] at hx
        obtain ⟨i, -, rfl⟩ := List.mem_map.1 hx
        exact edgesData_ends h (List.getElem_mem _)
      rcases bucketLoop_none h.nodup _ hne' hSn hgood with ⟨h1, -⟩ | ⟨_, -, -, h3, -⟩
      · rw [Option.map_none, h1, kept_eq]
        exact ⟨rfl, (kept_perm hsep).map _⟩
      · exact absurd h3 hne
    · have : List.finRange g.edgesData.length = [] := by
        rw [← List.length_eq_zero_iff, List.length_finRange, h0]
      rw [this]
      exact ⟨rfl, List.Perm.refl _⟩

end infinite

/-! ### Witnesses -/

/-- A sort that leaves a list with a NaN as it is. -/
def lazySort (es : List ((Int × Int × Attrs (Val (XNum ℚ))) × XNum ℚ)) : List ((Int × Int × Attrs (Val (XNum ℚ))) × XNum ℚ) :=
  if es.any (fun x => decide (x.2 = .nan)) then es else es.insertionSort (fun a b => a.2.lt b.2 = false)

theorem lazySort_sorts : SortsDecreasing lazySort where
  perm es := by
    unfold lazySort
    split
    · exact List.Perm.refl _
    · exact List.perm_insertionSort _ _
  stable es h := by
    unfold lazySort
    rw [if_neg]
    intro hc
    obtain ⟨x, hx, hn⟩ := List.any_eq_true.1 hc
    exact h x hx (of_decide_eq_true hn)

/-- A triangle with two sides of weight 5 and one of weight `light`, and a pendant edge of weight `pendant`. -/
def pendantTriangle (pendant : XNum ℚ) : Graph Int (Val (XNum ℚ)) where
  directed := false
  multi := false
  attrs := []
  node := [(1, []), (2, []), (4, []), (3, [])]
  links := [⟨1, 2, [(.int 0, [(.str "weight", .num (.fin 1))])]⟩, ⟨1, 4, [(.int 0, [(.str "weight", .num pendant)])]⟩,
    ⟨1, 3, [(.int 0, [(.str "weight", .num (.fin 5))])]⟩, ⟨2, 3, [(.int 0, [(.str "weight", .num (.fin 5))])]⟩]

theorem pendantTriangle_wf : (pendantTriangle .nan).WF := by constructor <;> decide

set_option synthInstance.maxSize 2000 in
theorem pendantTriangle_weights : ∀ e ∈ (pendantTriangle .nan).edgesData, ∃ w, HasWeight "weight" e.2.2 w := by
  have : (pendantTriangle .nan).edgesData = [(1, 2, [(.str "weight", .num (.fin 1))]), (1, 4, [(.str "weight", .num .nan)]),
      (1, 3, [(.str "weight", .num (.fin 5))]), (2, 3, [(.str "weight", .num (.fin 5))])] := by decide +kernel
  rw [this]
  simp only [List.forall_mem_cons, List.not_mem_nil, false_imp_iff, implies_true, and_true]
  exact ⟨⟨_, .inr (.inl rfl)⟩, ⟨_, .inr (.inl rfl)⟩, ⟨_, .inr (.inl rfl)⟩, ⟨_, .inr (.inl rfl)⟩⟩

theorem pendantTriangle_safe : SafeOrder (2^64 - 1) (pendantTriangle .nan).order := by
  unfold SafeOrder
  have : (pendantTriangle .nan).order = 4 := rfl
  rw [this]
  omega

/-- C89.  A NaN weight can spoil the result for edges that have nothing to do with it: the edge of weight 1 is not yielded
when the pendant edge has weight 2, although its ends are linked by edges of weight 5; it is when the pendant edge has weight
NaN.  (The sort leaves the edges in their order, which is what CPython does with these weights.) -/
theorem umst_nan_spoils :
    (unionOfMaximumSpanningTreesX lazySort .fin (2^64 - 1) (pendantTriangle (.fin 2)) "weight").yields.map
        (fun e => (e.1, e.2.1)) = [(1, 3), (2, 3), (1, 4)] ∧
      (unionOfMaximumSpanningTreesX lazySort .fin (2^64 - 1) (pendantTriangle .nan) "weight").yields.map
        (fun e => (e.1, e.2.1)) = [(1, 2), (1, 4), (1, 3), (2, 3)] := by
  constructor <;> decide +kernel

/-- C89.  With an infinite weight it is not. -/
theorem umst_inf_sample :
    (unionOfMaximumSpanningTreesX lazySort .fin (2^64 - 1) (pendantTriangle (.inf false)) "weight").yields.map
        (fun e => (e.1, e.2.1)) = [(1, 4), (1, 3), (2, 3)] ∧
      (unionOfMaximumSpanningTreesX lazySort .fin (2^64 - 1) (pendantTriangle (.inf true)) "weight").yields.map
        (fun e => (e.1, e.2.1)) = [(1, 3), (2, 3), (1, 4)] := by
  constructor <;> decide +kernel

/-- The weights of the triangle with an infinite pendant edge. -/
def pendantTriangle.weight : Fin (pendantTriangle (.inf false)).edgesData.length → XNum ℚ :=
  fun i => ([.fin 1, .inf false, .fin 5, .fin 5] : List (XNum ℚ))[i]

set_option synthInstance.maxSize 2000 in
/-- The hypotheses of `umst_infinite` can be met. -/
theorem pendantTriangle_infinite : (pendantTriangle (.inf false)).WF ∧
    (pendantTriangle (.inf false)).WeightsX "weight" pendantTriangle.weight ∧ (∀ i, pendantTriangle.weight i ≠ .nan) ∧
    Beyond pendantTriangle.weight 10 ∧ NoNearTies (fun i => (pendantTriangle.weight i).clamp 10) := by
  refine ⟨by constructor <;> decide, ?_, ?_, ?_, ?_⟩
  · have h : ∀ i : Fin 4, HasWeight "weight" (([(1, 2, [(.str "weight", .num (.fin 1))]), (1, 4, [(.str "weight", .num (.inf false))]),
      (1, 3, [(.str "weight", .num (.fin 5))]), (2, 3, [(.str "weight", .num (.fin 5))])] : List (Int × Int × Attrs (Val (XNum ℚ))))[i]).2.2
        (([.fin 1, .inf false, .fin 5, .fin 5] : List (XNum ℚ))[i]) := by
      intro i
      fin_cases i <;> exact .inr (.inl rfl)
    exact h
  · decide +kernel
  · refine ⟨by norm_num, ?_⟩
    have h : ∀ i : Fin 4, ∀ k, ([.fin 1, .inf false, .fin 5, .fin 5] : List (XNum ℚ))[i] = .fin k → |k| + 1 / 10 ^ 8 < 10 := by
      intro i k hk
      fin_cases i <;> simp at hk <;> subst hk <;> norm_num
    exact h
  · have h : NoNearTies (fun i : Fin 4 => (([.fin 1, .inf false, .fin 5, .fin 5] : List (XNum ℚ))[i]).clamp 10) := by
      unfold NoNearTies
      decide +kernel
    exact h

end Pelote
