import Verif.Lemmas.SpanningTrees
import Mathlib.Algebra.Order.Ring.Abs

/-! C23, C24, C25: union of maximum spanning trees. -/
namespace Pelote
open scoped List
variable {V K : Type} [DecidableEq V] [Field K] [LinearOrder K]

/-- The ends of the edges of a graph, in listing order. -/
def Graph.endsAt {A : Type} (g : Graph V A) (i : Fin g.edgesData.length) : V × V :=
  (g.edgesData[i].1, g.edgesData[i].2.1)

/-- Every edge of the graph has the given numeric weight. -/
def Graph.Weights (g : Graph V (Val K)) (attr : String) (w : Fin g.edgesData.length → K) : Prop :=
  ∀ i, HasWeight attr g.edgesData[i].2.2 (w i)

/-- Two weights are equal or more than `1e-8` apart. -/
def NoNearTies {ι : Type} (w : ι → K) : Prop := ∀ i j, w i = w j ∨ 1 / 10 ^ 8 < |w i - w j|

/-- The order of the graph is not one at which the disjoint set can overflow (see C04). -/
def SafeOrder (ulongMax n : Nat) : Prop :=
  n < 2^64 ∧ n ≠ 2^8 ∧ n ≠ 2^16 ∧ (n = 2^32 → ulongMax ≠ 2^32 - 1)

theorem SafeOrder.not_overflow {ulongMax n : Nat} (h : SafeOrder ulongMax n) : ¬ OverflowOrder ulongMax n := by
  obtain ⟨h1, h2, h3, h4⟩ := h
  rintro (h | h | ⟨h, h'⟩ | h)
  · exact h2 h
  · exact h3 h
  · exact h4 h h'
  · omega

omit [DecidableEq V] in
theorem linkedBy_iff {ι : Type} {ends : ι → V × V} {F : Set ι} {L : List (V × V)}
    (h : ∀ p, p ∈ L ↔ ∃ i ∈ F, ends i = p) {x y : V} : LinkedBy ends F x y ↔ Linked L x y := by
  unfold LinkedBy Linked
  have : (fun a b => ∃ i ∈ F, ends i = (a, b)) = (fun a b => (a, b) ∈ L) := by
    funext a b; rw [h]
  rw [this]

section
variable {A B : Type} {f : (V × V × A) × K → (V × V × B) × K} (hf : ∀ x, wpair (f x) = wpair x ∧ (f x).2 = x.2)
include hf

omit [DecidableEq V] in
theorem splitBuckets_map (c : K) (cur rest : List ((V × V × A) × K)) :
    splitBuckets c (cur.map f) (rest.map f) = (splitBuckets c cur rest).map (List.map f) := by
  induction rest generalizing c cur with
  | nil => rfl
  | cons x rest ih =>
    simp only [List.map_cons, splitBuckets, (hf x).2]
    split
    · rw [List.map_cons, ← ih]; rfl
    · rw [← ih, List.map_append]; rfl

omit [DecidableEq V] in
theorem bucketsOf_map (es : List ((V × V × A) × K)) :
    bucketsOf (es.map f) = (bucketsOf es).map (List.map f) := by
  cases es with
  | nil => rfl
  | cons x rest =>
    have := splitBuckets_map hf x.2 [x] rest
    simp only [List.map_cons, bucketsOf, (hf x).2]
    exact this

omit [DecidableEq V] [Field K] [LinearOrder K] in
theorem keepNew_map (P : List ((V × V × A) × K)) (bs : List (List ((V × V × A) × K))) :
    keepNew (P.map f) (bs.map (List.map f)) = (keepNew P bs).map f := by
  induction bs generalizing P with
  | nil => rfl
  | cons b bs ih =>
    have hw : ∀ l : List ((V × V × A) × K), (l.map f).map wpair = l.map wpair := fun l => by
      rw [List.map_map]; exact List.map_congr_left (fun x _ => (hf x).1)
    simp only [List.map_cons, keepNew, List.map_append, ← ih]
    congr 1
    · unfold newEdges
      rw [List.filter_map, hw]
      congr 1
      refine List.filter_congr (fun x _ => ?_)
      classical
      exact decide_eq_decide.2 (by simp only [(hf x).1])

omit [DecidableEq V] [Field K] in
theorem sortByWeight_map (es : List ((V × V × A) × K)) :
    sortByWeight (es.map f) = (sortByWeight es).map f := by
  unfold sortByWeight pySortedRev
  exact (List.map_insertionSort _ _ f es (fun a _ b _ => by rw [(hf a).2, (hf b).2])).symm

end

/-- The edges tagged with their index, and their weight. -/
def Graph.taggedEdges {B : Type} (g : Graph V B) (w : Fin g.edgesData.length → K) :
    List ((V × V × Fin g.edgesData.length) × K) :=
  (List.finRange g.edgesData.length).map (fun i => (((g.endsAt i).1, (g.endsAt i).2, i), w i))

/-- Replace the index by the attributes of the edge. -/
def Graph.untag {B : Type} (g : Graph V B) (x : (V × V × Fin g.edgesData.length) × K) :
    (V × V × Attrs B) × K := ((x.1.1, x.1.2.1, g.edgesData[x.1.2.2].2.2), x.2)

omit [Field K] [LinearOrder K] in
theorem untag_tagged {B : Type} (g : Graph V B) (w : Fin g.edgesData.length → K) :
    (g.taggedEdges w).map g.untag =
      (List.finRange g.edgesData.length).map (fun i => (g.edgesData[i], w i)) := by
  unfold Graph.taggedEdges
  rw [List.map_map]; rfl

omit [Field K] [LinearOrder K] in
theorem mem_taggedEdges {B : Type} {g : Graph V B} {w : Fin g.edgesData.length → K}
    {x : (V × V × Fin g.edgesData.length) × K} :
    x ∈ g.taggedEdges w ↔ x = (((g.endsAt x.1.2.2).1, (g.endsAt x.1.2.2).2, x.1.2.2), w x.1.2.2) := by
  unfold Graph.taggedEdges
  simp only [List.mem_map, List.mem_finRange, true_and]
  constructor
  · rintro ⟨i, rfl⟩; rfl
  · intro h; exact ⟨_, h.symm⟩

/-- The sorted tagged edges. -/
def Graph.sortedTags {B : Type} (g : Graph V B) (w : Fin g.edgesData.length → K) :
    List ((V × V × Fin g.edgesData.length) × K) := sortByWeight (g.taggedEdges w)

/-- The indices of the edges yielded. -/
noncomputable def Graph.keptIndices {B : Type} (g : Graph V B) (w : Fin g.edgesData.length → K) :
    List (Fin g.edgesData.length) :=
  (keepNew [] (bucketsOf (g.sortedTags w))).map (fun x => x.1.2.2)

omit [DecidableEq V] in
theorem flatten_bucketsOf {A : Type} (es : List ((V × V × A) × K)) : (bucketsOf es).flatten = es := by
  cases es with
  | nil => rfl
  | cons x rest => exact flatten_splitBuckets _ _ _

theorem kept_tagged {B : Type} {g : Graph V B} {w : Fin g.edgesData.length → K}
    {x : (V × V × Fin g.edgesData.length) × K} (hx : x ∈ keepNew [] (bucketsOf (g.sortedTags w))) :
    x = (((g.endsAt x.1.2.2).1, (g.endsAt x.1.2.2).2, x.1.2.2), w x.1.2.2) := by
  have := (keepNew_sublist [] (bucketsOf (g.sortedTags w))).subset hx
  rw [flatten_bucketsOf] at this
  exact mem_taggedEdges.1 ((sortByWeight_perm (g.taggedEdges w)).mem_iff.1 this)

theorem kept_eq {B : Type} (g : Graph V B) (w : Fin g.edgesData.length → K) :
    (keepNew [] (bucketsOf (sortByWeight
      ((List.finRange g.edgesData.length).map (fun i => (g.edgesData[i], w i)))))).map Prod.fst =
      (g.keptIndices w).map (fun i => g.edgesData[i]) := by
  have hf : ∀ x : (V × V × Fin g.edgesData.length) × K, wpair (g.untag x) = wpair x ∧ (g.untag x).2 = x.2 := fun x => ⟨rfl, rfl⟩
  rw [← untag_tagged, sortByWeight_map hf, bucketsOf_map hf]
  have := keepNew_map hf [] (bucketsOf (sortByWeight (g.taggedEdges w)))
  rw [List.map_nil] at this
  rw [this]
  unfold Graph.keptIndices
  rw [List.map_map, List.map_map]
  refine List.map_congr_left (fun x hx => ?_)
  have := kept_tagged hx
  conv_lhs => rw [this]
  rfl

variable [IsStrictOrderedRing K]

theorem bucketsOf_equal {B : Type} {g : Graph V B} {w : Fin g.edgesData.length → K} (hsep : NoNearTies w) :
    ∀ b ∈ bucketsOf (g.sortedTags w), ∀ x ∈ b, ∀ y ∈ b, x.2 = y.2 := by
  obtain ⟨h1, h2, h3⟩ := bucketsOf_spec _ (sortByWeight_sorted (g.taggedEdges w))
  intro b hb x hx y hy
  have mem : ∀ x ∈ b, x.2 = w x.1.2.2 := fun x hx => by
    have : x ∈ g.taggedEdges w := by
      rw [← (sortByWeight_perm (g.taggedEdges w)).mem_iff, ← h2]
      exact List.mem_flatten.2 ⟨b, hb, hx⟩
    rw [mem_taggedEdges] at this
    rw [this]
  rcases hsep x.1.2.2 y.1.2.2 with h | h
  · rw [mem x hx, mem y hy, h]
  · exfalso
    have e1 := h3 b hb _ hx _ hy
    have e2 := h3 b hb _ hy _ hx
    rw [mem x hx, mem y hy] at e1 e2
    simp only [weightEpsilon] at e1 e2
    rw [lt_abs] at h
    rcases h with h | h <;> linarith

omit [IsStrictOrderedRing K] [Field K] in
theorem linked_heavier_iff {B : Type} {g : Graph V B} {w : Fin g.edgesData.length → K}
    {S : List ((V × V × Fin g.edgesData.length) × K)} (hS : S.Perm (g.taggedEdges w))
    (i : Fin g.edgesData.length) {x y : V} :
    LinkedBy g.endsAt {j | w i < w j} x y ↔
      Linked ((S.filter (fun y => decide (w i < y.2))).map wpair) x y := by
  refine linkedBy_iff (fun p => ?_)
  simp only [List.mem_map, List.mem_filter, hS.mem_iff, mem_taggedEdges, decide_eq_true_eq]
  constructor
  · rintro ⟨x, ⟨hx, hj⟩, rfl⟩
    rw [hx] at hj ⊢
    exact ⟨x.1.2.2, hj, rfl⟩
  · rintro ⟨j, hj, rfl⟩
    exact ⟨(((g.endsAt j).1, (g.endsAt j).2, j), w j), ⟨rfl, hj⟩, rfl⟩

open Classical in
theorem kept_perm {B : Type} {g : Graph V B} {w : Fin g.edgesData.length → K} (hsep : NoNearTies w) :
    (g.keptIndices w).Perm ((List.finRange g.edgesData.length).filter
      (fun i => ∃ F, IsMaxSpanningForest g.endsAt w F ∧ i ∈ F)) := by
  obtain ⟨h1, h2, -⟩ := bucketsOf_spec _ (sortByWeight_sorted (g.taggedEdges w))
  have hp := sortByWeight_perm (g.taggedEdges w)
  unfold Graph.keptIndices Graph.sortedTags
  rw [keepNew_eq [] _ h1 (by simp) (bucketsOf_equal hsep), h2, List.nil_append]
  unfold unlinkedByHeavier
  refine ((hp.filter _).map _).trans ?_
  unfold Graph.taggedEdges
  rw [List.filter_map, List.map_map]
  refine List.Perm.of_eq ?_
  have : ∀ l : List (Fin g.edgesData.length), l.map ((fun x : (V × V × Fin g.edgesData.length) × K => x.1.2.2) ∘
      fun i => (((g.endsAt i).1, (g.endsAt i).2, i), w i)) = l := fun l => by
    rw [show ((fun x : (V × V × Fin g.edgesData.length) × K => x.1.2.2) ∘
      fun i => (((g.endsAt i).1, (g.endsAt i).2, i), w i)) = id from rfl, List.map_id]
  rw [this]
  refine List.filter_congr (fun i _ => ?_)
  simp only [Function.comp, decide_eq_decide]
  rw [mem_some_maxSpanningForest_iff, linked_heavier_iff hp]
  rfl

open Classical in
/-- C23.  On a graph of any kind whose weights are equal or more than `1e-8` apart (and whose order is not
one of the four at which the disjoint set can overflow, see C25), the edges yielded are exactly the edges
belonging to some maximum spanning forest, each once. -/
theorem unionOfMaximumSpanningTrees_exact {ulongMax : Nat} (hu : 2^32 - 1 ≤ ulongMax) {g : Graph V (Val K)}
    (h : g.WF) {attr : String} {w : Fin g.edgesData.length → K} (hw : g.Weights attr w) (hsep : NoNearTies w)
    (hord : SafeOrder ulongMax g.order) :
    (unionOfMaximumSpanningTrees ulongMax g attr).err = none ∧
      (unionOfMaximumSpanningTrees ulongMax g attr).yields.Perm
        (((List.finRange g.edgesData.length).filter
          (fun i => ∃ F, IsMaxSpanningForest g.endsAt w F ∧ i ∈ F)).map (fun i => g.edgesData[i])) := by
  rcases umst_cases hu h hord.1.le w hw rfl with ⟨h1, -⟩ | ⟨_, -, -, ho, -⟩
  · rw [h1, kept_eq]
    exact ⟨rfl, (kept_perm hsep).map _⟩
  · exact absurd ho hord.not_overflow

/-- C24.  Whatever the numeric weights, near ties included, whenever nothing is raised (C25): the edges yielded are edges of the graph, each
at most once, by decreasing weight; they link exactly the nodes that the edges of the graph link; and
every edge of every maximum spanning forest is yielded. -/
theorem unionOfMaximumSpanningTrees_connectivity_ok {ulongMax : Nat} (hu : 2^32 - 1 ≤ ulongMax)
    {g : Graph V (Val K)} (h : g.WF) {attr : String} {w : Fin g.edgesData.length → K}
    (hw : g.Weights attr w) (hcap : g.order ≤ 2^64)
    (herr : (unionOfMaximumSpanningTrees ulongMax g attr).err = none) :
    ∃ is : List (Fin g.edgesData.length), is.Nodup ∧ is.Pairwise (fun i j => w j ≤ w i) ∧
      unionOfMaximumSpanningTrees ulongMax g attr = ⟨is.map (fun i => g.edgesData[i]), none⟩ ∧
      (∀ x y, LinkedBy g.endsAt {i | i ∈ is} x y ↔ Linked g.edges x y) ∧
      ∀ F, IsMaxSpanningForest g.endsAt w F → ∀ i ∈ F, i ∈ is := by
  rcases umst_cases hu h hcap w hw rfl with ⟨h1, -⟩ | ⟨_, he, -⟩
  · rw [h1, kept_eq]
    obtain ⟨h1, h2, -⟩ := bucketsOf_spec _ (sortByWeight_sorted (g.taggedEdges w))
    have hp := sortByWeight_perm (g.taggedEdges w)
    have hsub := keepNew_sublist [] (bucketsOf (g.sortedTags w))
    have hsub' : keepNew [] (bucketsOf (g.sortedTags w)) <+ sortByWeight (g.taggedEdges w) := by
      rw [← h2]; exact hsub
    have htag : ∀ x ∈ keepNew [] (bucketsOf (g.sortedTags w)),
        x = (((g.endsAt x.1.2.2).1, (g.endsAt x.1.2.2).2, x.1.2.2), w x.1.2.2) := fun x hx => kept_tagged hx
    refine ⟨_, ?_, ?_, rfl, ?_, ?_⟩
    · have hnd : ((g.taggedEdges w).map (fun x => x.1.2.2)).Nodup := by
        unfold Graph.taggedEdges
        rw [List.map_map]
        have : ((fun x : (V × V × Fin g.edgesData.length) × K => x.1.2.2) ∘
            fun i => (((g.endsAt i).1, (g.endsAt i).2, i), w i)) = id := rfl
        rw [this, List.map_id]
        exact List.nodup_finRange _
      exact (hsub'.map _).nodup ((hp.map _).nodup_iff.2 hnd)
    · unfold Graph.keptIndices
      rw [List.pairwise_map]
      refine ((sortByWeight_sorted (g.taggedEdges w)).sublist hsub').imp_of_mem (fun hx hy hle => ?_)
      rw [htag _ hx, htag _ hy] at hle
      exact hle
    · intro x y
      have e1 : LinkedBy g.endsAt {i | i ∈ g.keptIndices w} x y ↔
          Linked ((keepNew [] (bucketsOf (g.sortedTags w))).map wpair) x y := by
        refine linkedBy_iff (fun p => ?_)
        unfold Graph.keptIndices
        simp only [List.mem_map, Set.mem_ofPred_eq]
        constructor
        · rintro ⟨x, hx, rfl⟩
          refine ⟨_, ⟨x, hx, rfl⟩, ?_⟩
          conv_rhs => rw [htag x hx]
          rfl
        · rintro ⟨_, ⟨x, hx, rfl⟩, rfl⟩
          refine ⟨x, hx, ?_⟩
          conv_lhs => rw [htag x hx]
          rfl
      have e2 := linked_keepNew [] (bucketsOf (g.sortedTags w)) (x := x) (y := y)
      rw [List.nil_append, List.nil_append] at e2
      rw [e1, e2]
      have e3 : (bucketsOf (g.sortedTags w)).flatten = sortByWeight (g.taggedEdges w) := h2
      rw [e3]
      have hm : ∀ p, p ∈ (sortByWeight (g.taggedEdges w)).map wpair ↔ p ∈ g.edges := by
        intro p
        rw [(hp.map wpair).mem_iff]
        unfold Graph.taggedEdges
        rw [List.map_map, List.mem_map]
        obtain ⟨a, b⟩ := p
        rw [mem_edges]
        constructor
        · rintro ⟨i, -, e⟩
          refine ⟨g.edgesData[i].2.2, ?_⟩
          have : ((a, b, g.edgesData[i].2.2) : V × V × Attrs (Val K)) = g.edgesData[i] := by
            simp only [Function.comp, wpair, epair, Graph.endsAt, Prod.mk.injEq] at e
            rw [← e.1, ← e.2]
          rw [this]
          exact List.getElem_mem _
        · rintro ⟨c, hc⟩
          obtain ⟨i, hi, e⟩ := List.mem_iff_getElem.1 hc
          refine ⟨⟨i, hi⟩, List.mem_finRange _, ?_⟩
          simp [wpair, epair, Graph.endsAt, e]
      exact ⟨Linked.mono (fun p => (hm p).1), Linked.mono (fun p => (hm p).2)⟩
    · intro F hF i hi
      have hnl : ¬ LinkedBy g.endsAt {j | w i < w j} (g.endsAt i).1 (g.endsAt i).2 := fun hc =>
        hF.not_mem hc hi
      have hs := unlinked_sublist_keepNew [] (bucketsOf (g.sortedTags w)) h1 (by simp)
      rw [List.nil_append] at hs
      have e3 : (bucketsOf (g.sortedTags w)).flatten = sortByWeight (g.taggedEdges w) := h2
      rw [e3] at hs
      refine List.mem_map.2 ⟨(((g.endsAt i).1, (g.endsAt i).2, i), w i), hs.subset ?_, rfl⟩
      unfold unlinkedByHeavier
      refine List.mem_filter.2 ⟨hp.mem_iff.2 (mem_taggedEdges.2 rfl), ?_⟩
      classical
      rw [linked_heavier_iff hp] at hnl
      exact decide_eq_true hnl
  · rw [he] at herr; cases herr

/-- C24.  Whatever the numeric weights, near ties included: the edges yielded are edges of the graph, each
at most once, by decreasing weight; they link exactly the nodes that the edges of the graph link; and
every edge of every maximum spanning forest is yielded. -/
theorem unionOfMaximumSpanningTrees_connectivity {ulongMax : Nat} (hu : 2^32 - 1 ≤ ulongMax)
    {g : Graph V (Val K)} (h : g.WF) {attr : String} {w : Fin g.edgesData.length → K}
    (hw : g.Weights attr w) (hord : SafeOrder ulongMax g.order) :
    ∃ is : List (Fin g.edgesData.length), is.Nodup ∧ is.Pairwise (fun i j => w j ≤ w i) ∧
      unionOfMaximumSpanningTrees ulongMax g attr = ⟨is.map (fun i => g.edgesData[i]), none⟩ ∧
      (∀ x y, LinkedBy g.endsAt {i | i ∈ is} x y ↔ Linked g.edges x y) ∧
      ∀ F, IsMaxSpanningForest g.endsAt w F → ∀ i ∈ F, i ∈ is := by
  refine unionOfMaximumSpanningTrees_connectivity_ok hu h hw hord.1.le ?_
  rcases umst_cases hu h hord.1.le w hw rfl with ⟨h1, -⟩ | ⟨_, -, -, ho, -⟩
  · rw [h1]
  · exact absurd ho hord.not_overflow

/-! ### C25 -/

omit [DecidableEq V] [IsStrictOrderedRing K] in
theorem splitBuckets_nonempty {A : Type} (c : K) (cur rest : List ((V × V × A) × K)) (hc : cur ≠ []) :
    ∀ b ∈ splitBuckets c cur rest, b ≠ [] := by
  induction rest generalizing c cur with
  | nil => simpa [splitBuckets] using hc
  | cons x rest ih =>
    unfold splitBuckets
    split
    · intro b hb
      rcases List.mem_cons.1 hb with rfl | hb
      · exact hc
      · exact ih _ _ (by simp) b hb
    · exact ih _ _ (by simp)

omit [DecidableEq V] [Field K] [IsStrictOrderedRing K] in
theorem mem_dropLast_flatten {A : Type} {bs : List (List ((V × V × A) × K))} (hsep : Separated bs)
    (hne : ∀ b ∈ bs, b ≠ []) (heq : ∀ b ∈ bs, ∀ x ∈ b, ∀ y ∈ b, x.2 = y.2) {x : (V × V × A) × K} :
    x ∈ bs.dropLast.flatten ↔ x ∈ bs.flatten ∧ ∃ y ∈ bs.flatten, y.2 < x.2 := by
  rcases List.eq_nil_or_concat bs with rfl | ⟨init, last, rfl⟩
  · simp
  · rw [List.concat_eq_append] at hsep hne heq ⊢
    unfold Separated at hsep
    rw [List.pairwise_append] at hsep
    obtain ⟨-, -, h3⟩ := hsep
    simp only [List.dropLast_concat, List.flatten_append, List.flatten_singleton,
      List.mem_append]
    have h4 : ∀ x ∈ init.flatten, ∀ y ∈ last, y.2 < x.2 := by
      intro x hx y hy
      obtain ⟨b, hb, hx⟩ := List.mem_flatten.1 hx
      exact h3 b hb last (by simp) x hx y hy
    constructor
    · intro hx
      obtain ⟨y, hy⟩ := List.exists_mem_of_ne_nil _ (hne last (by simp))
      exact ⟨.inl hx, y, .inr hy, h4 x hx y hy⟩
    · rintro ⟨hx | hx, y, hy, hlt⟩
      · exact hx
      · exfalso
        rcases hy with hy | hy
        · exact absurd (h4 y hy x hx) hlt.not_gt
        · exact absurd (heq last (by simp) y hy x hx) hlt.ne

omit [IsStrictOrderedRing K] in
theorem linked_dropLast_untag (g : Graph V (Val K)) (w : Fin g.edgesData.length → K) :
    (bucketsOf (sortByWeight
      ((List.finRange g.edgesData.length).map (fun i => (g.edgesData[i], w i))))).dropLast.flatten.map wpair =
      (bucketsOf (g.sortedTags w)).dropLast.flatten.map wpair := by
  have hf : ∀ x : (V × V × Fin g.edgesData.length) × K, wpair (g.untag x) = wpair x ∧ (g.untag x).2 = x.2 := fun x => ⟨rfl, rfl⟩
  rw [← untag_tagged, sortByWeight_map hf, bucketsOf_map hf, ← List.map_dropLast, ← List.map_flatten,
    List.map_map]
  rfl

omit [IsStrictOrderedRing K] in
/-- C25, the part that holds: with numeric weights, on a graph of an order other than `2^8`, `2^16`,
`2^32` (where an `unsigned long` has 32 bits) and `2^64` on, nothing is raised. -/
theorem unionOfMaximumSpanningTrees_never_raises_partial {ulongMax : Nat} (hu : 2^32 - 1 ≤ ulongMax)
    {g : Graph V (Val K)} (h : g.WF) {attr : String} {w : Fin g.edgesData.length → K}
    (hw : g.Weights attr w) (hord : SafeOrder ulongMax g.order) :
    (unionOfMaximumSpanningTrees ulongMax g attr).err = none := by
  rcases umst_cases hu h hord.1.le w hw rfl with ⟨h1, -⟩ | ⟨_, -, -, ho, -⟩
  · rw [h1]
  · exact absurd ho hord.not_overflow

/-- C25.  At one of the four orders, `OverflowError` is raised exactly when the edges other than the
lightest ones are enough to link all the nodes (weights being equal or more than `1e-8` apart). -/
theorem unionOfMaximumSpanningTrees_overflow_iff {ulongMax : Nat} (hu : 2^32 - 1 ≤ ulongMax)
    {g : Graph V (Val K)} (h : g.WF) {attr : String} {w : Fin g.edgesData.length → K}
    (hw : g.Weights attr w) (hsep : NoNearTies w)
    (hord : g.order = 2^8 ∨ g.order = 2^16 ∨ (g.order = 2^32 ∧ ulongMax = 2^32 - 1) ∨ g.order = 2^64) :
    (unionOfMaximumSpanningTrees ulongMax g attr).err = some .overflowError ↔
      ∀ x ∈ g.nodes, ∀ y ∈ g.nodes, LinkedBy g.endsAt {i | ∃ j, w j < w i} x y := by
  obtain ⟨h1, h2, -⟩ := bucketsOf_spec _ (sortByWeight_sorted (g.taggedEdges w))
  have hp := sortByWeight_perm (g.taggedEdges w)
  have hne : ∀ b ∈ bucketsOf (g.sortedTags w), b ≠ [] := by
    cases hS : g.sortedTags w with
    | nil => simp [bucketsOf]
    | cons x rest => exact splitBuckets_nonempty _ _ _ (by simp)
  have e : ∀ x y, LinkedBy g.endsAt {i | ∃ j, w j < w i} x y ↔
      Linked ((bucketsOf (g.sortedTags w)).dropLast.flatten.map wpair) x y := by
    intro x y
    refine linkedBy_iff (fun p => ?_)
    simp only [List.mem_map]
    have e4 := fun z => mem_dropLast_flatten (x := z) h1 hne (bucketsOf_equal hsep)
    unfold Graph.sortedTags
    simp only [e4]
    rw [h2]
    simp only [hp.mem_iff]
    constructor
    · rintro ⟨x, ⟨hx, y, hy, hlt⟩, rfl⟩
      rw [mem_taggedEdges] at hx hy
      refine ⟨x.1.2.2, ⟨y.1.2.2, ?_⟩, ?_⟩
      · rw [hx, hy] at hlt; exact hlt
      · conv_rhs => rw [hx]
        rfl
    · rintro ⟨i, ⟨j, hlt⟩, rfl⟩
      exact ⟨(((g.endsAt i).1, (g.endsAt i).2, i), w i), ⟨mem_taggedEdges.2 rfl,
        (((g.endsAt j).1, (g.endsAt j).2, j), w j), mem_taggedEdges.2 rfl, hlt⟩, rfl⟩
  simp only [e]
  have hcap : g.order ≤ 2^64 := by omega
  rcases umst_cases hu h hcap w hw rfl with ⟨h1, hno⟩ | ⟨_, h1, -, -, hall⟩
  · rw [h1]
    rw [linked_dropLast_untag] at hno
    simpa using hno hord
  · rw [h1]
    rw [linked_dropLast_untag] at hall
    simpa using hall

omit [IsStrictOrderedRing K] in
/-- C25.  A graph with two edges or more, one of which has a weight that is not a number: `TypeError`
before anything is yielded. -/
theorem unionOfMaximumSpanningTrees_not_a_number {ulongMax : Nat} {g : Graph V (Val K)} (h : g.WF)
    {attr : String} (h2 : 2 ≤ g.edgesData.length) (hbad : ∃ e ∈ g.edgesData, ∀ w : K, ¬ HasWeight attr e.2.2 w) :
    ∃ t, unionOfMaximumSpanningTrees ulongMax g attr = ⟨[], some (.typeError t)⟩ := by
  have hsz : g.size = g.edgesData.length := by
    rw [Graph.size_eq h]; simp [Graph.edges, Graph.edgesData]
  have bad : ∀ a : Attrs (Val K), (∃ w, weightOf attr a = .ok w ∧ HasWeight attr a w) ∨
      ∃ t, weightOf attr a = .error (.typeError t) := by
    intro a
    unfold weightOf HasWeight
    rcases hg : a.get? (.str attr) with _ | v
    · exact .inl ⟨1, rfl, by simp⟩
    · cases v with
      | none => exact .inr ⟨_, rfl⟩
      | bool b => cases b <;> exact .inl ⟨_, rfl, by simp⟩
      | num k => exact .inl ⟨k, rfl, by simp⟩
      | str s => exact .inr ⟨_, rfl⟩
      | obj a b => exact .inr ⟨_, rfl⟩
  have werr : ∀ es : List (V × V × Attrs (Val K)), (∃ e ∈ es, ∀ w : K, ¬ HasWeight attr e.2.2 w) →
      ∃ t, weighted attr es = .error (.typeError t) := by
    intro es
    induction es with
    | nil => simp
    | cons e es ih =>
      rintro ⟨e', he', hb⟩
      rcases bad e.2.2 with ⟨w, hw, hh⟩ | ⟨t, ht⟩
      · rcases List.mem_cons.1 he' with rfl | he'
        · exact absurd hh (hb w)
        · obtain ⟨t, ht⟩ := ih ⟨e', he', hb⟩
          exact ⟨t, by simp only [weighted, hw, ht]⟩
      · exact ⟨t, by simp only [weighted, ht]⟩
  obtain ⟨t, ht⟩ := werr _ hbad
  refine ⟨t, ?_⟩
  have hk : sortKeys attr g.edgesData = .error (.typeError t) := by
    rcases hE : g.edgesData with _ | ⟨a, _ | ⟨b, l⟩⟩
    · rw [hE] at h2; simp at h2
    · rw [hE] at h2; simp at h2
    · rw [hE] at ht; exact ht
  unfold unionOfMaximumSpanningTrees
  rw [if_neg (by omega), hk]

omit [LinearOrder K] [IsStrictOrderedRing K] in
theorem HasWeight.unique {attr : String} {a : Attrs (Val K)} {w w' : K} (h : HasWeight attr a w)
    (h' : HasWeight attr a w') : w = w' := by
  have e := (weightOf_of_hasWeight h).symm.trans (weightOf_of_hasWeight h')
  simpa using e

/-! ### Concrete cases -/

/-- A square with a diagonal: two heavy sides, two lighter ones, and a light diagonal. -/
def square : Graph Int (Val ℚ) where
  directed := false
  multi := false
  attrs := []
  node := [(1, []), (2, []), (3, []), (4, [])]
  links := [⟨1, 2, [(.int 0, [(.str "weight", .num 3)])]⟩, ⟨2, 3, [(.int 0, [(.str "weight", .num 2)])]⟩,
    ⟨3, 4, [(.int 0, [(.str "weight", .num 3)])]⟩, ⟨4, 1, [(.int 0, [(.str "weight", .num 2)])]⟩,
    ⟨1, 3, [(.int 0, [])]⟩]

example : (unionOfMaximumSpanningTrees (2^64-1) square "weight").yields.map (fun e => (e.1, e.2.1)) =
    [(1, 2), (3, 4), (1, 4), (2, 3)] := by decide +kernel

theorem square_wf : square.WF := by
  constructor <;> decide

/-- The hypotheses of the theorems above hold of this graph. -/
example : ∃ w : Fin square.edgesData.length → ℚ, square.Weights "weight" w ∧ NoNearTies w ∧
    SafeOrder (2^64-1) square.order := by
  have e : square.edgesData.map (fun e => Dict.get? e.2.2 (.str "weight")) =
      [some (.num 3), some (.num 2), none, some (.num 2), some (.num 3)] := by decide +kernel
  have hwt : ∀ e ∈ square.edgesData, ∃ w : ℚ, HasWeight "weight" e.2.2 w ∧ (w = 1 ∨ w = 2 ∨ w = 3) := by
    intro x hx
    have := List.mem_map_of_mem (f := fun e => Dict.get? e.2.2 (.str "weight")) hx
    rw [e] at this
    simp only [List.mem_cons, List.not_mem_nil, or_false] at this
    unfold HasWeight
    rcases this with h | h | h | h | h <;> rw [h] <;> simp
  choose w hw using fun i : Fin square.edgesData.length => hwt square.edgesData[i] (List.getElem_mem _)
  refine ⟨w, fun i => (hw i).1, fun i j => ?_, by unfold SafeOrder; decide⟩
  rcases (hw i).2 with hi | hi | hi <;> rcases (hw j).2 with hj | hj | hj <;> rw [hi, hj] <;> norm_num [abs]

/-- A triangle whose third side is lighter by half a tolerance. -/
def nearTie : Graph Int (Val ℚ) where
  directed := false
  multi := false
  attrs := []
  node := [(1, []), (2, []), (3, [])]
  links := [⟨1, 2, [(.int 0, [(.str "weight", .num 1)])]⟩, ⟨2, 3, [(.int 0, [(.str "weight", .num 1)])]⟩,
    ⟨1, 3, [(.int 0, [(.str "weight", .num (1 - 1 / (2 * 10 ^ 8)))])]⟩]

theorem nearTie_edges : nearTie.edgesData = [(1, 2, [(.str "weight", .num 1)]),
    (1, 3, [(.str "weight", .num (1 - 1 / (2 * 10 ^ 8)))]), (2, 3, [(.str "weight", .num 1)])] := by
  decide +kernel

/-- C23 needs its hypothesis on the weights: within the tolerance, an edge of no maximum spanning forest
is yielded. -/
theorem unionOfMaximumSpanningTrees_near_tie :
    nearTie.WF ∧ (unionOfMaximumSpanningTrees (2^64-1) nearTie "weight").yields.length = 3 ∧
      ∃ (i : Fin nearTie.edgesData.length), ∀ w, nearTie.Weights "weight" w →
        ∀ F, IsMaxSpanningForest nearTie.endsAt w F → i ∉ F := by
  refine ⟨by constructor <;> decide, by decide +kernel, ?_⟩
  have hl : nearTie.edgesData.length = 3 := by rw [nearTie_edges]; rfl
  have g0 : nearTie.edgesData[0] = (1, 2, [(.str "weight", .num 1)]) := by simp [nearTie_edges]
  have g1 : nearTie.edgesData[1] = (1, 3, [(.str "weight", .num (1 - 1 / (2 * 10 ^ 8)))]) := by
    simp [nearTie_edges]
  have g2 : nearTie.edgesData[2] = (2, 3, [(.str "weight", .num 1)]) := by simp [nearTie_edges]
  refine ⟨⟨1, by omega⟩, fun w hw F hF => ?_⟩
  have w0 : w ⟨0, by omega⟩ = 1 := (hw ⟨0, by omega⟩).unique (by
    simp only [Fin.getElem_fin, g0]; exact .inr (.inl rfl))
  have w1 : w ⟨1, by omega⟩ = 1 - 1 / (2 * 10 ^ 8) := (hw ⟨1, by omega⟩).unique (by
    simp only [Fin.getElem_fin, g1]; exact .inr (.inl rfl))
  have w2 : w ⟨2, by omega⟩ = 1 := (hw ⟨2, by omega⟩).unique (by
    simp only [Fin.getElem_fin, g2]; exact .inr (.inl rfl))
  refine hF.not_mem ?_
  have e0 : LinkedBy nearTie.endsAt {j | w ⟨1, by omega⟩ < w j} 1 2 := by
    have := LinkedBy.of_mem (ends := nearTie.endsAt) (F := {j | w ⟨1, by omega⟩ < w j}) (i := ⟨0, by omega⟩)
      (by show w _ < w _; rw [w0, w1]; norm_num)
    simpa only [Graph.endsAt, Fin.getElem_fin, g0] using this
  have e2 : LinkedBy nearTie.endsAt {j | w ⟨1, by omega⟩ < w j} 2 3 := by
    have := LinkedBy.of_mem (ends := nearTie.endsAt) (F := {j | w ⟨1, by omega⟩ < w j}) (i := ⟨2, by omega⟩)
      (by show w _ < w _; rw [w2, w1]; norm_num)
    simpa only [Graph.endsAt, Fin.getElem_fin, g2] using this
  simpa only [Graph.endsAt, Fin.getElem_fin, g1] using e0.trans e2

/-- A star over 256 nodes, and one lighter edge. -/
def star256 : Graph Nat (Val ℚ) where
  directed := false
  multi := false
  attrs := []
  node := (List.range 256).map (fun i => (i, []))
  links := (List.range 255).map (fun i => ⟨0, i + 1, [(.int 0, [])]⟩) ++
    [⟨1, 2, [(.int 0, [(.str "weight", .num 0)])]⟩]

theorem star256_links {l : Link Nat (Val ℚ)} (h : l ∈ star256.links) :
    (∃ i < 255, l = ⟨0, i + 1, [(.int 0, [])]⟩) ∨ l = ⟨1, 2, [(.int 0, [(.str "weight", .num 0)])]⟩ := by
  simp only [star256, List.mem_append, List.mem_map, List.mem_range, List.mem_singleton] at h
  rcases h with ⟨i, hi, rfl⟩ | rfl
  · exact .inl ⟨i, hi, rfl⟩
  · exact .inr rfl

theorem star256_nodes : star256.nodes = List.range 256 := by
  simp [star256, Graph.nodes, Dict.keys, Function.comp_def]

theorem star256_wf : star256.WF where
  attrs := List.nodup_nil
  nodup := by rw [star256_nodes]; exact List.nodup_range
  nodeAttrs := by
    intro p hp
    simp only [star256, List.mem_map] at hp
    obtain ⟨i, -, rfl⟩ := hp
    exact List.nodup_nil
  ends := by
    intro l hl
    rw [star256_nodes]
    rcases star256_links hl with ⟨i, hi, rfl⟩ | rfl
    · simp; omega
    · simp
  uniq := by
    simp only [star256, List.pairwise_append, List.pairwise_map]
    refine ⟨?_, by simp, ?_⟩
    · refine List.pairwise_lt_range.imp (fun h => ?_)
      simp [samePair]; omega
    · simp [samePair]
  nonempty := by
    intro l hl
    rcases star256_links hl with ⟨i, hi, rfl⟩ | rfl <;> simp
  keys := by
    intro l hl
    rcases star256_links hl with ⟨i, hi, rfl⟩ | rfl <;> simp [Dict.keys]
  edgeAttrs := by
    intro l hl
    rcases star256_links hl with ⟨i, hi, rfl⟩ | rfl <;> simp [Dict.keys]
  simple := by
    intro _ l hl
    rcases star256_links hl with ⟨i, hi, rfl⟩ | rfl <;> simp [Dict.keys]

theorem star256_edge {l : Link Nat (Val ℚ)} (hl : l ∈ star256.links) {k : PyKey} {a : Attrs (Val ℚ)}
    (hk : (k, a) ∈ l.data) : ∃ i, (star256.endsAt i = (l.u, l.v) ∨ star256.endsAt i = (l.v, l.u)) ∧
      star256.edgesData[i].2.2 = a := by
  have h1 := (Graph.mem_edgesData star256_wf).2 ⟨l, hl, rfl, rfl, k, hk⟩
  obtain ⟨i, hi, e⟩ := List.mem_iff_getElem.1 h1
  refine ⟨⟨i, hi⟩, ?_, by simp [e]⟩
  rcases star256.orient_cases l with h | ⟨-, h⟩
  · left; simp [Graph.endsAt, e, h]
  · right; simp [Graph.endsAt, e, h]

/-- C25 is false as stated: on this graph of 256 nodes with numeric weights `OverflowError` is raised. -/
theorem unionOfMaximumSpanningTrees_raises_at_256 {ulongMax : Nat} (hu : 2^32 - 1 ≤ ulongMax) :
    star256.WF ∧ (∀ e ∈ star256.edgesData, ∃ w : ℚ, HasWeight "weight" e.2.2 w) ∧
      (unionOfMaximumSpanningTrees ulongMax star256 "weight").err = some .overflowError := by
  have hattrs : ∀ e ∈ star256.edgesData, e.2.2 = [] ∨ e.2.2 = [(.str "weight", .num 0)] := by
    rintro ⟨u, v, a⟩ he
    obtain ⟨l, hl, -, -, k, hk⟩ := (Graph.mem_edgesData star256_wf).1 he
    rcases star256_links hl with ⟨i, hi, rfl⟩ | rfl <;> simp at hk <;> simp [hk]
  have hwt : ∀ e ∈ star256.edgesData, ∃ w : ℚ, HasWeight "weight" e.2.2 w ∧ (w = 1 ∨ w = 0) := by
    intro e he
    rcases hattrs e he with h | h
    · exact ⟨1, by rw [h]; exact .inl ⟨rfl, rfl⟩, .inl rfl⟩
    · exact ⟨0, by rw [h]; exact .inr (.inl rfl), .inr rfl⟩
  refine ⟨star256_wf, fun e he => (hwt e he).imp (fun _ h => h.1), ?_⟩
  choose w hw using fun i : Fin star256.edgesData.length => hwt star256.edgesData[i] (List.getElem_mem _)
  have hsep : NoNearTies w := by
    intro i j
    rcases (hw i).2 with hi | hi <;> rcases (hw j).2 with hj | hj <;> rw [hi, hj] <;> norm_num
  have hord : star256.order = 2^8 := by simp [star256, Graph.order]
  rw [unionOfMaximumSpanningTrees_overflow_iff hu star256_wf (fun i => (hw i).1) hsep (.inl hord)]
  -- the light edge
  obtain ⟨j, -, hj⟩ := star256_edge (l := ⟨1, 2, [(.int 0, [(.str "weight", .num 0)])]⟩)
    (by simp [star256]) (k := .int 0) (a := [(.str "weight", .num 0)]) (by simp)
  have hwj : w j = 0 := by
    have := (hw j).1
    rw [hj] at this
    exact this.unique (.inr (.inl rfl))
  have hlink : ∀ x ∈ star256.nodes, LinkedBy star256.endsAt {i | ∃ j, w j < w i} 0 x := by
    intro x hx
    rw [star256_nodes, List.mem_range] at hx
    rcases x with _ | x
    · exact LinkedBy.refl _ _
    · obtain ⟨i, hi, ha⟩ := star256_edge (l := ⟨0, x + 1, [(.int 0, [])]⟩)
        (by simp [star256]; omega) (k := .int 0) (a := []) (by simp)
      have hwi : w i = 1 := by
        have := (hw i).1
        rw [ha] at this
        exact this.unique (.inl ⟨rfl, rfl⟩)
      have hm : i ∈ {i | ∃ j, w j < w i} := ⟨j, by rw [hwi, hwj]; norm_num⟩
      have := LinkedBy.of_mem (ends := star256.endsAt) hm
      rcases hi with hi | hi <;> rw [hi] at this
      · exact this
      · exact this.symm
  exact fun x hx y hy => (hlink x hx).symm.trans (hlink y hy)

end Pelote
