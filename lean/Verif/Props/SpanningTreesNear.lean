import Verif.Props.SpanningTrees
import Verif.Spec.NearTies
import Mathlib.Data.Finset.Max
import Mathlib.Data.Fintype.Basic
import Mathlib.Data.Fintype.EquivFin
import Mathlib.Order.WellFounded
import Mathlib.Data.Set.Finite.Basic

/-! C23: union of maximum spanning trees, near ties included. -/
namespace Pelote
open scoped List
variable {V K : Type} [DecidableEq V] [Field K] [LinearOrder K] [IsStrictOrderedRing K]

theorem eps_pos : (0 : K) < 1 / 10 ^ 8 := by positivity

omit [DecidableEq V] in
theorem merge_values (s : Finset K) : ∃ r : K → K, (∀ v ∈ s, v ≤ r v) ∧ (∀ v ∈ s, r v ≤ v + 1 / 10 ^ 8) ∧
    (∀ v ∈ s, r v ∈ s) ∧ (∀ u ∈ s, ∀ v ∈ s, u ≤ v → r u ≤ r v) ∧
    ∀ u ∈ s, ∀ v ∈ s, r u = r v ∨ 1 / 10 ^ 8 < |r u - r v| := by
  induction s using Finset.induction_on_min with
  | empty => exact ⟨id, by simp⟩
  | insert a s ha ih =>
    obtain ⟨r, h1, h2, h3, h4, h5⟩ := ih
    have hna : a ∉ s := fun h => lt_irrefl a (ha a h)
    have hne : ∀ v ∈ s, v ≠ a := fun v hv e => hna (e ▸ hv)
    -- the value given to the smallest weight
    have key : ∃ m, a ≤ m ∧ m ≤ a + 1 / 10 ^ 8 ∧ m ∈ insert a s ∧ (∀ v ∈ s, m ≤ r v) ∧
        ∀ v ∈ s, m = r v ∨ 1 / 10 ^ 8 < |m - r v| := by
      rcases s.eq_empty_or_nonempty with rfl | hs
      · exact ⟨a, le_refl _, by linarith [eps_pos (K := K)], by simp, by simp, by simp⟩
      · have hb := s.min'_mem hs
        have hle : ∀ v ∈ s, r (s.min' hs) ≤ r v := fun v hv => h4 _ hb v hv (s.min'_le v hv)
        rcases le_or_gt (r (s.min' hs)) (a + 1 / 10 ^ 8) with hc | hc
        · exact ⟨r (s.min' hs), ((ha _ hb).trans_le (h1 _ hb)).le, hc, Finset.mem_insert_of_mem (h3 _ hb), hle,
            fun v hv => h5 _ hb v hv⟩
        · refine ⟨a, le_refl _, by linarith [eps_pos (K := K)], Finset.mem_insert_self _ _,
            fun v hv => ((ha v hv).trans_le (h1 v hv)).le, fun v hv => .inr ?_⟩
          rw [abs_sub_comm, lt_abs]
          have := hle v hv
          left; linarith
    obtain ⟨m, k1, k2, k3, k4, k5⟩ := key
    classical
    refine ⟨fun v => if v = a then m else r v, ?_, ?_, ?_, ?_, ?_⟩
    · intro v hv
      rcases Finset.mem_insert.1 hv with rfl | hv
      · simpa using k1
      · simpa [hne v hv] using h1 v hv
    · intro v hv
      rcases Finset.mem_insert.1 hv with rfl | hv
      · simpa using k2
      · simpa [hne v hv] using h2 v hv
    · intro v hv
      rcases Finset.mem_insert.1 hv with rfl | hv
      · simpa using k3
      · simpa [hne v hv] using Or.inr (h3 v hv)
    · intro u hu v hv huv
      rcases Finset.mem_insert.1 hu with rfl | hu' <;> rcases Finset.mem_insert.1 hv with rfl | hv'
      · exact le_refl _
      · simpa [hne v hv'] using k4 v hv'
      · exact absurd (ha u hu') (not_lt.2 huv)
      · simpa [hne v hv', hne u hu'] using h4 u hu' v hv' huv
    · intro u hu v hv
      rcases Finset.mem_insert.1 hu with rfl | hu' <;> rcases Finset.mem_insert.1 hv with rfl | hv'
      · exact .inl rfl
      · simpa [hne v hv'] using k5 v hv'
      · have := k5 u hu'
        rw [abs_sub_comm] at this
        simpa [hne u hu', eq_comm] using this
      · simpa [hne v hv', hne u hu'] using h5 u hu' v hv'

omit [DecidableEq V] in
/-- A merged weight which is some weight stays what it is. -/
theorem MergesNearTies.fixed {ι : Type} {w w' : ι → K} (h : MergesNearTies w w') {i j : ι} (e : w' i = w j) : w' j = w j := by
  have h1 := h.mono i j (by rw [← e]; exact h.above i)
  have h2 := h.within j
  rcases h.apart i j with h3 | h3
  · rw [← h3, e]
  · rw [lt_abs] at h3
    rcases h3 with h3 | h3 <;> linarith

omit [DecidableEq V] in
theorem MergesNearTies.unique {ι : Type} [Finite ι] {w w₁ w₂ : ι → K} (h₁ : MergesNearTies w w₁) (h₂ : MergesNearTies w w₂) :
    w₁ = w₂ := by
  have hwf : WellFounded (fun i j : ι => w j < w i) := by
    have : IsTrans ι (fun i j => w j < w i) := ⟨fun a b c h h' => lt_trans h' h⟩
    have : Std.Irrefl (fun i j : ι => w j < w i) := ⟨fun a h => lt_irrefl _ h⟩
    exact Finite.wellFounded_of_trans_of_irrefl _
  funext i
  induction i using hwf.induction with
  | h i ih =>
    have side : ∀ {w₁ w₂ : ι → K}, MergesNearTies w w₁ → MergesNearTies w w₂ → (∀ j, w i < w j → w₁ j = w₂ j) →
        w₁ i ≠ w i → w₁ i = w₂ i := by
      intro w₁ w₂ h₁ h₂ ih hne
      obtain ⟨j, hj⟩ := h₁.value i
      have hlt : w i < w j := lt_of_le_of_ne (hj ▸ h₁.above i) (fun e => hne (hj.trans e.symm))
      have h2j : w₂ j = w j := (ih j hlt).symm.trans (h₁.fixed hj)
      have hm := h₂.mono i j hlt.le
      have ha := h₂.above i
      have hw := h₁.within i
      rcases h₂.apart i j with h3 | h3
      · rw [h3, h2j, hj]
      · rw [lt_abs] at h3
        rcases h3 with h3 | h3 <;> linarith
    by_cases e1 : w₁ i = w i
    · by_cases e2 : w₂ i = w i
      · rw [e1, e2]
      · exact (side h₂ h₁ (fun j hj => (ih j hj).symm) e2).symm
    · exact side h₁ h₂ ih e1

omit [DecidableEq V] in
/-- Near ties are merged in exactly one way. -/
theorem mergesNearTies_existsUnique {ι : Type} [Finite ι] (w : ι → K) : ∃! w', MergesNearTies w w' := by
  classical
  have := Fintype.ofFinite ι
  obtain ⟨r, h1, h2, h3, h4, h5⟩ := merge_values (Finset.univ.image w)
  have mem : ∀ i, w i ∈ Finset.univ.image w := fun i => Finset.mem_image_of_mem _ (Finset.mem_univ i)
  have hm : MergesNearTies w (fun i => r (w i)) := by
    refine ⟨fun i => h1 _ (mem i), fun i => h2 _ (mem i), fun i => ?_, fun i j hij => h4 _ (mem i) _ (mem j) hij,
      fun i j => h5 _ (mem i) _ (mem j)⟩
    obtain ⟨j, -, hj⟩ := Finset.mem_image.1 (h3 _ (mem i))
    exact ⟨j, hj.symm⟩
  exact ⟨_, hm, fun w₂ h₂ => h₂.unique hm⟩

omit [DecidableEq V] in
/-- Without near ties there is nothing to merge. -/
theorem NoNearTies.merges {ι : Type} {w : ι → K} (h : NoNearTies w) : MergesNearTies w w :=
  ⟨fun _ => le_refl _, fun _ => by linarith [eps_pos (K := K)], fun i => ⟨i, rfl⟩, fun _ _ h => h, h⟩

/-! ### Buckets -/

section
variable {A : Type}

omit [DecidableEq V] in
/-- The buckets of a sorted list are the classes of its merged weights `W`. -/
theorem splitBuckets_merged {W : (V × V × A) × K → K} {all : List ((V × V × A) × K)}
    (habove : ∀ x ∈ all, x.2 ≤ W x) (hwithin : ∀ x ∈ all, W x ≤ x.2 + 1 / 10 ^ 8)
    (hvalue : ∀ x ∈ all, ∃ y ∈ all, W x = y.2 ∧ W y = y.2)
    (hmono : ∀ x ∈ all, ∀ y ∈ all, x.2 ≤ y.2 → W x ≤ W y)
    (hapart : ∀ x ∈ all, ∀ y ∈ all, W x = W y ∨ 1 / 10 ^ 8 < |W x - W y|)
    (rest : List ((V × V × A) × K)) : ∀ (before cur : List ((V × V × A) × K)) (c : K), all = before ++ (cur ++ rest) →
    all.Pairwise (fun x y => y.2 ≤ x.2) → cur ≠ [] → (∀ x ∈ cur, W x = c) → (∀ x ∈ before, c < W x) →
    (splitBuckets c cur rest).Pairwise (fun b b' => ∀ x ∈ b, ∀ y ∈ b', W y < W x) ∧
      ∀ b ∈ splitBuckets c cur rest, ∀ x ∈ b, ∀ y ∈ b, W x = W y := by
  induction rest with
  | nil =>
    intro before cur c _ _ _ hcur _
    simp only [splitBuckets, List.pairwise_singleton, List.mem_singleton, forall_eq, true_and]
    intro x hx y hy
    rw [hcur x hx, hcur y hy]
  | cons z rest ih =>
    intro before cur c hall hs hne hcur hbefore
    have hz : z ∈ all := by rw [hall]; simp
    have hs' := hs
    rw [hall, List.pairwise_append, List.pairwise_append] at hs'
    obtain ⟨-, ⟨-, hs2, hs3⟩, -⟩ := hs'
    obtain ⟨x0, hx0⟩ := List.exists_mem_of_ne_nil _ hne
    have hx0all : x0 ∈ all := by rw [hall]; simp [hx0]
    have hzc : W z ≤ c := by
      rw [← hcur x0 hx0]
      exact hmono z hz x0 hx0all (hs3 x0 hx0 z (by simp))
    unfold splitBuckets
    split
    · rename_i hw
      have hlt : W z < c := by
        have := hwithin z hz
        unfold weightEpsilon at hw
        linarith
      have hWz : W z = z.2 := by
        obtain ⟨y, hy, e1, e2⟩ := hvalue z hz
        have hmem := hy
        rw [hall, List.mem_append, List.mem_append, List.mem_cons] at hmem
        rcases hmem with h | h | rfl | h
        · exact absurd (hbefore y h) (by rw [e2, ← e1]; exact not_lt.2 hzc)
        · exact absurd (hcur y h) (by rw [e2, ← e1]; exact hlt.ne)
        · exact e1
        · refine le_antisymm ?_ (habove z hz)
          rw [e1]
          exact (List.pairwise_cons.1 hs2).1 y h
      obtain ⟨i1, i2⟩ := ih (before ++ cur) [z] z.2 (by rw [hall]; simp) hs (by simp) (by simpa using hWz) (by
        intro x hx
        rw [← hWz]
        rcases List.mem_append.1 hx with hx | hx
        · exact hlt.trans (hbefore x hx)
        · rw [hcur x hx]; exact hlt)
      refine ⟨?_, ?_⟩
      · rw [List.pairwise_cons]
        refine ⟨fun b' hb' x hx y hy => ?_, i1⟩
        have hyr : y ∈ z :: rest := by
          have : y ∈ (splitBuckets z.2 [z] rest).flatten := List.mem_flatten.2 ⟨b', hb', hy⟩
          rw [flatten_splitBuckets] at this
          exact this
        have hyall : y ∈ all := by rw [hall]; simp only [List.mem_append]; exact .inr (.inr hyr)
        rw [hcur x hx]
        refine lt_of_le_of_lt (hmono y hyall z hz ?_) hlt
        rcases List.mem_cons.1 hyr with rfl | hyr
        · exact le_refl _
        · exact (List.pairwise_cons.1 hs2).1 y hyr
      · intro b hb
        rcases List.mem_cons.1 hb with rfl | hb
        · intro x hx y hy
          rw [hcur x hx, hcur y hy]
        · exact i2 b hb
    · rename_i hw
      have hWz : W z = c := by
        have h1 := habove z hz
        unfold weightEpsilon at hw
        rcases hapart z hz x0 hx0all with h | h
        · rw [h, hcur x0 hx0]
        · rw [hcur x0 hx0, lt_abs] at h
          rcases h with h | h <;> linarith
      refine ih before (cur ++ [z]) c (by rw [hall]; simp) hs (by simp) ?_ hbefore
      intro x hx
      rcases List.mem_append.1 hx with hx | hx
      · exact hcur x hx
      · rw [List.mem_singleton.1 hx]; exact hWz

omit [DecidableEq V] in
theorem bucketsOf_merged {W : (V × V × A) × K → K} {all : List ((V × V × A) × K)}
    (habove : ∀ x ∈ all, x.2 ≤ W x) (hwithin : ∀ x ∈ all, W x ≤ x.2 + 1 / 10 ^ 8)
    (hvalue : ∀ x ∈ all, ∃ y ∈ all, W x = y.2 ∧ W y = y.2)
    (hmono : ∀ x ∈ all, ∀ y ∈ all, x.2 ≤ y.2 → W x ≤ W y)
    (hapart : ∀ x ∈ all, ∀ y ∈ all, W x = W y ∨ 1 / 10 ^ 8 < |W x - W y|)
    (hs : all.Pairwise (fun x y => y.2 ≤ x.2)) :
    (bucketsOf all).Pairwise (fun b b' => ∀ x ∈ b, ∀ y ∈ b', W y < W x) ∧
      ∀ b ∈ bucketsOf all, ∀ x ∈ b, ∀ y ∈ b, W x = W y := by
  rcases hall : all with _ | ⟨x, rest⟩
  · simp [bucketsOf]
  · unfold bucketsOf
    refine splitBuckets_merged (all := all) habove hwithin hvalue hmono hapart rest [] [x] x.2 (by rw [hall]; rfl) hs (by simp) ?_ (by simp)
    intro y hy
    rw [List.mem_singleton.1 hy]
    have hx : x ∈ all := by rw [hall]; simp
    obtain ⟨y, hy, e1, -⟩ := hvalue x hx
    refine le_antisymm ?_ (habove x hx)
    rw [e1]
    rw [hall] at hy hs
    rcases List.mem_cons.1 hy with rfl | hy
    · exact le_refl _
    · exact (List.pairwise_cons.1 hs).1 y hy

omit [DecidableEq V] [Field K] [LinearOrder K] [IsStrictOrderedRing K] in
/-- Which edges are kept only depends on the buckets, not on the weights. -/
theorem keepNew_reweight (f : (V × V × A) × K → (V × V × A) × K) (hf : ∀ x, (f x).1 = x.1)
    (P : List ((V × V × A) × K)) (bs : List (List ((V × V × A) × K))) :
    keepNew (P.map f) (bs.map (List.map f)) = (keepNew P bs).map f := by
  have hw : ∀ x, wpair (f x) = wpair x := fun x => by unfold wpair; rw [hf]
  induction bs generalizing P with
  | nil => rfl
  | cons b bs ih =>
    have hm : ∀ l : List ((V × V × A) × K), (l.map f).map wpair = l.map wpair := fun l => by
      rw [List.map_map]; exact List.map_congr_left (fun x _ => hw x)
    simp only [List.map_cons, keepNew, List.map_append, ← ih]
    congr 1
    unfold newEdges
    rw [List.filter_map, hm]
    congr 1
    refine List.filter_congr (fun x _ => ?_)
    simp only [Function.comp]
    rw [hw]

end

theorem buckets_reweighted {g : Graph V (Val K)} {w w' : Fin g.edgesData.length → K} (hm : MergesNearTies w w') :
    Separated ((bucketsOf (g.sortedTags w)).map (List.map (fun x => (x.1, w' x.1.2.2)))) ∧
      (∀ b ∈ (bucketsOf (g.sortedTags w)).map (List.map (fun x => (x.1, w' x.1.2.2))), ∀ x ∈ b, ∀ y ∈ b, x.2 = y.2) ∧
      ((bucketsOf (g.sortedTags w)).map (List.map (fun x => (x.1, w' x.1.2.2)))).flatten =
        (g.sortedTags w).map (fun x => (x.1, w' x.1.2.2)) ∧
      ((g.sortedTags w).map (fun x => (x.1, w' x.1.2.2))).Perm (g.taggedEdges w') := by
  have hp := sortByWeight_perm (g.taggedEdges w)
  have tag : ∀ x ∈ g.sortedTags w, x = (((g.endsAt x.1.2.2).1, (g.endsAt x.1.2.2).2, x.1.2.2), w x.1.2.2) :=
    fun x hx => mem_taggedEdges.1 (hp.mem_iff.1 hx)
  have tagw : ∀ x ∈ g.sortedTags w, x.2 = w x.1.2.2 := fun x hx => congrArg Prod.snd (tag x hx)
  obtain ⟨h1, h2⟩ := bucketsOf_merged (W := fun x => w' x.1.2.2) (all := g.sortedTags w)
    (fun x hx => by rw [tagw x hx]; exact hm.above _) (fun x hx => by rw [tagw x hx]; exact hm.within _)
    (fun x hx => by
      obtain ⟨j, hj⟩ := hm.value x.1.2.2
      exact ⟨(((g.endsAt j).1, (g.endsAt j).2, j), w j), hp.mem_iff.2 (mem_taggedEdges.2 rfl), hj, hm.fixed hj⟩)
    (fun x hx y hy hle => hm.mono _ _ (by rw [← tagw x hx, ← tagw y hy]; exact hle))
    (fun x _ y _ => hm.apart _ _) (sortByWeight_sorted (g.taggedEdges w))
  let f : (V × V × Fin g.edgesData.length) × K → (V × V × Fin g.edgesData.length) × K := fun x => (x.1, w' x.1.2.2)
  have hflat : ((bucketsOf (g.sortedTags w)).map (List.map f)).flatten = (g.sortedTags w).map f := by
    rw [← List.map_flatten, flatten_bucketsOf]
  have hsep : Separated ((bucketsOf (g.sortedTags w)).map (List.map f)) := by
    unfold Separated
    rw [List.pairwise_map]
    refine h1.imp (fun {b b'} h => ?_)
    intro x hx y hy
    obtain ⟨x', hx', rfl⟩ := List.mem_map.1 hx
    obtain ⟨y', hy', rfl⟩ := List.mem_map.1 hy
    exact h x' hx' y' hy'
  have heq : ∀ b ∈ (bucketsOf (g.sortedTags w)).map (List.map f), ∀ x ∈ b, ∀ y ∈ b, x.2 = y.2 := by
    intro b hb x hx y hy
    obtain ⟨b', hb', rfl⟩ := List.mem_map.1 hb
    obtain ⟨x', hx', rfl⟩ := List.mem_map.1 hx
    obtain ⟨y', hy', rfl⟩ := List.mem_map.1 hy
    exact h2 b' hb' x' hx' y' hy'
  have hp' : ((g.sortedTags w).map f).Perm (g.taggedEdges w') := by
    refine (hp.map f).trans (List.Perm.of_eq ?_)
    unfold Graph.taggedEdges
    rw [List.map_map]
    rfl
  exact ⟨hsep, heq, hflat, hp'⟩

open Classical in
theorem kept_perm_merged {g : Graph V (Val K)} {w w' : Fin g.edgesData.length → K} (hm : MergesNearTies w w') :
    (g.keptIndices w).Perm ((List.finRange g.edgesData.length).filter
      (fun i => ∃ F, IsMaxSpanningForest g.endsAt w' F ∧ i ∈ F)) := by
  obtain ⟨hsep, heq, hflat, hp'⟩ := buckets_reweighted hm
  let f : (V × V × Fin g.edgesData.length) × K → (V × V × Fin g.edgesData.length) × K := fun x => (x.1, w' x.1.2.2)
  have hkeep := keepNew_reweight f (fun _ => rfl) [] (bucketsOf (g.sortedTags w))
  have hidx : g.keptIndices w = (keepNew [] ((bucketsOf (g.sortedTags w)).map (List.map f))).map (fun x => x.1.2.2) := by
    rw [List.map_nil] at hkeep
    rw [hkeep, List.map_map]
    rfl
  rw [hidx, keepNew_eq [] _ hsep (by simp) heq, hflat, List.nil_append]
  unfold unlinkedByHeavier
  refine ((hp'.filter _).map _).trans ?_
  unfold Graph.taggedEdges
  rw [List.filter_map, List.map_map]
  refine List.Perm.of_eq ?_
  have : ∀ l : List (Fin g.edgesData.length), l.map ((fun x : (V × V × Fin g.edgesData.length) × K => x.1.2.2) ∘
      fun i => (((g.endsAt i).1, (g.endsAt i).2, i), w' i)) = l := fun l => by
    rw [show ((fun x : (V × V × Fin g.edgesData.length) × K => x.1.2.2) ∘
      fun i => (((g.endsAt i).1, (g.endsAt i).2, i), w' i)) = id from rfl, List.map_id]
  rw [this]
  refine List.filter_congr (fun i _ => ?_)
  simp only [Function.comp, decide_eq_decide]
  rw [mem_some_maxSpanningForest_iff, linked_heavier_iff hp']
  rfl

open Classical in
/-- C23, near ties included.  Whatever the numeric weights, the edges yielded are exactly the edges belonging to some
maximum spanning forest for the weights where near ties are merged, each once. -/
theorem unionOfMaximumSpanningTrees_merged {ulongMax : Nat} (hu : 2^32 - 1 ≤ ulongMax) {g : Graph V (Val K)}
    (h : g.WF) {attr : String} {w w' : Fin g.edgesData.length → K} (hw : g.Weights attr w) (hm : MergesNearTies w w')
    (hord : SafeOrder ulongMax g.order) :
    (unionOfMaximumSpanningTrees ulongMax g attr).err = none ∧
      (unionOfMaximumSpanningTrees ulongMax g attr).yields.Perm
        (((List.finRange g.edgesData.length).filter
          (fun i => ∃ F, IsMaxSpanningForest g.endsAt w' F ∧ i ∈ F)).map (fun i => g.edgesData[i])) := by
  rcases umst_cases hu h hord.1.le w hw rfl with ⟨h1, -⟩ | ⟨_, -, -, ho, -⟩
  · rw [h1, kept_eq]
    exact ⟨rfl, (kept_perm_merged hm).map _⟩
  · exact absurd ho hord.not_overflow

open Classical in
/-- C23 at the orders of C25.  If nothing is raised, the edges yielded are those of `unionOfMaximumSpanningTrees_merged`;
otherwise only such edges are, each at most once, before the error. -/
theorem unionOfMaximumSpanningTrees_any_order {ulongMax : Nat} (hu : 2^32 - 1 ≤ ulongMax) {g : Graph V (Val K)}
    (h : g.WF) {attr : String} {w w' : Fin g.edgesData.length → K} (hw : g.Weights attr w) (hm : MergesNearTies w w')
    (hcap : g.order ≤ 2^64) :
    ∃ is : List (Fin g.edgesData.length), (unionOfMaximumSpanningTrees ulongMax g attr).yields = is.map (fun i => g.edgesData[i]) ∧
      is.Nodup ∧ (∀ i ∈ is, ∃ F, IsMaxSpanningForest g.endsAt w' F ∧ i ∈ F) ∧
      ((unionOfMaximumSpanningTrees ulongMax g attr).err = none →
        ∀ i, (∃ F, IsMaxSpanningForest g.endsAt w' F ∧ i ∈ F) → i ∈ is) ∧
      ((unionOfMaximumSpanningTrees ulongMax g attr).err ≠ none →
        (unionOfMaximumSpanningTrees ulongMax g attr).err = some .overflowError ∧ OverflowOrder ulongMax g.order) := by
  have hp := kept_perm_merged (g := g) hm
  have hnd : (g.keptIndices w).Nodup := hp.nodup_iff.2 ((List.nodup_finRange _).filter _)
  have hmem : ∀ i, i ∈ g.keptIndices w ↔ ∃ F, IsMaxSpanningForest g.endsAt w' F ∧ i ∈ F := by
    intro i
    rw [hp.mem_iff]
    simp
  rcases umst_cases hu h hcap w hw rfl with ⟨h1, -⟩ | ⟨ys, h1, hpre, ho, -⟩
  · rw [h1, kept_eq]
    exact ⟨g.keptIndices w, rfl, hnd, fun i hi => (hmem i).1 hi, fun _ i hi => (hmem i).2 hi, fun hc => absurd rfl hc⟩
  · rw [kept_eq] at hpre
    obtain ⟨t, ht⟩ := hpre
    obtain ⟨l1, l2, e1, e2, -⟩ := List.map_eq_append_iff.1 ht.symm
    rw [h1]
    have hsub : l1.Sublist (g.keptIndices w) := by rw [e1]; exact List.sublist_append_left _ _
    exact ⟨l1, e2.symm, hnd.sublist hsub, fun i hi => (hmem i).1 (hsub.subset hi), fun hc => (by cases hc), fun _ => ⟨rfl, ho⟩⟩

/-- C25, near ties included.  At one of the four orders, `OverflowError` is raised exactly when the edges other than the
lightest ones, near ties being merged, are enough to link all the nodes. -/
theorem unionOfMaximumSpanningTrees_overflow_merged {ulongMax : Nat} (hu : 2^32 - 1 ≤ ulongMax)
    {g : Graph V (Val K)} (h : g.WF) {attr : String} {w w' : Fin g.edgesData.length → K}
    (hw : g.Weights attr w) (hm : MergesNearTies w w')
    (hord : g.order = 2^8 ∨ g.order = 2^16 ∨ (g.order = 2^32 ∧ ulongMax = 2^32 - 1) ∨ g.order = 2^64) :
    (unionOfMaximumSpanningTrees ulongMax g attr).err = some .overflowError ↔
      ∀ x ∈ g.nodes, ∀ y ∈ g.nodes, LinkedBy g.endsAt {i | ∃ j, w' j < w' i} x y := by
  obtain ⟨hsep, heq, hflat, hp'⟩ := buckets_reweighted hm
  have hne : ∀ b ∈ (bucketsOf (g.sortedTags w)).map (List.map (fun x => (x.1, w' x.1.2.2))), b ≠ [] := by
    intro b hb
    obtain ⟨b', hb', rfl⟩ := List.mem_map.1 hb
    have : ∀ b ∈ bucketsOf (g.sortedTags w), b ≠ [] := by
      cases hS : g.sortedTags w with
      | nil => simp [bucketsOf]
      | cons x rest => exact splitBuckets_nonempty _ _ _ (by simp)
    simpa using this b' hb'
  have e : ∀ x y, LinkedBy g.endsAt {i | ∃ j, w' j < w' i} x y ↔
      Linked ((bucketsOf (g.sortedTags w)).dropLast.flatten.map wpair) x y := by
    intro x y
    have hmap : (bucketsOf (g.sortedTags w)).dropLast.flatten.map wpair =
        ((bucketsOf (g.sortedTags w)).map (List.map (fun x => (x.1, w' x.1.2.2)))).dropLast.flatten.map wpair := by
      rw [← List.map_dropLast, ← List.map_flatten, List.map_map]
      rfl
    rw [hmap]
    refine linkedBy_iff (fun p => ?_)
    simp only [List.mem_map (f := wpair)]
    have e4 := fun z => mem_dropLast_flatten (x := z) hsep hne heq
    simp only [e4]
    rw [hflat]
    simp only [hp'.mem_iff]
    constructor
    · rintro ⟨x, ⟨hx, y, hy, hlt⟩, rfl⟩
      rw [mem_taggedEdges] at hx hy
      refine ⟨x.1.2.2, ⟨y.1.2.2, ?_⟩, ?_⟩
      · rw [hx, hy] at hlt; exact hlt
      · conv_rhs => rw [hx]
        rfl
    · rintro ⟨i, ⟨j, hlt⟩, rfl⟩
      exact ⟨(((g.endsAt i).1, (g.endsAt i).2, i), w' i), ⟨mem_taggedEdges.2 rfl,
        (((g.endsAt j).1, (g.endsAt j).2, j), w' j), mem_taggedEdges.2 rfl, hlt⟩, rfl⟩
  simp only [e]
  have hcap : g.order ≤ 2^64 := by omega
  rcases umst_cases hu h hcap w hw rfl with ⟨h1, hno⟩ | ⟨_, h1, -, -, hall⟩
  · rw [h1]
    rw [linked_dropLast_untag] at hno
    simpa using hno hord
  · rw [h1]
    rw [linked_dropLast_untag] at hall
    simpa using hall

/-- Weights 3, 3 - 1e-8 and 3 - 2e-8, and weight 1: the first two are merged, the third is more than `1e-8` below the first,
hence is not. -/
theorem mergesNearTies_sample :
    MergesNearTies (fun i : Fin 4 => ([3, 3 - 1 / 10 ^ 8, 3 - 2 / 10 ^ 8, 1] : List ℚ)[i])
      (fun i => ([3, 3, 3 - 2 / 10 ^ 8, 1] : List ℚ)[i]) := by
  refine ⟨?_, ?_, ?_, ?_, ?_⟩ <;> decide +kernel

end Pelote
