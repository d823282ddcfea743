import Verif.Lemmas.Bfs
import Verif.Lemmas.AddWeights
import Verif.Spec.SelfSimilarity
import Mathlib.Algebra.Order.Field.Basic
import Mathlib.Data.Nat.Cast.Order.Ring
import Mathlib.Tactic.Linarith
import Mathlib.Tactic.Push

/-! What the loops of the self similarity projection compute. -/
set_option linter.unusedSectionVars false
namespace Pelote
variable {V A K : Type} [DecidableEq V] [Field K] [LinearOrder K] [IsStrictOrderedRing K]

theorem countCandidates_append (C D : List V) (d : Dict V Nat) :
    countCandidates (C ++ D) d = countCandidates D (countCandidates C d) := by
  induction C generalizing d with
  | nil => rfl
  | cons c C ih => exact ih _

theorem countCandidates_nodup (C : List V) {d : Dict V Nat} (h : d.keys.Nodup) :
    (countCandidates C d).keys.Nodup := by
  induction C generalizing d with
  | nil => exact h
  | cons c C ih => exact ih (Dict.nodup_set _ _ h)

theorem countCandidates_get? (C : List V) (d : Dict V Nat) (k : V) :
    (countCandidates C d).get? k = if k ∈ C then some ((d.get? k).getD 0 + C.count k) else d.get? k := by
  induction C generalizing d with
  | nil => simp [countCandidates]
  | cons c C ih =>
    unfold countCandidates
    rw [ih, Dict.get?_set]
    by_cases hc : c = k
    · subst hc
      by_cases hm : c ∈ C
      · simp [hm]; omega
      · simp [hm, List.count_eq_zero_of_not_mem hm]
    · have hc' : ¬ k = c := fun h => hc h.symm
      by_cases hm : k ∈ C
      · simp [hm, hc, hc', List.count_cons]
      · simp [hm, hc, hc']

/-- The containers of the inverted index. -/
def container (index : Dict (Tag V) (List V)) (k : Tag V) : List V := (index.get? k).getD []

/-- What is yielded by a search, as tags. -/
def tagsOf (out : Bool) (E : List (V × Nat)) : List (Tag V) := E.map (fun p => (out, p.2, p.1))

theorem tagsOf_nodup {out : Bool} {E : List (V × Nat)} (h : (E.map Prod.fst).Nodup) : (tagsOf out E).Nodup := by
  apply List.Nodup.of_map (fun k : Tag V => k.2.2)
  unfold tagsOf
  rw [List.map_map]
  exact h

/-- The last distance yielded, if any. -/
def lastDepth (E : List (V × Nat)) (depth : Int) : Int :=
  match E.getLast? with
  | none => depth
  | some p => p.2

theorem tagLoop_spec (node : V) (out : Bool) (E : List (V × Nat)) (s : TagState V) (hn : (tagsOf out E).Nodup) :
    (tagLoop node out E s).depth = lastDepth E s.depth ∧
      (tagLoop node out E s).norm = s.norm + E.length ∧
      (tagLoop node out E s).candidates =
        countCandidates ((tagsOf out E).flatMap (container s.index)) s.candidates ∧
      ∀ k, container (tagLoop node out E s).index k =
        container s.index k ++ if k ∈ tagsOf out E then [node] else [] := by
  induction E generalizing s with
  | nil => exact ⟨rfl, rfl, rfl, by simp [tagsOf, tagLoop]⟩
  | cons p E ih =>
    obtain ⟨x, d⟩ := p
    have hcons : tagsOf out ((x, d) :: E) = (out, d, x) :: tagsOf out E := rfl
    rw [hcons] at hn ⊢
    rw [List.nodup_cons] at hn
    obtain ⟨h1, h2, h3, h4⟩ := ih ⟨d, s.norm + 1, countCandidates (container s.index (out, d, x)) s.candidates,
      s.index.set (out, d, x) (container s.index (out, d, x) ++ [node])⟩ hn.2
    have hunf : tagLoop node out ((x, d) :: E) s = tagLoop node out E
      ⟨d, s.norm + 1, countCandidates (container s.index (out, d, x)) s.candidates,
        s.index.set (out, d, x) (container s.index (out, d, x) ++ [node])⟩ := rfl
    rw [hunf]
    refine ⟨?_, ?_, ?_, ?_⟩
    · rw [h1]
      unfold lastDepth
      cases E with
      | nil => rfl
      | cons q E =>
        simp only [List.getLast?_cons_cons]
        cases hl : (q :: E).getLast? with
        | none => simp at hl
        | some r => rfl
    · rw [h2]; simp; omega
    · rw [h3, List.flatMap_cons, countCandidates_append]
      congr 1
      unfold List.flatMap
      congr 1
      apply List.map_congr_left
      intro k hk
      unfold container
      rw [Dict.get?_set_ne]
      rintro rfl
      exact hn.1 hk
    · intro k
      rw [h4]
      have hc : container (s.index.set (out, d, x) (container s.index (out, d, x) ++ [node])) k =
          if (out, d, x) = k then container s.index k ++ [node] else container s.index k := by
        unfold container
        rw [Dict.get?_set]
        by_cases he : (out, d, x) = k
        · subst he; simp
        · simp [he]
      rw [hc]
      by_cases he : (out, d, x) = k
      · subst he
        simp [hn.1]
      · have he' : ¬ k = (out, d, x) := fun h => he h.symm
        simp [he, he']

theorem lastDepth_bounds {g : Graph V A} (hwf : g.WF) (hdir : g.directed = true) {n : V} (hn : n ∈ g.nodes)
    (reverse : Bool) (depth : Int) :
    lastDepth (bfsFromNode g n reverse depth).yields depth ≤ depth ∧
      (1 ≤ depth → 1 ≤ lastDepth (bfsFromNode g n reverse depth).yields depth) := by
  unfold lastDepth
  split
  · exact ⟨le_rfl, id⟩
  · rename_i p hp
    have hm := List.mem_of_getLast? hp
    obtain ⟨h1, h2, _⟩ := ((bfsFromNode_spec hwf hdir hn reverse depth).2.1 p.1 p.2).1 hm
    exact ⟨h2, fun _ => by exact_mod_cast h1⟩

theorem lastDepth_reach {g : Graph V A} (hwf : g.WF) (hdir : g.directed = true) {n : V} (hn : n ∈ g.nodes)
    (reverse : Bool) (depth : Int) :
    lastDepth (bfsFromNode g n reverse depth).yields depth = g.reach reverse n depth := by
  obtain ⟨_, b2, _, b4⟩ := bfsFromNode_spec hwf hdir hn reverse depth
  generalize (bfsFromNode g n reverse depth).yields = E at *
  classical
  unfold lastDepth Graph.reach
  cases hp : E.getLast? with
  | none =>
    have hE : E = [] := List.getLast?_eq_none_iff.1 hp
    subst hE
    simp only
    rw [if_neg]
    rintro ⟨d, x, h⟩
    exact absurd ((b2 x d).2 h) List.not_mem_nil
  | some p =>
    obtain ⟨x, d⟩ := p
    have hx := (b2 x d).1 (List.mem_of_getLast? hp)
    simp only
    rw [if_pos ⟨d, x, hx⟩]
    congr 1
    symm
    rw [Nat.findGreatest_eq_iff]
    refine ⟨by omega, fun _ => ⟨x, hx.2.2⟩, ?_⟩
    rintro k hk hkd ⟨y, hy⟩
    have hm := (b2 y k).2 ⟨by omega, by omega, hy⟩
    obtain ⟨E', rfl⟩ := List.getLast?_eq_some_iff.1 hp
    rw [List.map_append, List.pairwise_append] at b4
    rcases List.mem_append.1 hm with hm | hm
    · have := b4.2.2 k (List.mem_map.2 ⟨_, hm, rfl⟩) d (by simp)
      omega
    · simp only [List.mem_singleton, Prod.mk.injEq] at hm
      omega

/-- The count of a candidate. -/
theorem count_candidates {K : List (Tag V)} {P : List V} (hP : P.Nodup) {T : V → List (Tag V)}
    {index : Dict (Tag V) (List V)} (hI : ∀ k, container index k = P.filter (fun m => decide (k ∈ T m))) (c : V) :
    (K.flatMap (container index)).count c = if c ∈ P then (K.filter (fun k => decide (k ∈ T c))).length else 0 := by
  induction K with
  | nil => simp
  | cons k K ih =>
    rw [List.flatMap_cons, List.count_append, ih, hI]
    by_cases hc : c ∈ P
    · simp only [hc, if_true]
      by_cases hk : k ∈ T c
      · rw [List.filter_cons_of_pos (by simpa using hk)]
        have : (P.filter (fun m => decide (k ∈ T m))).count c = 1 :=
          List.count_eq_one_of_mem (hP.filter _) (List.mem_filter.2 ⟨hc, by simpa using hk⟩)
        rw [this]; simp; omega
      · rw [List.filter_cons_of_neg (by simpa using hk)]
        have : (P.filter (fun m => decide (k ∈ T m))).count c = 0 := by
          apply List.count_eq_zero_of_not_mem
          intro h
          exact hk (by simpa using (List.mem_filter.1 h).2)
        rw [this]; simp
    · have : (P.filter (fun m => decide (k ∈ T m))).count c = 0 := by
        apply List.count_eq_zero_of_not_mem
        intro h
        exact hc (List.mem_filter.1 h).1
      simp [hc, this]

theorem mem_candidates {K : List (Tag V)} {P : List V} {T : V → List (Tag V)}
    {index : Dict (Tag V) (List V)} (hI : ∀ k, container index k = P.filter (fun m => decide (k ∈ T m))) (c : V) :
    c ∈ K.flatMap (container index) ↔ c ∈ P ∧ ∃ k ∈ K, k ∈ T c := by
  simp only [List.mem_flatMap, hI, List.mem_filter, decide_eq_true_eq]
  constructor
  · rintro ⟨k, hk, hc, ht⟩; exact ⟨hc, k, hk, ht⟩
  · rintro ⟨hc, k, hk, ht⟩; exact ⟨k, hk, hc, ht⟩

theorem similarityLoop_ok [AttrVal (Val K)] (rnd : K → K) {g : Graph V A} {norms : Dict V Nat} {node : V} {norm : Nat}
    (I : Dict V Nat) (mono : Graph V (Val K)) {sim : V → K} (hs : mono.multi = false)
    (hn : ∀ p ∈ I, ∃ cn, norms.get? p.1 = some cn ∧
      pyDiv (((p.2 : Int) : K)) (((norm : Int) + ((cn : Int) - (if g.hasEdge node p.1 then 2 else 0) -
        (if g.hasEdge p.1 node then 2 else 0)) - p.2 : Int) : K) = .ok (sim p.1)) :
    similarityLoop rnd g norms node norm I mono =
      .ok (addWeights mono (I.map (fun p => (node, p.1, rnd (sim p.1))))) := by
  induction I generalizing mono with
  | nil => rfl
  | cons p I ih =>
    obtain ⟨c, i⟩ := p
    obtain ⟨cn, h1, h2⟩ := hn (c, i) List.mem_cons_self
    simp only at h1 h2
    have he : (if g.hasEdge c node = true then (if g.hasEdge node c = true then (cn : Int) - 2 else cn) - 2
        else (if g.hasEdge node c = true then (cn : Int) - 2 else cn)) =
        (cn : Int) - (if g.hasEdge node c then 2 else 0) - (if g.hasEdge c node then 2 else 0) := by
      split <;> split <;> omega
    unfold similarityLoop Dict.getItem
    rw [h1]
    simp only [he, h2]
    rw [Graph.addEdge_ok (by rw [hs]; exact weight_kwSafe _)]
    simp only
    rw [ih _ (by rw [Graph.addEdgeCore_multi]; exact hs) (fun p hp => hn p (List.mem_cons_of_mem _ hp))]
    rfl

/-! ### The arithmetic of the score -/

theorem neighborhood_ne {g : Graph V A} {n : V} {lo li : Int} {T : Finset (Tag V)} (h : Neighborhood g n lo li T)
    {k : Tag V} (hk : k ∈ T) : k.2.2 ≠ n := by
  obtain ⟨out, d, x⟩ := k
  obtain ⟨h1, _, h3⟩ := (h out d x).1 hk
  rintro rfl
  exact h3.2 0 (by omega) .nil

theorem isDist_one {step : V → V → Prop} {u v : V} (h : u ≠ v) : IsDist step u v 1 ↔ step u v := by
  constructor
  · rintro ⟨hw, _⟩
    cases hw with
    | snoc hz hs => cases hz; exact hs
  · intro hs
    refine ⟨.snoc .nil hs, ?_⟩
    intro k hk hw
    have : k = 0 := by omega
    subst this
    cases hw
    exact h rfl

theorem card_unlinked {g : Graph V A} {u v : V} (huv : u ≠ v) {lo li : Int} (hlo : 1 ≤ lo) (hli : 1 ≤ li)
    {T : Finset (Tag V)} (h : Neighborhood g u lo li T) :
    ((unlinked v T).card : Int) =
      (T.card : Int) - (if g.hasEdge u v then 1 else 0) - (if g.hasEdge v u then 1 else 0) := by
  have hsplit := Finset.card_filter_add_card_filter_not (s := T) (fun k : Tag V => k.2.1 = 1 ∧ k.2.2 = v)
  have hlink : T.filter (fun k : Tag V => k.2.1 = 1 ∧ k.2.2 = v) =
      (if g.hasEdge u v then {(true, 1, v)} else ∅) ∪ (if g.hasEdge v u then {(false, 1, v)} else ∅) := by
    ext ⟨out, d, x⟩
    simp only [Finset.mem_filter, Finset.mem_union]
    constructor
    · rintro ⟨hm, rfl, rfl⟩
      obtain ⟨_, _, h3⟩ := (h _ _ _).1 hm
      rw [isDist_one huv] at h3
      cases out with
      | true => left; simp only [Graph.Step, Bool.not_true, Bool.false_eq_true, if_false] at h3; simp [h3]
      | false => right; simp only [Graph.Step, Bool.not_false, if_true] at h3; simp [h3]
    · rintro (hm | hm)
      · split at hm
        · rename_i he
          simp only [Finset.mem_singleton, Prod.mk.injEq] at hm
          obtain ⟨rfl, rfl, rfl⟩ := hm
          refine ⟨(h _ _ _).2 ⟨le_rfl, by simpa using hlo, ?_⟩, rfl, rfl⟩
          rw [isDist_one huv]
          simpa [Graph.Step] using he
        · simp at hm
      · split at hm
        · rename_i he
          simp only [Finset.mem_singleton, Prod.mk.injEq] at hm
          obtain ⟨rfl, rfl, rfl⟩ := hm
          refine ⟨(h _ _ _).2 ⟨le_rfl, by simpa using hli, ?_⟩, rfl, rfl⟩
          rw [isDist_one huv]
          simpa [Graph.Step] using he
        · simp at hm
  have hcard : ((T.filter (fun k : Tag V => k.2.1 = 1 ∧ k.2.2 = v)).card : Int) =
      (if g.hasEdge u v then 1 else 0) + (if g.hasEdge v u then 1 else 0) := by
    rw [hlink]
    by_cases h1 : g.hasEdge u v = true <;> by_cases h2 : g.hasEdge v u = true <;> simp [h1, h2]
  unfold unlinked
  omega

theorem unlinked_inter {g : Graph V A} {u v : V} {lo li lo' li' : Int} {S T : Finset (Tag V)}
    (hS : Neighborhood g u lo li S) (hT : Neighborhood g v lo' li' T) :
    unlinked v S ∩ unlinked u T = S ∩ T := by
  ext k
  simp only [unlinked, Finset.mem_inter, Finset.mem_filter]
  constructor
  · rintro ⟨⟨h1, _⟩, h2, _⟩; exact ⟨h1, h2⟩
  · rintro ⟨h1, h2⟩
    exact ⟨⟨h1, fun hh => neighborhood_ne hT h2 hh.2⟩, h2, fun hh => neighborhood_ne hS h1 hh.2⟩

/-- The denominator of the score. -/
theorem denominator_eq {g : Graph V A} {u v : V} (huv : u ≠ v) {lo li lo' li' : Int} (h1 : 1 ≤ lo) (h2 : 1 ≤ li)
    (h1' : 1 ≤ lo') (h2' : 1 ≤ li') {S T : Finset (Tag V)}
    (hS : Neighborhood g u lo li S) (hT : Neighborhood g v lo' li' T) :
    (S.card : Int) + ((T.card : Int) - (if g.hasEdge u v then 2 else 0) - (if g.hasEdge v u then 2 else 0)) -
      ((S ∩ T).card : Int) = ((unlinked v S ∪ unlinked u T).card : Int) := by
  have e1 := card_unlinked huv h1 h2 hS
  have e2 := card_unlinked huv.symm h1' h2' hT
  have e3 := Finset.card_union_add_card_inter (unlinked v S) (unlinked u T)
  rw [unlinked_inter hS hT] at e3
  by_cases h1 : g.hasEdge u v = true <;> by_cases h2 : g.hasEdge v u = true <;>
    simp only [h1, h2, if_true, Bool.false_eq_true, if_false] at e1 e2 ⊢ <;> omega

theorem tagSimilarity_comm (T : V → Finset (Tag V)) (u v : V) :
    (tagSimilarity T u v : K) = tagSimilarity T v u := by
  unfold tagSimilarity
  rw [Finset.inter_comm, Finset.union_comm]

theorem union_pos {g : Graph V A} {u v : V} {lo li lo' li' : Int} {S T : Finset (Tag V)}
    (hS : Neighborhood g u lo li S) (hT : Neighborhood g v lo' li' T) (h : (S ∩ T).Nonempty) :
    (S ∩ T).card ≤ (unlinked v S ∪ unlinked u T).card ∧ 0 < (S ∩ T).card := by
  refine ⟨?_, Finset.card_pos.2 h⟩
  rw [← unlinked_inter hS hT]
  exact Finset.card_le_card (Finset.inter_subset_left.trans Finset.subset_union_left)

/-- The tags as finite sets. -/
abbrev tagSets (T : V → List (Tag V)) (n : V) : Finset (Tag V) := (T n).toFinset

/-- Invariant of the main loop: `P` are the nodes already treated, `T` their tags. -/
structure SimInv (rnd : K → K) (g : Graph V (Val K)) (D : Int) (R : V → Int × Int) (P : Dict V (Attrs (Val K))) (T : V → List (Tag V))
    (norms : Dict V Nat) (index : Dict (Tag V) (List V)) (mono : Graph V (Val K)) : Prop where
  index : ∀ k, container index k = P.keys.filter (fun m => decide (k ∈ T m))
  norms : ∀ m ∈ P.keys, norms.get? m = some (T m).length
  wf : mono.WF
  directed : mono.directed = false
  multi : mono.multi = false
  attrs : mono.attrs = []
  node : mono.node = P
  nodup : ∀ m ∈ P.keys, (T m).Nodup
  nbhd : ∀ m ∈ P.keys, ∃ lo li, li ≤ lo ∧ lo ≤ D ∧ (1 ≤ D → 1 ≤ li) ∧ Neighborhood g m lo li (tagSets T m)
  radius : ∀ m ∈ P.keys, Neighborhood g m (R m).1 (R m).2 (tagSets T m)
  links : ∀ u v d, mono.keydict? u v = some d ↔ (u ≠ v ∧ u ∈ P.keys ∧ v ∈ P.keys ∧
    (tagSets T u ∩ tagSets T v).Nonempty) ∧ d = weightDict (rnd (tagSimilarity (tagSets T) u v))

theorem selfSimilarityLoop_ok [AttrVal (Val K)] (rnd : K → K) {g : Graph V (Val K)} (hwf : g.WF) (hdir : g.directed = true) {D : Int}
    {R : V → Int × Int}
    (L P : Dict V (Attrs (Val K))) (T : V → List (Tag V)) (cd : Int) (norms : Dict V Nat)
    (index : Dict (Tag V) (List V)) (mono : Graph V (Val K))
    (hL : (P ++ L).keys.Nodup) (hmem : ∀ n ∈ L.keys, n ∈ g.nodes) (hkw : ∀ p ∈ L, Graph.NodeKwSafe p.2)
    (hat : ∀ p ∈ L, p.2.keys.Nodup)
    (hcd : cd ≤ D ∧ (1 ≤ D → 1 ≤ cd)) (hR : ∀ m ∈ L.keys, R m = radii g L.keys cd m) (h : SimInv rnd g D R P T norms index mono) :
    ∃ T' norms' index' mono', selfSimilarityLoop rnd g L cd norms index mono = .ok mono' ∧
      SimInv rnd g D R (P ++ L) T' norms' index' mono' := by
  induction L generalizing P T cd norms index mono with
  | nil => exact ⟨T, norms, index, mono, rfl, by simpa using h⟩
  | cons p L ih =>
    obtain ⟨n, a⟩ := p
    have hassoc : P ++ (n, a) :: L = (P ++ [(n, a)]) ++ L := by simp
    have hn : n ∈ g.nodes := hmem n (by simp [Dict.keys_cons])
    have hPn : n ∉ P.keys := by
      intro hc
      rw [Dict.keys_append] at hL
      exact (List.nodup_append.1 hL).2.2 n hc n (by simp [Dict.keys_cons]) rfl
    have hPnodup : P.keys.Nodup := by
      rw [Dict.keys_append] at hL
      exact (List.nodup_append.1 hL).1
    have hneP : ∀ m ∈ P.keys, m ≠ n := fun m hm he => hPn (he ▸ hm)
    -- the two searches
    obtain ⟨b1, b2, b3, _⟩ := bfsFromNode_spec hwf hdir hn false cd
    obtain ⟨t1, t2, t3, t4⟩ := tagLoop_spec n true (bfsFromNode g n false cd).yields ⟨cd, 0, [], index⟩
      (tagsOf_nodup b3)
    have hd1 := lastDepth_bounds hwf hdir hn false cd
    have hr1 := lastDepth_reach hwf hdir hn false cd
    generalize hE1 : (bfsFromNode g n false cd).yields = E1 at *
    generalize hs1 : tagLoop n true E1 ⟨cd, 0, [], index⟩ = s1 at *
    simp only at t1 t2 t3 t4
    rw [← t1] at hd1 hr1
    obtain ⟨c1, c2, c3, _⟩ := bfsFromNode_spec hwf hdir hn true s1.depth
    obtain ⟨r1, r2, r3, r4⟩ := tagLoop_spec n false (bfsFromNode g n true s1.depth).yields s1 (tagsOf_nodup c3)
    have hd2 := lastDepth_bounds hwf hdir hn true s1.depth
    have hr2 := lastDepth_reach hwf hdir hn true s1.depth
    generalize hE2 : (bfsFromNode g n true s1.depth).yields = E2 at *
    generalize hs2 : tagLoop n false E2 s1 = s2 at *
    rw [← r1] at hd2 hr2
    -- the tags of the node
    have hK : (tagsOf true E1 ++ tagsOf false E2).Nodup := by
      refine List.nodup_append.2 ⟨tagsOf_nodup b3, tagsOf_nodup c3, ?_⟩
      rintro x hx y hy rfl
      obtain ⟨p, _, rfl⟩ := List.mem_map.1 hx
      obtain ⟨q, _, hq⟩ := List.mem_map.1 hy
      simp at hq
    have hflat : (tagsOf false E2).flatMap (container s1.index) = (tagsOf false E2).flatMap (container index) := by
      unfold List.flatMap
      congr 1
      apply List.map_congr_left
      intro k hk
      rw [t4, if_neg, List.append_nil]
      intro hk'
      exact (List.nodup_append.1 hK).2.2 k hk' k hk rfl
    generalize hTn : tagsOf true E1 ++ tagsOf false E2 = Tn at *
    have hcand : s2.candidates = countCandidates (Tn.flatMap (container index)) [] := by
      rw [r3, t3, hflat, ← countCandidates_append, ← List.flatMap_append, hTn]
    have hnorm : s2.norm = Tn.length := by
      rw [r2, t2, ← hTn]
      simp [tagsOf]
    have hindex : ∀ k, container s2.index k = container index k ++ if k ∈ Tn then [n] else [] := by
      intro k
      rw [r4, t4, ← hTn, List.append_assoc]
      congr 1
      by_cases k1 : k ∈ tagsOf true E1
      · have k2 : k ∉ tagsOf false E2 := by
          intro k2
          rw [← hTn] at hK
          exact (List.nodup_append.1 hK).2.2 k k1 k k2 rfl
        simp [k1, k2]
      · simp [k1]
    have hnb : Neighborhood g n cd s1.depth Tn.toFinset := by
      intro out d x
      rw [List.mem_toFinset, ← hTn, List.mem_append]
      have m1 : (out, d, x) ∈ tagsOf true E1 ↔ out = true ∧ (x, d) ∈ E1 := by
        unfold tagsOf
        rw [List.mem_map]
        constructor
        · rintro ⟨⟨y, e⟩, hm, he⟩
          simp only [Prod.mk.injEq] at he
          obtain ⟨rfl, rfl, rfl⟩ := he
          exact ⟨rfl, hm⟩
        · rintro ⟨rfl, hm⟩; exact ⟨_, hm, rfl⟩
      have m2 : (out, d, x) ∈ tagsOf false E2 ↔ out = false ∧ (x, d) ∈ E2 := by
        unfold tagsOf
        rw [List.mem_map]
        constructor
        · rintro ⟨⟨y, e⟩, hm, he⟩
          simp only [Prod.mk.injEq] at he
          obtain ⟨rfl, rfl, rfl⟩ := he
          exact ⟨rfl, hm⟩
        · rintro ⟨rfl, hm⟩; exact ⟨_, hm, rfl⟩
      rw [m1, m2, b2, c2]
      cases out <;> simp
    -- the scores
    let T' : V → List (Tag V) := Function.update T n Tn
    have hT'n : T' n = Tn := Function.update_self _ _ _
    have hT' : ∀ m ∈ P.keys, T' m = T m := fun m hm => Function.update_of_ne (hneP m hm) _ _
    have hlow : Tn ≠ [] → 1 ≤ D := by
      intro hne
      obtain ⟨⟨out, d, x⟩, hk⟩ := List.exists_mem_of_ne_nil _ hne
      obtain ⟨h1, h2, _⟩ := (hnb out d x).1 (List.mem_toFinset.2 hk)
      have := hcd.1
      cases out <;> simp only [if_true, Bool.false_eq_true, if_false] at h2 <;> omega
    have hget : ∀ c i, (c, i) ∈ s2.candidates ↔ c ∈ P.keys ∧ (∃ k ∈ Tn, k ∈ T c) ∧
        i = (Tn.filter (fun k => decide (k ∈ T c))).length := by
      intro c i
      rw [hcand, ← Dict.get?_iff_mem (countCandidates_nodup _ (by simp [Dict.keys])), countCandidates_get?,
        count_candidates hPnodup h.index]
      by_cases hc : c ∈ Tn.flatMap (container index)
      · rw [if_pos hc]
        rw [mem_candidates h.index] at hc
        simp only [hc.1, if_true, Dict.get?_nil, Option.getD_none, Nat.zero_add, Option.some.injEq, true_and]
        constructor
        · rintro rfl; exact ⟨hc.2, rfl⟩
        · rintro ⟨_, rfl⟩; rfl
      · rw [if_neg hc]
        rw [mem_candidates h.index] at hc
        simp only [Dict.get?_nil, reduceCtorEq, false_iff]
        rintro ⟨h1, h2, _⟩
        exact hc ⟨h1, h2⟩
    have hcard : ∀ c ∈ P.keys, (Tn.filter (fun k => decide (k ∈ T c))).length = (tagSets T' n ∩ tagSets T' c).card := by
      intro c hc
      unfold tagSets
      rw [hT'n, hT' c hc, ← List.toFinset_card_of_nodup (hK.filter _)]
      congr 1
      ext k
      simp
    have hsim := similarityLoop_ok rnd (g := g) (norms := norms.set n s2.norm) (node := n) (norm := s2.norm)
      s2.candidates ({ mono with node := mono.node ++ [(n, a)] })
      (sim := fun c => (tagSimilarity (tagSets T') n c : K)) h.multi
      (by
        rintro ⟨c, i⟩ hp
        obtain ⟨hc, ⟨k, hk1, hk2⟩, rfl⟩ := (hget c i).1 hp
        simp only
        refine ⟨(T c).length, ?_, ?_⟩
        · rw [Dict.get?_set_ne _ _ (hneP c hc).symm]; exact h.norms c hc
        · have hD := hlow (List.ne_nil_of_mem hk1)
          obtain ⟨lo, li, g1, g2, g3, g4⟩ := h.nbhd c hc
          have hl1 := hcd.2 hD
          have hl2 := hd1.2 hl1
          have hnbc : Neighborhood g c lo li (tagSets T' c) := by
            unfold tagSets at g4 ⊢; rw [hT' c hc]; exact g4
          have hnbn : Neighborhood g n cd s1.depth (tagSets T' n) := by
            unfold tagSets; rw [hT'n]; exact hnb
          have hden := denominator_eq (hneP c hc).symm hl1 hl2 (by have := g3 hD; omega) (g3 hD) hnbn hnbc
          have hne : (tagSets T' n ∩ tagSets T' c).Nonempty := by
            refine ⟨k, ?_⟩
            unfold tagSets
            rw [hT'n, hT' c hc]
            simp [hk1, hk2]
          obtain ⟨u1, u2⟩ := union_pos hnbn hnbc hne
          have hcn : (tagSets T' n).card = Tn.length := by
            unfold tagSets; rw [hT'n, List.toFinset_card_of_nodup hK]
          have hcc : (tagSets T' c).card = (T c).length := by
            unfold tagSets; rw [hT' c hc, List.toFinset_card_of_nodup (h.nodup c hc)]
          rw [hcard c hc, hnorm]
          rw [hcn, hcc] at hden
          rw [hden]
          have hpos : (((unlinked c (tagSets T' n) ∪ unlinked n (tagSets T' c)).card : Int) : K) ≠ 0 := by
            have : 0 < (unlinked c (tagSets T' n) ∪ unlinked n (tagSets T' c)).card := by omega
            exact_mod_cast this.ne'
          unfold pyDiv
          rw [if_neg hpos]
          unfold tagSimilarity
          push_cast
          rfl)
    -- the next state
    have hadd : mono.addNode n a = .ok { mono with node := mono.node ++ [(n, a)] } := by
      rw [Graph.addNode_ok (hkw (n, a) List.mem_cons_self), addNodeCore_fresh _ (hat (n, a) List.mem_cons_self)]
      unfold Graph.nodes; rw [h.node]; exact hPn
    have hwf1 : ({ mono with node := mono.node ++ [(n, a)] } : Graph V (Val K)).WF := by
      have := Graph.WF.addNodeCore h.wf n a
      rwa [addNodeCore_fresh (by unfold Graph.nodes; rw [h.node]; exact hPn) (hat (n, a) List.mem_cons_self)] at this
    have hEnd : ∀ e ∈ s2.candidates.map (fun p => (n, p.1, rnd (tagSimilarity (tagSets T') n p.1))),
        e.1 ∈ ({ mono with node := mono.node ++ [(n, a)] } : Graph V (Val K)).nodes ∧
          e.2.1 ∈ ({ mono with node := mono.node ++ [(n, a)] } : Graph V (Val K)).nodes := by
      intro e he
      obtain ⟨⟨c, i⟩, hp, rfl⟩ := List.mem_map.1 he
      obtain ⟨hc, _⟩ := (hget c i).1 hp
      simp only [Graph.nodes, Dict.keys_append, h.node, List.mem_append]
      exact ⟨.inr (by simp [Dict.keys_cons]), .inl hc⟩
    have hnode := addWeights_node _ hEnd
    have hsimold : ∀ u ∈ P.keys, ∀ v ∈ P.keys,
        (tagSimilarity (tagSets T') u v : K) = tagSimilarity (tagSets T) u v := by
      intro u hu v hv
      unfold tagSimilarity tagSets
      rw [hT' u hu, hT' v hv]
    have hkd := addWeights_keydict (g := { mono with node := mono.node ++ [(n, a)] }) h.directed h.multi
      (f := fun u v => rnd (tagSimilarity (tagSets T') u v)) (fun u v => congrArg rnd (tagSimilarity_comm _ u v))
      (s2.candidates.map (fun p => (n, p.1, rnd (tagSimilarity (tagSets T') n p.1))))
      (by
        intro e he
        obtain ⟨⟨c, i⟩, _, rfl⟩ := List.mem_map.1 he
        rfl)
      (by
        intro u v d hd
        have hd : mono.keydict? u v = some d := hd
        obtain ⟨⟨_, hu, hv, _⟩, rfl⟩ := (h.links u v d).1 hd
        rw [hsimold u hu v hv])
    have hkeys : (P ++ [(n, a)]).keys = P.keys ++ [n] := by simp [Dict.keys_append, Dict.keys_cons]
    have hI : SimInv rnd g D R (P ++ [(n, a)]) T' (norms.set n s2.norm) s2.index
        (addWeights { mono with node := mono.node ++ [(n, a)] }
          (s2.candidates.map (fun p => (n, p.1, rnd (tagSimilarity (tagSets T') n p.1))))) := by
      refine ⟨?_, ?_, addWeights_wf hwf1 _, ?_, ?_, ?_, ?_, ?_, ?_, ?_, ?_⟩
      · intro k
        rw [hindex, h.index, hkeys, List.filter_append]
        congr 1
        · apply List.filter_congr
          intro m hm
          rw [hT' m hm]
        · by_cases hk : k ∈ Tn <;> simp [hk, hT'n]
      · intro m hm
        rw [hkeys, List.mem_append] at hm
        rcases hm with hm | hm
        · rw [Dict.get?_set_ne _ _ (hneP m hm).symm, h.norms m hm, hT' m hm]
        · rw [List.mem_singleton.1 hm, Dict.get?_set, if_pos rfl, hnorm, hT'n]
      · rw [addWeights_directed]; exact h.directed
      · rw [addWeights_multi]; exact h.multi
      · rw [hnode.2]; exact h.attrs
      · rw [hnode.1, h.node]
      · intro m hm
        rw [hkeys, List.mem_append] at hm
        rcases hm with hm | hm
        · rw [hT' m hm]; exact h.nodup m hm
        · rw [List.mem_singleton.1 hm, hT'n]; exact hK
      · intro m hm
        rw [hkeys, List.mem_append] at hm
        rcases hm with hm | hm
        · unfold tagSets; rw [hT' m hm]; exact h.nbhd m hm
        · rw [List.mem_singleton.1 hm]
          refine ⟨cd, s1.depth, hd1.1, hcd.1, fun hD => hd1.2 (hcd.2 hD), ?_⟩
          unfold tagSets; rw [hT'n]; exact hnb
      · intro m hm
        rw [hkeys, List.mem_append] at hm
        rcases hm with hm | hm
        · unfold tagSets; rw [hT' m hm]; exact h.radius m hm
        · rw [List.mem_singleton.1 hm, hR n (by simp [Dict.keys_cons]), Dict.keys_cons, radii, if_pos rfl, ← hr1]
          unfold tagSets; rw [hT'n]; exact hnb
      · intro u v d
        rw [hkd]
        have hcase : (∃ e ∈ s2.candidates.map (fun p => (n, p.1, rnd (tagSimilarity (tagSets T') n p.1))),
            samePair false e.1 e.2.1 u v = true) ↔
            (u = n ∧ v ∈ P.keys ∧ (tagSets T' u ∩ tagSets T' v).Nonempty) ∨
            (v = n ∧ u ∈ P.keys ∧ (tagSets T' u ∩ tagSets T' v).Nonempty) := by
          have hne : ∀ c ∈ P.keys, (∃ k ∈ Tn, k ∈ T c) ↔ (tagSets T' n ∩ tagSets T' c).Nonempty := by
            intro c hc
            unfold tagSets
            rw [hT'n, hT' c hc]
            simp only [Finset.Nonempty, Finset.mem_inter, List.mem_toFinset]
          constructor
          · rintro ⟨e, he, hs⟩
            obtain ⟨⟨c, i⟩, hp, rfl⟩ := List.mem_map.1 he
            obtain ⟨hc, hk, _⟩ := (hget c i).1 hp
            rcases samePair_iff.1 hs with ⟨rfl, rfl⟩ | ⟨_, rfl, rfl⟩
            · exact .inl ⟨rfl, hc, (hne _ hc).1 hk⟩
            · refine .inr ⟨rfl, hc, ?_⟩
              rw [Finset.inter_comm]
              exact (hne _ hc).1 hk
          · rintro (⟨rfl, hc, hk⟩ | ⟨rfl, hc, hk⟩)
            · exact ⟨_, List.mem_map.2 ⟨(v, _), (hget v _).2 ⟨hc, (hne v hc).2 hk, rfl⟩, rfl⟩, samePair_refl _ _ _⟩
            · refine ⟨_, List.mem_map.2 ⟨(u, _), (hget u _).2 ⟨hc, (hne u hc).2 ?_, rfl⟩, rfl⟩, ?_⟩
              · rw [Finset.inter_comm]; exact hk
              · simp [samePair]
        have hold : ({ mono with node := mono.node ++ [(n, a)] } : Graph V (Val K)).keydict? u v = mono.keydict? u v := rfl
        rw [hold]
        by_cases hc : (∃ e ∈ s2.candidates.map (fun p => (n, p.1, rnd (tagSimilarity (tagSets T') n p.1))),
            samePair false e.1 e.2.1 u v = true)
        · rw [if_pos hc]
          rw [hkeys]
          simp only [Option.some.injEq, List.mem_append, List.mem_singleton]
          rcases hcase.1 hc with ⟨rfl, hv, hk⟩ | ⟨rfl, hu, hk⟩
          · constructor
            · rintro rfl; exact ⟨⟨(hneP v hv).symm, .inr rfl, .inl hv, hk⟩, rfl⟩
            · rintro ⟨_, rfl⟩; rfl
          · constructor
            · rintro rfl; exact ⟨⟨hneP u hu, .inl hu, .inr rfl, hk⟩, rfl⟩
            · rintro ⟨_, rfl⟩; rfl
        · rw [if_neg hc, h.links, hkeys]
          rw [hcase, not_or] at hc
          simp only [List.mem_append, List.mem_singleton]
          constructor
          · rintro ⟨⟨h1, h2, h3, h4⟩, rfl⟩
            refine ⟨⟨h1, .inl h2, .inl h3, ?_⟩, by rw [hsimold u h2 v h3]⟩
            unfold tagSets at h4 ⊢
            rw [hT' u h2, hT' v h3]; exact h4
          · rintro ⟨⟨h1, h2, h3, h4⟩, rfl⟩
            rcases h2 with h2 | rfl
            · rcases h3 with h3 | rfl
              · refine ⟨⟨h1, h2, h3, ?_⟩, by rw [hsimold u h2 v h3]⟩
                unfold tagSets at h4 ⊢
                rw [hT' u h2, hT' v h3] at h4; exact h4
              · exact absurd ⟨rfl, h2, h4⟩ hc.2
            · rcases h3 with h3 | rfl
              · exact absurd ⟨rfl, h3, h4⟩ hc.1
              · exact absurd rfl h1
    obtain ⟨T2, N2, I2, M2, e1, e2⟩ := ih (P ++ [(n, a)]) T' s2.depth (norms.set n s2.norm) s2.index _
      (by rw [← hassoc]; exact hL) (fun m hm => hmem m (by simp [Dict.keys_cons, hm]))
      (fun p hp => hkw p (List.mem_cons_of_mem _ hp)) (fun p hp => hat p (List.mem_cons_of_mem _ hp))
      ⟨by have := hcd.1; have := hd1.1; have := hd2.1; omega, fun hD => hd2.2 (hd1.2 (hcd.2 hD))⟩
      (by
        intro m hm
        rw [hR m (by simp [Dict.keys_cons, hm]), Dict.keys_cons, radii, if_neg, ← hr1, ← hr2]
        rintro rfl
        rw [hassoc, Dict.keys_append, Dict.keys_append] at hL
        exact (List.nodup_append.1 hL).2.2 m (by simp [Dict.keys_cons]) m hm rfl) hI
    refine ⟨T2, N2, I2, M2, ?_, by rw [hassoc]; exact e2⟩
    unfold selfSimilarityLoop
    simp only [hadd, b1, hE1, hs1, c1, hE2, hs2, hsim]
    exact e1

end Pelote
