import Verif.Model.SpanningTrees
import Verif.Lemmas.DisjointSet
import Verif.Lemmas.SpanningForest
import Verif.Lemmas.Degree
import Verif.Lemmas.Components
import Verif.Spec.Weight
import Mathlib.Data.List.Basic
import Mathlib.Data.List.Perm.Subperm
import Mathlib.Tactic.Linarith

/-! What the bucket loop of `union_of_maximum_spanning_trees` yields. -/
namespace Pelote
open scoped List
variable {V K A : Type} [DecidableEq V]

/-! ### The disjoint set over the nodes of a graph -/

/-- The disjoint set holds the classes of the given pairs of nodes. -/
def DSGood (nodes : List V) (m : Nat) (ds : DisjointSet V) (pairs : List (V × V)) : Prop :=
  ∃ seen, DisjointSet.Inv ds seen pairs ∧ (∀ x ∈ seen, x ∈ nodes) ∧ ds.uf.capacity = nodes.length ∧
    ds.uf.cellMax = m

theorem mem_showKey' {seen : List V} {x y : V} (h : y ∈ showKey seen x) : y ∈ seen ∨ y = x := by
  unfold showKey at h
  split at h <;> simp_all

variable {nodes : List V} {m : Nat} {ds : DisjointSet V} {pairs : List (V × V)}

omit [DecidableEq V] in
theorem mem_of_nodup_length {l l' : List V} (hn : l.Nodup) (hs : ∀ x ∈ l, x ∈ l') (hl : l.length = l'.length)
    {x : V} (hx : x ∈ l') : x ∈ l :=
  ((List.subperm_of_subset hn hs).perm_of_length_le hl.ge).mem_iff.2 hx

theorem DSGood.not_full (h : DSGood nodes m ds pairs) (hn : nodes.Nodup) (hc : nodes.length = m + 1) :
    ¬ ∀ x ∈ nodes, ∀ y ∈ nodes, Linked pairs x y := by
  obtain ⟨seen, hinv, hsub, hcap, hm⟩ := h
  intro hall
  obtain ⟨root, depth, hu⟩ := hinv.uf
  have hpos := hu.cellMax_pos
  have hc' : ds.uf.capacity = ds.uf.cellMax + 1 := by omega
  by_cases hlen : seen.length = ds.uf.capacity
  · refine hu.not_full hc' (fun x hx y hy => ?_)
    rw [← hlen] at hx hy
    have hn := hinv.reg.nodup
    rw [← hn.idxOf_getElem x hx, ← hn.idxOf_getElem y hy,
      DisjointSet.linked_idPairs hinv.mem (List.getElem_mem _) (List.getElem_mem _)]
    exact hall _ (hsub _ (List.getElem_mem _)) _ (hsub _ (List.getElem_mem _))
  · have hle := hinv.le
    have hlt : seen.length < nodes.length := by omega
    -- some node was never seen
    have : ∃ x ∈ nodes, x ∉ seen := by
      by_contra hcon
      push Not at hcon
      have := (List.subperm_of_subset hn hcon).length_le
      omega
    obtain ⟨x, hx, hxs⟩ := this
    -- and there is another one
    have : ∃ y ∈ nodes, y ≠ x := by
      by_contra hcon
      push Not at hcon
      have := (List.subperm_of_subset hn (l₂ := [x]) (fun y hy => by simp [hcon y hy])).length_le
      simp at this
      omega
    obtain ⟨y, hy, hyx⟩ := this
    rcases (hall x hx y hy).eq_or_mem with e | ⟨⟨p, hp, rfl | rfl⟩, _⟩
    · exact hyx e.symm
    · exact hxs (hinv.mem p hp).1
    · exact hxs (hinv.mem p hp).2

theorem DSGood.fits {seen : List V} {op : UFOp V} (hop : op ≠ .clear)
    (hnd : (op.seenNext seen).Nodup) (hsub : ∀ x ∈ seen, x ∈ nodes) (hi : ∀ x ∈ op.items, x ∈ nodes) :
    (∀ x ∈ op.seenNext seen, x ∈ nodes) ∧ (op.seenNext seen).length ≤ nodes.length := by
  have h1 : ∀ x ∈ op.seenNext seen, x ∈ nodes := by
    have gen : ∀ (is : List V) (seen : List V), (∀ x ∈ seen, x ∈ nodes) → (∀ x ∈ is, x ∈ nodes) →
        ∀ x ∈ is.foldl showKey seen, x ∈ nodes := by
      intro is
      induction is with
      | nil => intro seen h _; exact h
      | cons i is ih =>
        intro seen h h'
        refine ih _ (fun x hx => ?_) (fun x hx => h' x (by simp [hx]))
        rcases mem_showKey' hx with hx | rfl
        · exact h x hx
        · exact h' x (by simp)
    cases op with
    | clear => exact absurd rfl hop
    | _ => exact gen _ _ hsub hi
  exact ⟨h1, (List.subperm_of_subset hnd h1).length_le⟩

theorem nodup_seenNext {seen : List V} (h : seen.Nodup) (op : UFOp V) : (op.seenNext seen).Nodup := by
  have gen : ∀ (is : List V) (seen : List V), seen.Nodup → (is.foldl showKey seen).Nodup := by
    intro is
    induction is with
    | nil => intro seen h; exact h
    | cons i is ih => intro seen h; exact ih _ (nodup_showKey h i)
  cases op with
  | clear => exact List.nodup_nil
  | _ => exact gen _ _ h

theorem map_bool_ok {x : Py Bool} {out : UFOut} (h : x.map UFOut.bool = .ok out) :
    ∃ b, x = .ok b ∧ out = .bool b := by
  cases x with
  | error e => simp [Except.map] at h
  | ok b => simp [Except.map] at h; exact ⟨b, rfl, h.symm⟩

theorem map_bool_error {x : Py Bool} {e : PyErr} (h : x.map UFOut.bool = .error e) : x = .error e := by
  cases x with
  | error e' => simpa [Except.map] using h
  | ok b => simp [Except.map] at h

theorem DSGood.same (h : DSGood nodes m ds pairs) (hn : nodes.Nodup) {u v : V} (hu : u ∈ nodes)
    (hv : v ∈ nodes) :
    ∃ ds' b, ds.areInSameSet u v = (ds', .ok b) ∧ (b = true ↔ Linked pairs u v) ∧
      DSGood nodes m ds' pairs := by
  have hg := h
  obtain ⟨seen, hinv, hsub, hcap, hm⟩ := h
  have hnd := nodup_seenNext hinv.reg.nodup (.same u v)
  obtain ⟨h1, h2⟩ := DSGood.fits (op := .same u v) (by simp) hnd hsub (by simp [UFOp.items, hu, hv])
  rcases hinv.step (.same u v) (hcap ▸ h2) with ⟨s', out, hs, hexp, hinv', hcap', hm'⟩ | ⟨_, hc, hl, hall⟩
  · simp only [DisjointSet.step, Prod.mk.injEq] at hs
    obtain ⟨b, hb, rfl⟩ := map_bool_ok hs.2
    exact ⟨s', b, Prod.ext hs.1 hb, hexp, _, hinv', h1, hcap'.trans hcap, hm'.trans hm⟩
  · exfalso
    refine hg.not_full hn (by omega) (fun x hx y hy => hall x ?_ y ?_)
    · exact mem_of_nodup_length hnd h1 (hl.trans hcap) hx
    · exact mem_of_nodup_length hnd h1 (hl.trans hcap) hy

theorem DSGood.union (h : DSGood nodes m ds pairs) {u v : V} (hu : u ∈ nodes)
    (hv : v ∈ nodes) :
    (∃ ds' b, ds.union u v = (ds', .ok b) ∧ DSGood nodes m ds' ((u, v) :: pairs)) ∨
    (∃ ds', ds.union u v = (ds', .error .overflowError) ∧ nodes.length = m + 1 ∧
      ∀ x ∈ nodes, ∀ y ∈ nodes, Linked ((u, v) :: pairs) x y) := by
  obtain ⟨seen, hinv, hsub, hcap, hm⟩ := h
  have hnd := nodup_seenNext hinv.reg.nodup (.union u v)
  obtain ⟨h1, h2⟩ := DSGood.fits (op := .union u v) (by simp) hnd hsub (by simp [UFOp.items, hu, hv])
  rcases hinv.step (.union u v) (hcap ▸ h2) with ⟨s', out, hs, hexp, hinv', hcap', hm'⟩ | ⟨he, hc, hl, hall⟩
  · left
    simp only [DisjointSet.step, Prod.mk.injEq] at hs
    obtain ⟨b, hb, rfl⟩ := map_bool_ok hs.2
    exact ⟨s', b, Prod.ext hs.1 hb, _, hinv', h1, hcap'.trans hcap, hm'.trans hm⟩
  · right
    simp only [DisjointSet.step] at he
    refine ⟨_, Prod.ext rfl (map_bool_error he), by omega, fun x hx y hy => hall x ?_ y ?_⟩
    · exact mem_of_nodup_length hnd h1 (hl.trans hcap) hx
    · exact mem_of_nodup_length hnd h1 (hl.trans hcap) hy

/-! ### The loop -/

/-- The ends of an edge. -/
def epair (e : V × V × A) : V × V := (e.1, e.2.1)

/-- The ends of a weighted edge. -/
def wpair (x : (V × V × A) × K) : V × V := epair x.1

theorem DSGood.flush (es : List (V × V × A)) (hes : ∀ e ∈ es, e.1 ∈ nodes ∧ e.2.1 ∈ nodes)
    (h : DSGood nodes m ds pairs) :
    (∃ ds', flushBucket ds es = (ds', ⟨es, none⟩) ∧
      DSGood nodes m ds' ((es.map epair).reverse ++ pairs)) ∨
    (∃ ds' ys, flushBucket ds es = (ds', ⟨ys, some .overflowError⟩) ∧ ys <+: es ∧ nodes.length = m + 1 ∧
      ∀ x ∈ nodes, ∀ y ∈ nodes, Linked ((es.map epair).reverse ++ pairs) x y) := by
  induction es generalizing ds pairs with
  | nil => exact .inl ⟨ds, rfl, h⟩
  | cons e es ih =>
    have he := hes e (by simp)
    rcases h.union he.1 he.2 with ⟨ds', b, h1, h2⟩ | ⟨ds', h1, hm, hall⟩
    · rcases ih (fun e' h' => hes e' (by simp [h'])) h2 with ⟨ds'', h3, h4⟩ | ⟨ds'', ys, h3, hpre, hm, hall⟩
      · left
        refine ⟨ds'', by simp only [flushBucket, h1, h3], ?_⟩
        simpa [epair] using h4
      · right
        refine ⟨ds'', e :: ys, by simp only [flushBucket, h1, h3], List.cons_prefix_cons.2 ⟨rfl, hpre⟩, hm, ?_⟩
        simpa [epair] using hall
    · right
      refine ⟨ds', [e], by simp only [flushBucket, h1], List.cons_prefix_cons.2 ⟨rfl, List.nil_prefix⟩, hm, ?_⟩
      intro x hx y hy
      refine (hall x hx y hy).mono (fun p hp => ?_)
      rcases List.mem_cons.1 hp with rfl | hp
      · simp [epair]
      · simp [hp]

variable [Field K] [LinearOrder K]

/-- The buckets: the rest of the sorted edges, given the head weight and contents of the current one. -/
def splitBuckets (c : K) (cur : List ((V × V × A) × K)) :
    List ((V × V × A) × K) → List (List ((V × V × A) × K))
  | [] => [cur]
  | x :: rest => if c - x.2 > weightEpsilon then cur :: splitBuckets x.2 [x] rest
    else splitBuckets c (cur ++ [x]) rest

open Classical in
/-- The edges of a bucket whose ends are not linked by the given edges. -/
noncomputable def newEdges (P b : List ((V × V × A) × K)) : List ((V × V × A) × K) :=
  b.filter (fun x => ¬ Linked (P.map wpair) (wpair x).1 (wpair x).2)

omit [DecidableEq V] [Field K] [LinearOrder K] in
theorem newEdges_append (P b b' : List ((V × V × A) × K)) :
    newEdges P (b ++ b') = newEdges P b ++ newEdges P b' := List.filter_append ..

omit [DecidableEq V] [Field K] [LinearOrder K] in
theorem newEdges_single {P : List ((V × V × A) × K)} {x : (V × V × A) × K} {b : Bool}
    (h : b = true ↔ Linked (P.map wpair) x.1.1 x.1.2.1) : newEdges P [x] = if b then [] else [x] := by
  classical
  cases b with
  | true => exact List.filter_cons_of_neg (by rw [decide_eq_true_eq, not_not]; exact h.1 rfl)
  | false => exact List.filter_cons_of_pos (by rw [decide_eq_true_eq]; exact fun hc => Bool.noConfusion (h.2 hc))

/-- The edges yielded from the given buckets, `P` being the edges of the buckets before. -/
noncomputable def keepNew (P : List ((V × V × A) × K)) : List (List ((V × V × A) × K)) →
    List ((V × V × A) × K)
  | [] => []
  | b :: bs => newEdges P b ++ keepNew (P ++ b) bs

omit [DecidableEq V] [Field K] [LinearOrder K] in
/-- Keeping only the edges that link something new changes nothing to what is linked. -/
theorem linked_newEdges (P b : List ((V × V × A) × K)) {x y : V} :
    Linked ((P ++ newEdges P b).map wpair) x y ↔ Linked ((P ++ b).map wpair) x y := by
  constructor
  · refine Linked.mono (fun p hp => ?_)
    simp only [List.map_append, List.mem_append, List.mem_map] at hp ⊢
    rcases hp with h | ⟨q, hq, rfl⟩
    · exact .inl h
    · exact .inr ⟨q, (List.mem_filter.1 hq).1, rfl⟩
  · intro h
    refine h.bind (fun u v huv => ?_)
    simp only [List.map_append, List.mem_append, List.mem_map] at huv
    rcases huv with ⟨q, hq, e⟩ | ⟨q, hq, e⟩
    · exact .of_mem (by simp only [List.map_append, List.mem_append, List.mem_map]; exact .inl ⟨q, hq, e⟩)
    · by_cases hl : Linked (P.map wpair) (wpair q).1 (wpair q).2
      · rw [e] at hl
        exact hl.mono (fun p hp => by simp only [List.map_append, List.mem_append]; exact .inl hp)
      · refine .of_mem ?_
        simp only [List.map_append, List.mem_append, List.mem_map]
        exact .inr ⟨q, List.mem_filter.2 ⟨hq, by simpa using hl⟩, e⟩

omit [DecidableEq V] [Field K] [LinearOrder K] in
theorem linked_congr_append {X Y Z : List (V × V)} (h : ∀ x y, Linked X x y ↔ Linked Y x y) {x y : V} :
    Linked (X ++ Z) x y ↔ Linked (Y ++ Z) x y := by
  have gen : ∀ (X Y : List (V × V)), (∀ x y, Linked X x y → Linked Y x y) → Linked (X ++ Z) x y → Linked (Y ++ Z) x y := by
    intro X Y h h'
    refine h'.bind (fun u v huv => ?_)
    rcases List.mem_append.1 huv with hm | hm
    · exact (h _ _ (.of_mem hm)).mono (fun p hp => by simp [hp])
    · exact .of_mem (by simp [hm])
  exact ⟨gen X Y (fun x y => (h x y).1), gen Y X (fun x y => (h x y).2)⟩

omit [DecidableEq V] [Field K] [LinearOrder K] in
theorem linked_keepNew (P : List ((V × V × A) × K)) (bs : List (List ((V × V × A) × K))) {x y : V} :
    Linked ((P ++ keepNew P bs).map wpair) x y ↔ Linked ((P ++ bs.flatten).map wpair) x y := by
  induction bs generalizing P with
  | nil => simp [keepNew]
  | cons b bs ih =>
    rw [List.flatten_cons, ← List.append_assoc, ← ih (P ++ b), keepNew, ← List.append_assoc]
    rw [List.map_append, List.map_append (l₁ := P ++ b)]
    exact linked_congr_append (fun x y => linked_newEdges P b)

omit [DecidableEq V] in
theorem splitBuckets_ne_nil (c : K) (cur rest : List ((V × V × A) × K)) : splitBuckets c cur rest ≠ [] := by
  induction rest generalizing c cur with
  | nil => simp [splitBuckets]
  | cons x rest ih =>
    unfold splitBuckets
    split
    · simp
    · exact ih _ _

omit [DecidableEq V] in
theorem flatten_splitBuckets (c : K) (cur rest : List ((V × V × A) × K)) :
    (splitBuckets c cur rest).flatten = cur ++ rest := by
  induction rest generalizing c cur with
  | nil => simp [splitBuckets]
  | cons x rest ih =>
    unfold splitBuckets
    split
    · simp [ih]
    · simp [ih]

/-- What the loop yields, from inside a bucket. -/
theorem bucketLoop_some (hn : nodes.Nodup) (P cur rest : List ((V × V × A) × K)) (c : K)
    (hcur : ∀ x ∈ cur, x.1.1 ∈ nodes ∧ x.1.2.1 ∈ nodes)
    (hrest : ∀ x ∈ rest, x.1.1 ∈ nodes ∧ x.1.2.1 ∈ nodes)
    (h : DSGood nodes m ds pairs) (hP : ∀ x y, Linked pairs x y ↔ Linked (P.map wpair) x y) :
    (bucketLoop ds (some c) ((newEdges P cur).map Prod.fst) rest =
        ⟨(keepNew P (splitBuckets c cur rest)).map Prod.fst, none⟩ ∧
      (nodes.length = m + 1 → ¬ ∀ x ∈ nodes, ∀ y ∈ nodes,
        Linked ((P ++ (splitBuckets c cur rest).dropLast.flatten).map wpair) x y)) ∨
    (∃ ys, bucketLoop ds (some c) ((newEdges P cur).map Prod.fst) rest = ⟨ys, some .overflowError⟩ ∧
      ys <+: (keepNew P (splitBuckets c cur rest)).map Prod.fst ∧ nodes.length = m + 1 ∧
      ∀ x ∈ nodes, ∀ y ∈ nodes,
        Linked ((P ++ (splitBuckets c cur rest).dropLast.flatten).map wpair) x y) := by
  induction rest generalizing P cur c ds pairs with
  | nil =>
    left
    refine ⟨by simp [bucketLoop, splitBuckets, keepNew], fun hc => ?_⟩
    simpa [splitBuckets, ← hP] using h.not_full hn hc
  | cons x rest ih =>
    have hx := hrest x (by simp)
    have hr : ∀ x ∈ rest, x.1.1 ∈ nodes ∧ x.1.2.1 ∈ nodes := fun y hy => hrest y (by simp [hy])
    obtain ⟨e, w⟩ := x
    by_cases hw : c - w > weightEpsilon
    · -- a new bucket
      have hsp : splitBuckets c cur ((e, w) :: rest) = cur :: splitBuckets w [(e, w)] rest := by
        simp only [splitBuckets, hw, if_true]
      have hdl : (cur :: splitBuckets w [(e, w)] rest).dropLast =
          cur :: (splitBuckets w [(e, w)] rest).dropLast :=
        List.dropLast_cons_of_ne_nil (splitBuckets_ne_nil _ _ _)
      have hbk : ∀ e ∈ (newEdges P cur).map Prod.fst, e.1 ∈ nodes ∧ e.2.1 ∈ nodes := by
        intro e' he'
        obtain ⟨x, hx, rfl⟩ := List.mem_map.1 he'
        exact hcur x (List.mem_filter.1 hx).1
      have hP' : ∀ x y, Linked ((((newEdges P cur).map Prod.fst).map epair).reverse ++ pairs) x y ↔
          Linked ((P ++ cur).map wpair) x y := by
        intro x y
        rw [← linked_newEdges, List.map_append]
        have : ∀ x y, Linked ((((newEdges P cur).map Prod.fst).map epair).reverse ++ pairs) x y ↔
            Linked (pairs ++ (newEdges P cur).map wpair) x y := by
          intro x y
          have hm : ∀ p, p ∈ (((newEdges P cur).map Prod.fst).map epair).reverse ++ pairs ↔
              p ∈ pairs ++ (newEdges P cur).map wpair := by
            intro p
            simp only [List.mem_append, List.mem_reverse, List.map_map]
            exact or_comm
          exact ⟨Linked.mono (fun p => (hm p).1), Linked.mono (fun p => (hm p).2)⟩
        rw [this]
        exact linked_congr_append hP
      rcases h.flush _ hbk with ⟨ds', h1, h2⟩ | ⟨ds', ys, h1, hpre, hm, hall⟩
      · obtain ⟨ds'', b, h3, h4, h5⟩ := h2.same hn hx.1 hx.2
        have hnew : (if b = true then [] else [e]) = (newEdges (P ++ cur) [((e, w) : (V × V × A) × K)]).map Prod.fst := by
          rw [hP'] at h4
          rw [newEdges_single (b := b) (x := (e, w)) h4]
          cases b <;> rfl
        have hloop : bucketLoop ds (some c) ((newEdges P cur).map Prod.fst) ((e, w) :: rest) =
            ⟨(newEdges P cur).map Prod.fst ++
              (bucketLoop ds'' (some w) ((newEdges (P ++ cur) [(e, w)]).map Prod.fst) rest).yields,
              (bucketLoop ds'' (some w) ((newEdges (P ++ cur) [(e, w)]).map Prod.fst) rest).err⟩ := by
          simp only [bucketLoop, hw, decide_true, h1, h3, hnew]
        rw [hloop, hsp, hdl]
        rcases ih (P ++ cur) [(e, w)] w (by simpa using hx) hr h5 hP' with ⟨i1, i2⟩ | ⟨ys, i1, i2, i3, i4⟩
        · left
          rw [i1]
          refine ⟨by simp [keepNew], ?_⟩
          simpa [List.append_assoc] using i2
        · right
          rw [i1]
          refine ⟨_, rfl, ?_, i3, ?_⟩
          · rw [keepNew, List.map_append]
            exact (List.prefix_append_right_inj _).2 i2
          · simpa [List.append_assoc] using i4
      · right
        refine ⟨ys, by simp only [bucketLoop, hw, decide_true, h1], ?_, hm, ?_⟩
        · rw [hsp, keepNew, List.map_append]
          exact hpre.trans (List.prefix_append _ _)
        · intro x hx y hy
          have := (hP' x y).1 (hall x hx y hy)
          rw [hsp, hdl]
          refine this.mono (fun p hp => ?_)
          simp only [List.flatten_cons, List.map_append, List.mem_append] at hp ⊢
          tauto
    · -- the same bucket
      have hsp : splitBuckets c cur ((e, w) :: rest) = splitBuckets c (cur ++ [(e, w)]) rest := by
        simp only [splitBuckets, hw, if_false]
      obtain ⟨ds'', b, h3, h4, h5⟩ := h.same hn hx.1 hx.2
      have hnew : (if b = true then (newEdges P cur).map Prod.fst else (newEdges P cur).map Prod.fst ++ [e]) =
          (newEdges P (cur ++ [((e, w) : (V × V × A) × K)])).map Prod.fst := by
        rw [hP] at h4
        rw [newEdges_append, newEdges_single (b := b) (x := (e, w)) h4]
        cases b <;> simp
      have hloop : bucketLoop ds (some c) ((newEdges P cur).map Prod.fst) ((e, w) :: rest) =
          bucketLoop ds'' (some c) ((newEdges P (cur ++ [(e, w)])).map Prod.fst) rest := by
        rw [← hnew]
        simp only [bucketLoop, hw, decide_false, h3]
      rw [hloop, hsp]
      refine ih P (cur ++ [(e, w)]) c ?_ hr h5 hP
      intro y hy
      rcases List.mem_append.1 hy with hy | hy
      · exact hcur y hy
      · rw [List.mem_singleton.1 hy]; exact hx

/-- The buckets of the sorted edges. -/
def bucketsOf : List ((V × V × A) × K) → List (List ((V × V × A) × K))
  | [] => []
  | x :: rest => splitBuckets x.2 [x] rest

/-- What the loop yields. -/
theorem bucketLoop_none (hn : nodes.Nodup) (es : List ((V × V × A) × K)) (hne : es ≠ [])
    (hes : ∀ x ∈ es, x.1.1 ∈ nodes ∧ x.1.2.1 ∈ nodes) (h : DSGood nodes m ds []) :
    (bucketLoop ds none [] es = ⟨(keepNew [] (bucketsOf es)).map Prod.fst, none⟩ ∧
      (nodes.length = m + 1 → ¬ ∀ x ∈ nodes, ∀ y ∈ nodes,
        Linked ((bucketsOf es).dropLast.flatten.map wpair) x y)) ∨
    (∃ ys, bucketLoop ds none [] es = ⟨ys, some .overflowError⟩ ∧
      ys <+: (keepNew [] (bucketsOf es)).map Prod.fst ∧ nodes.length = m + 1 ∧
      ∀ x ∈ nodes, ∀ y ∈ nodes, Linked ((bucketsOf es).dropLast.flatten.map wpair) x y) := by
  cases es with
  | nil => exact absurd rfl hne
  | cons x rest =>
    obtain ⟨e, w⟩ := x
    have hx := hes (e, w) (by simp)
    obtain ⟨ds'', b, h3, h4, h5⟩ := h.same hn hx.1 hx.2
    have hnew : (if b = true then [] else [e]) = (newEdges [] [((e, w) : (V × V × A) × K)]).map Prod.fst := by
      rw [newEdges_single (P := []) (b := b) (x := (e, w)) h4]
      cases b <;> rfl
    have hloop : bucketLoop ds none [] ((e, w) :: rest) =
        bucketLoop ds'' (some w) ((newEdges [] [(e, w)]).map Prod.fst) rest := by
      rw [← hnew]
      simp only [bucketLoop, flushBucket, h3, List.nil_append]
    rw [hloop]
    have := bucketLoop_some hn [] [(e, w)] rest w (by simpa using hx) (fun y hy => hes y (by simp [hy])) h5
      (by simp)
    simpa [bucketsOf] using this

/-! ### Buckets of sorted edges -/

section
variable [IsStrictOrderedRing K]

omit [DecidableEq V] in
theorem weightEpsilon_pos : (0 : K) < weightEpsilon := by unfold weightEpsilon; positivity

/-- Every edge of an earlier bucket is strictly heavier than every edge of a later one. -/
def Separated (bs : List (List ((V × V × A) × K))) : Prop :=
  bs.Pairwise (fun b b' => ∀ x ∈ b, ∀ y ∈ b', y.2 < x.2)

omit [DecidableEq V] in
theorem splitBuckets_spec (c : K) (cur rest : List ((V × V × A) × K))
    (hcur : ∀ x ∈ cur, x.2 ≤ c ∧ c - x.2 ≤ weightEpsilon)
    (hs : (cur ++ rest).Pairwise (fun x y => y.2 ≤ x.2)) (hc : ∀ x ∈ rest, x.2 ≤ c) :
    Separated (splitBuckets c cur rest) ∧
      ∀ b ∈ splitBuckets c cur rest, ∀ x ∈ b, ∀ y ∈ b, x.2 - y.2 ≤ weightEpsilon := by
  induction rest generalizing c cur with
  | nil =>
    refine ⟨by simp [splitBuckets, Separated], ?_⟩
    intro b hb x hx y hy
    simp only [splitBuckets, List.mem_singleton] at hb
    subst hb
    have := hcur x hx; have := hcur y hy
    linarith
  | cons z rest ih =>
    rw [List.pairwise_append] at hs
    obtain ⟨hs1, hs2, hs3⟩ := hs
    unfold splitBuckets
    split
    · rename_i hw
      rw [List.pairwise_cons] at hs2
      obtain ⟨i1, i2⟩ := ih z.2 [z] (by simp [weightEpsilon_pos.le]) (by
        rw [List.singleton_append, List.pairwise_cons]; exact hs2) hs2.1
      have hle : ∀ y ∈ z :: rest, y.2 ≤ z.2 := by
        intro y hy
        rcases List.mem_cons.1 hy with rfl | hy
        · exact le_refl _
        · exact hs2.1 y hy
      constructor
      · unfold Separated
        rw [List.pairwise_cons]
        refine ⟨fun b' hb' x hx y hy => ?_, i1⟩
        have hyr : y ∈ z :: rest := by
          have : y ∈ (splitBuckets z.2 [z] rest).flatten := List.mem_flatten.2 ⟨b', hb', hy⟩
          rw [flatten_splitBuckets] at this
          exact this
        have := hle y hyr
        have := (hcur x hx).2
        linarith
      · intro b hb x hx y hy
        rcases List.mem_cons.1 hb with rfl | hb
        · have := hcur x hx; have := hcur y hy
          linarith
        · exact i2 b hb x hx y hy
    · rename_i hw
      refine ih c (cur ++ [z]) ?_ ?_ (fun x hx => hc x (by simp [hx]))
      · intro x hx
        rcases List.mem_append.1 hx with hx | hx
        · exact hcur x hx
        · rw [List.mem_singleton.1 hx]; exact ⟨hc z (by simp), not_lt.1 hw⟩
      · rw [List.append_assoc, List.singleton_append, List.pairwise_append]
        exact ⟨hs1, hs2, hs3⟩

omit [DecidableEq V] in
theorem bucketsOf_spec (es : List ((V × V × A) × K)) (hs : es.Pairwise (fun x y => y.2 ≤ x.2)) :
    Separated (bucketsOf es) ∧ (bucketsOf es).flatten = es ∧
      ∀ b ∈ bucketsOf es, ∀ x ∈ b, ∀ y ∈ b, x.2 - y.2 ≤ weightEpsilon := by
  cases es with
  | nil => simp [bucketsOf, Separated]
  | cons x rest =>
    obtain ⟨h1, h2⟩ := splitBuckets_spec x.2 [x] rest (by simp [weightEpsilon_pos.le])
      (by simpa using hs) (List.pairwise_cons.1 hs).1
    exact ⟨h1, flatten_splitBuckets _ _ _, h2⟩

end

open Classical in
/-- The edges whose ends are not linked by the strictly heavier ones. -/
noncomputable def unlinkedByHeavier (all es : List ((V × V × A) × K)) : List ((V × V × A) × K) :=
  es.filter (fun x => ¬ Linked ((all.filter (fun y => x.2 < y.2)).map wpair) (wpair x).1 (wpair x).2)

omit [DecidableEq V] [Field K] in
theorem unlinkedByHeavier_append (all a b : List ((V × V × A) × K)) :
    unlinkedByHeavier all (a ++ b) = unlinkedByHeavier all a ++ unlinkedByHeavier all b :=
  List.filter_append ..

omit [DecidableEq V] [Field K] [LinearOrder K] in
theorem keepNew_sublist (P : List ((V × V × A) × K)) (bs : List (List ((V × V × A) × K))) :
    keepNew P bs <+ bs.flatten := by
  induction bs generalizing P with
  | nil => exact List.Sublist.refl _
  | cons b bs ih => exact List.Sublist.append List.filter_sublist (ih _)

omit [DecidableEq V] [Field K] in
theorem filter_sublist_filter_of_imp {α : Type} {p q : α → Bool} (l : List α) (h : ∀ x ∈ l, p x → q x) :
    l.filter p <+ l.filter q := by
  induction l with
  | nil => exact List.Sublist.refl _
  | cons a l ih =>
    have ih := ih (fun x hx => h x (by simp [hx]))
    rw [List.filter_cons, List.filter_cons]
    by_cases hp : p a
    · rw [if_pos hp, if_pos (h a (by simp) hp)]; exact ih.cons_cons _
    · rw [if_neg hp]
      split
      · exact ih.cons _
      · exact ih

omit [DecidableEq V] [Field K] in
/-- Whatever is not linked by strictly heavier edges is kept. -/
theorem unlinked_sublist_keepNew (P : List ((V × V × A) × K)) (bs : List (List ((V × V × A) × K)))
    (hsep : Separated bs) (hP : ∀ x ∈ P, ∀ y ∈ bs.flatten, y.2 < x.2) :
    unlinkedByHeavier (P ++ bs.flatten) bs.flatten <+ keepNew P bs := by
  induction bs generalizing P with
  | nil => simp [unlinkedByHeavier, keepNew]
  | cons b bs ih =>
    obtain ⟨hb, hbs⟩ := List.pairwise_cons.1 hsep
    rw [List.flatten_cons, unlinkedByHeavier_append, ← List.append_assoc, keepNew]
    refine List.Sublist.append ?_ (ih (P ++ b) hbs ?_)
    · refine filter_sublist_filter_of_imp _ (fun x hx h => ?_)
      simp only [decide_eq_true_eq] at h ⊢
      refine fun hc => h (hc.mono (fun p hp => ?_))
      obtain ⟨y, hy, rfl⟩ := List.mem_map.1 hp
      exact List.mem_map.2 ⟨y, List.mem_filter.2 ⟨by simp [hy], by simpa using hP y hy x (by simp [hx])⟩, rfl⟩
    · intro x hx y hy
      rcases List.mem_append.1 hx with hx | hx
      · exact hP x hx y (by rw [List.flatten_cons]; exact List.mem_append_right _ hy)
      · obtain ⟨b', hb', hy⟩ := List.mem_flatten.1 hy
        exact hb b' hb' x hx y hy

omit [DecidableEq V] [Field K] in
/-- If all the weights of a bucket are equal, only that is kept. -/
theorem keepNew_eq (P : List ((V × V × A) × K)) (bs : List (List ((V × V × A) × K)))
    (hsep : Separated bs) (hP : ∀ x ∈ P, ∀ y ∈ bs.flatten, y.2 < x.2)
    (heq : ∀ b ∈ bs, ∀ x ∈ b, ∀ y ∈ b, x.2 = y.2) :
    keepNew P bs = unlinkedByHeavier (P ++ bs.flatten) bs.flatten := by
  induction bs generalizing P with
  | nil => simp [unlinkedByHeavier, keepNew]
  | cons b bs ih =>
    obtain ⟨hb, hbs⟩ := List.pairwise_cons.1 hsep
    rw [List.flatten_cons, unlinkedByHeavier_append, ← List.append_assoc, keepNew, ih (P ++ b) hbs]
    · congr 1
      refine List.filter_congr (fun x hx => ?_)
      have : (P ++ b ++ bs.flatten).filter (fun y => decide (x.2 < y.2)) = P := by
        rw [List.filter_append, List.filter_append, List.filter_eq_self.2, List.filter_eq_nil_iff.2,
          List.filter_eq_nil_iff.2]
        · simp
        · intro y hy
          obtain ⟨b', hb', hy⟩ := List.mem_flatten.1 hy
          simpa using (hb b' hb' x hx y hy).le
        · intro y hy
          simpa using (heq b (by simp) x hx y hy).ge
        · intro y hy
          simpa using hP y hy x (by simp [hx])
      rw [this]
    · intro x hx y hy
      rcases List.mem_append.1 hx with hx | hx
      · exact hP x hx y (by rw [List.flatten_cons]; exact List.mem_append_right _ hy)
      · obtain ⟨b', hb', hy⟩ := List.mem_flatten.1 hy
        exact hb b' hb' x hx y hy
    · exact fun b' hb' => heq b' (by simp [hb'])

/-! ### The whole function -/

omit [LinearOrder K] in
theorem weightOf_of_hasWeight {attr : String} {a : Attrs (Val K)} {w : K} (h : HasWeight attr a w) :
    weightOf attr a = .ok w := by
  unfold weightOf
  rcases h with ⟨h, rfl⟩ | h | ⟨h, rfl⟩ | ⟨h, rfl⟩ <;> rw [h] <;> rfl

omit [DecidableEq V] [LinearOrder K] in
theorem weighted_eq {attr : String} (es : List (V × V × Attrs (Val K))) (w : Fin es.length → K)
    (hw : ∀ i, HasWeight attr es[i].2.2 (w i)) :
    weighted attr es = .ok ((List.finRange es.length).map (fun i => (es[i], w i))) := by
  induction es with
  | nil => rfl
  | cons e es ih =>
    have h0 := weightOf_of_hasWeight (hw ⟨0, by simp⟩)
    have := ih (fun i => w i.succ) (fun i => hw i.succ)
    simp only [Fin.getElem_fin, List.getElem_cons_zero] at h0
    simp only [weighted, h0, this, List.length_cons, List.finRange_succ, List.map_cons, List.map_map]
    rfl

omit [DecidableEq V] [Field K] in
theorem sortByWeight_perm (es : List ((V × V × A) × K)) : (sortByWeight es).Perm es :=
  (pySortedRev_spec _ _).perm

omit [DecidableEq V] [Field K] in
theorem sortByWeight_sorted (es : List ((V × V × A) × K)) :
    (sortByWeight es).Pairwise (fun x y => y.2 ≤ x.2) :=
  (pySortedRev_spec _ _).sorted

/-- The orders at which the disjoint set can overflow. -/
def OverflowOrder (ulongMax n : Nat) : Prop :=
  n = 2^8 ∨ n = 2^16 ∨ (n = 2^32 ∧ ulongMax = 2^32 - 1) ∨ n = 2^64

omit [DecidableEq V] in
theorem init_ok {ulongMax cap : Nat} (hu : 2^32 - 1 ≤ ulongMax) (hcap : cap ≤ 2^64) :
    ∃ s : DisjointSet V, DisjointSet.init ulongMax cap = .ok s ∧
      (cap = s.uf.cellMax + 1 ↔ OverflowOrder ulongMax cap) := by
  unfold DisjointSet.init UnionFind.init uintRepresentationForCapacity
  rcases UnionFind.uintRep_cases ((cap : Int) - 1) with ⟨h1, h2⟩ | ⟨h0, h1, h2⟩ | ⟨h0, h1, h2⟩ | ⟨h0, h1, h2⟩ | ⟨h1, h2⟩
  · refine ⟨_, by rw [h2], ?_⟩
    simp [TypeCode.cellMax, OverflowOrder]; omega
  · refine ⟨_, by rw [h2], ?_⟩
    simp [TypeCode.cellMax, OverflowOrder]; omega
  · refine ⟨_, by rw [h2], ?_⟩
    simp [TypeCode.cellMax, OverflowOrder]; omega
  · refine ⟨_, by rw [h2], ?_⟩
    simp [TypeCode.cellMax, OverflowOrder]; omega
  · omega

theorem edgesData_ends {g : Graph V A} (h : g.WF) {e : V × V × Attrs A} (he : e ∈ g.edgesData) :
    e.1 ∈ g.nodes ∧ e.2.1 ∈ g.nodes := by
  have : g.hasEdge e.1 e.2.1 = true := by
    rw [hasEdge_listed h]
    exact .inl (mem_edges.2 ⟨e.2.2, he⟩)
  exact Graph.hasEdge_mem h this

theorem sortKeys_run {attr : String} (es : List (V × V × Attrs (Val K))) (w : Fin es.length → K)
    (hw : ∀ i, HasWeight attr es[i].2.2 (w i)) (ds : DisjointSet V) :
    ∃ l, sortKeys attr es = .ok l ∧ bucketLoop ds none [] (sortByWeight l) =
      bucketLoop ds none [] (sortByWeight ((List.finRange es.length).map (fun i => (es[i], w i)))) := by
  have hwt := weighted_eq es w hw
  match es, w, hw, hwt with
  | [], w, hw, hwt => exact ⟨_, hwt, rfl⟩
  | [e], w, hw, hwt =>
    refine ⟨_, rfl, ?_⟩
    have h1 : ∀ c : K, sortByWeight [(e, c)] = [(e, c)] := fun c => by simp [sortByWeight, pySortedRev]
    have h2 : (List.finRange [e].length).map (fun i => ([e][i], w i)) = [(e, w 0)] := by
      simp [List.finRange_succ]
    rw [h2, h1, h1]
    simp only [bucketLoop, flushBucket]
  | e :: e' :: es, w, hw, hwt => exact ⟨_, hwt, rfl⟩

/-- The run of the whole function on a graph with edges. -/
theorem umst_cases {ulongMax : Nat} (hu : 2^32 - 1 ≤ ulongMax) {g : Graph V (Val K)} (h : g.WF) {attr : String}
    (hcap : g.order ≤ 2^64) (w : Fin g.edgesData.length → K) (hw : ∀ i, HasWeight attr g.edgesData[i].2.2 (w i))
    {S : List ((V × V × Attrs (Val K)) × K)}
    (hS : S = sortByWeight ((List.finRange g.edgesData.length).map (fun i => (g.edgesData[i], w i)))) :
    (unionOfMaximumSpanningTrees ulongMax g attr = ⟨(keepNew [] (bucketsOf S)).map Prod.fst, none⟩ ∧
      (OverflowOrder ulongMax g.order → ¬ ∀ x ∈ g.nodes, ∀ y ∈ g.nodes,
        Linked ((bucketsOf S).dropLast.flatten.map wpair) x y)) ∨
    (∃ ys, unionOfMaximumSpanningTrees ulongMax g attr = ⟨ys, some .overflowError⟩ ∧
      ys <+: (keepNew [] (bucketsOf S)).map Prod.fst ∧ OverflowOrder ulongMax g.order ∧
      ∀ x ∈ g.nodes, ∀ y ∈ g.nodes, Linked ((bucketsOf S).dropLast.flatten.map wpair) x y) := by
  obtain ⟨ds, hds, hcell⟩ := init_ok (V := V) hu hcap
  obtain ⟨hinv, hcap', -⟩ := DisjointSet.init_inv hu hds
  have hlen : g.nodes.length = g.order := by simp [Graph.order, Graph.nodes, Dict.keys]
  have hgood : DSGood g.nodes ds.uf.cellMax ds [] := ⟨[], hinv, by simp, hcap'.trans hlen.symm, rfl⟩
  have hsz : g.size = g.edgesData.length := by
    rw [Graph.size_eq h]; simp [Graph.edges, Graph.edgesData]
  by_cases h0 : g.edgesData.length = 0
  · -- no edges
    have hS0 : S = [] := by
      rw [hS, ← List.length_eq_zero_iff, (sortByWeight_perm _).length_eq]; simp [h0]
    left
    refine ⟨by simp [unionOfMaximumSpanningTrees, hsz, h0, hS0, bucketsOf, keepNew], fun ho hall => ?_⟩
    simp only [hS0, bucketsOf, List.dropLast_nil, List.flatten_nil, List.map_nil, linked_nil] at hall
    have : g.nodes.length ≤ 1 := by
      by_contra hc
      have hn := h.nodup
      rcases hnn : g.nodes with _ | ⟨a, _ | ⟨b, l⟩⟩
      · rw [hnn] at hc; simp at hc
      · rw [hnn] at hc; simp at hc
      · rw [hnn] at hn hall
        have := hall a (by simp) b (by simp)
        simp [this] at hn
    unfold OverflowOrder at ho
    omega
  · have hSne : S ≠ [] := by
      rw [hS, Ne, ← List.length_eq_zero_iff, (sortByWeight_perm _).length_eq]; simpa using h0
    have hSn : ∀ x ∈ S, x.1.1 ∈ g.nodes ∧ x.1.2.1 ∈ g.nodes := by
      intro x hx
      rw [hS, (sortByWeight_perm _).mem_iff] at hx
      obtain ⟨i, -, rfl⟩ := List.mem_map.1 hx
      exact edgesData_ends h (List.getElem_mem _)
    have hrun : unionOfMaximumSpanningTrees ulongMax g attr = bucketLoop ds none [] S := by
      unfold unionOfMaximumSpanningTrees
      rw [if_neg (by omega)]
      obtain ⟨l, hl, hb⟩ := sortKeys_run g.edgesData w hw ds
      rw [hS, ← hb]
      simp only [hl, hds]
    rw [hrun]
    rcases bucketLoop_none h.nodup S hSne hSn hgood with ⟨h1, h2⟩ | ⟨ys, h1, h2, h3, h4⟩
    · left; exact ⟨h1, fun ho => h2 (by rw [hlen]; exact hcell.2 ho)⟩
    · right; exact ⟨ys, h1, h2, hcell.1 (by rw [← hlen]; exact h3), h4⟩

end Pelote
