import Verif.Model.Coroutine
import Verif.Lemmas.Copies
import Verif.Props.Memory
import Verif.Lemmas.Rename

/-! C85: the generators while the loop consuming them modifies the graph. -/
set_option linter.unusedSectionVars false
namespace Pelote
variable {V A : Type} [DecidableEq V]
open Co

section Co
variable {ρ α β γ : Type}

theorem run_yieldAll (world : Nat → ρ) (k : Nat) (xs : List α) (c : Co ρ α) :
    run world k (yieldAll xs c) =
      ⟨xs ++ (run world (k + xs.length) c).yields, (run world (k + xs.length) c).err⟩ := by
  induction xs generalizing k with
  | nil => rfl
  | cons x xs ih =>
    simp only [yieldAll, run, ih, List.length_cons, List.cons_append]
    rw [Nat.add_right_comm, Nat.add_assoc]

theorem run_readFilter (world : Nat → ρ) (k : Nat) (f : β → ρ → Bool) (xs : List β) (c : List β → Co ρ α) :
    run world k (readFilter f xs c) = run world k (c (xs.filter (fun x => f x (world k)))) := by
  induction xs generalizing c with
  | nil => rfl
  | cons x xs ih =>
    simp only [readFilter, run, ih, List.filter_cons]

theorem run_readMap (world : Nat → ρ) (k : Nat) (f : β → ρ → γ) (xs : List β) (c : List γ → Co ρ α) :
    run world k (readMap f xs c) = run world k (c (xs.map (fun x => f x (world k)))) := by
  induction xs generalizing c with
  | nil => rfl
  | cons x xs ih => simp only [readMap, run, ih, List.map_cons]

end Co

theorem run_adjacenciesCo {α : Type} (world : Nat → Graph V A) (k : Nat) (ns : List V) (d : Dict V (List V))
    (c : Dict V (List V) → Co (Graph V A) α) :
    run world k (adjacenciesCo ns d c) =
      run world k (c (ns.foldl (fun d n => d.set n (adjacencyOf (world k).undirectedView n)) d)) := by
  induction ns generalizing d with
  | nil => rfl
  | cons n ns ih =>
    have h : (((world k).undirectedView.neighbors n).filter (fun m => !decide (m = n))).filter
        (fun m => !decide ((world k).undirectedView.degree m < 2)) = adjacencyOf (world k).undirectedView n := by
      rw [List.filter_filter]
      unfold adjacencyOf
      congr 1
      funext m
      exact Bool.and_comm _ _
    simp only [adjacenciesCo, run, run_readFilter, ih, List.foldl_cons, h]

theorem run_popMarkedCo (world : Nat → Graph V A) (k : Nat) (node : V) (marked : List V) (adjs : Dict V (List V))
    (c : Dict V (List V) → Co (Graph V A) (V × V × V)) :
    run world k (popMarkedCo node marked adjs c) =
      match popMarked node marked adjs with
      | (ys, _, some e) => ⟨ys, some e⟩
      | (ys, adjs, none) =>
        ⟨ys ++ (run world (k + ys.length) (c adjs)).yields, (run world (k + ys.length) (c adjs)).err⟩ := by
  induction marked generalizing k adjs with
  | nil => rfl
  | cons m marked ih =>
    simp only [popMarkedCo, popMarked]
    rcases adjs.getItem m with e | adjacency
    · rfl
    · simp only [run_yieldAll]
      split
      · rw [ih]
        rcases popMarked node marked (adjs.set m (adjacency.erase node)) with ⟨ys, adjs', _ | e⟩
        · simp only [List.length_append, List.append_assoc, Nat.add_assoc]
        · rfl
      · simp [run]

theorem run_triangleLoopCo (world : Nat → Graph V A) (k : Nat) (ns : List V) (adjs : Dict V (List V)) :
    run world k (triangleLoopCo ns adjs) = triangleLoop ns adjs := by
  induction ns generalizing k adjs with
  | nil => rfl
  | cons n ns ih =>
    simp only [triangleLoopCo, triangleLoop]
    rcases adjs.getItem n with e | adjacency
    · rfl
    · simp only [run_popMarkedCo, ih]
      rcases popMarked n (List.foldl (fun (m : Dict V Unit) x => m.set x ()) [] adjacency).keys.reverse adjs with
        ⟨ys, adjs', _ | e⟩ <;> rfl

theorem orderedInsert_map {α β : Type} (f : α → β) (r : β → β → Prop) [DecidableRel r] (a : α) (l : List α) :
    (l.map f).orderedInsert r (f a) = (l.orderedInsert (fun x y => r (f x) (f y)) a).map f := by
  induction l with
  | nil => rfl
  | cons b l ih =>
    rw [List.map_cons, List.orderedInsert_cons, List.orderedInsert_cons, ih]
    split <;> rfl

theorem insertionSort_map {α β : Type} (f : α → β) (r : β → β → Prop) [DecidableRel r] (l : List α) :
    (l.map f).insertionSort r = (l.insertionSort (fun x y => r (f x) (f y))).map f := by
  induction l with
  | nil => rfl
  | cons b l ih =>
    rw [List.map_cons, List.insertionSort_cons, List.insertionSort_cons, ih, orderedInsert_map]

theorem pySortedRev_zip {α κ : Type} [LinearOrder κ] (key : α → κ) (xs : List α) :
    (pySortedRev Prod.snd (xs.zip (xs.map key))).map Prod.fst = pySortedRev key xs := by
  have : xs.zip (xs.map key) = xs.map (fun x => (x, key x)) := by
    induction xs with
    | nil => rfl
    | cons x xs ih => simp [ih]
  unfold pySortedRev
  rw [this, insertionSort_map, List.map_map]
  exact List.map_id _

/-- C85 for `triangles`: whatever the loop consuming the generator does to the graph. -/
theorem triangles_snapshot (world : Nat → Graph V A) : run world 0 trianglesCo = triangles (world 0) := by
  unfold trianglesCo triangles trianglesOf
  simp only [run, run_readFilter, run_readMap, run_adjacenciesCo, run_triangleLoopCo, pySortedRev_zip]
  rfl

section Trees
variable {K : Type} [Field K] [LinearOrder K]

theorem run_flushBucketCo {ρ : Type} (world : Nat → ρ) (k : Nat) (bucket : List (V × V × Loc)) (ds : DisjointSet V)
    (c : DisjointSet V → Co ρ (V × V × Loc)) :
    run world k (flushBucketCo bucket ds c) =
      match flushBucket ds bucket with
      | (_, ⟨ys, some x⟩) => ⟨ys, some x⟩
      | (ds, ⟨_, none⟩) =>
        ⟨bucket ++ (run world (k + bucket.length) (c ds)).yields, (run world (k + bucket.length) (c ds)).err⟩ := by
  induction bucket generalizing k ds with
  | nil => rfl
  | cons e es ih =>
    simp only [flushBucketCo, flushBucket, run]
    rcases ds.union e.1 e.2.1 with ⟨ds', _ | b⟩
    · rfl
    · simp only [ih]
      rcases flushBucket ds' es with ⟨ds'', ⟨ys, _ | x⟩⟩
      · simp only [List.length_cons, List.cons_append]
        rw [Nat.add_right_comm, Nat.add_assoc]
      · rfl

theorem flushBucket_yields {B : Type} (ds ds' : DisjointSet V) (bucket ys : List (V × V × B))
    (h : flushBucket ds bucket = (ds', ⟨ys, none⟩)) : ys = bucket := by
  induction bucket generalizing ds ys with
  | nil => simp only [flushBucket, Prod.mk.injEq, Gen.mk.injEq] at h; exact h.2.1.symm
  | cons e es ih =>
    simp only [flushBucket] at h
    rcases hu : ds.union e.1 e.2.1 with ⟨ds₁, _ | b⟩
    · simp [hu] at h
    · simp only [hu] at h
      rcases hf : flushBucket ds₁ es with ⟨ds₂, ⟨zs, err⟩⟩
      rw [hf] at h
      simp only [Prod.mk.injEq, Gen.mk.injEq] at h
      obtain ⟨rfl, rfl, rfl⟩ := h
      rw [ih _ _ hf]

theorem run_bucketLoopCo (world : Nat → World V (Val K)) (attr : String) (R : List (V × V × Loc))
    (rest : List ((V × V × Loc) × K)) (ds : DisjointSet V) (cur : Option K) (bucket pre : List (V × V × Loc))
    (hR : R = pre ++ (run world pre.length (bucketLoopCo attr ds (cur.map .ok) bucket (rest.map Prod.fst))).yields)
    (hw : ∀ k, ∀ p ∈ rest, p.1.2.2 ∉ (R.take k).map (fun e => e.2.2) → (world k).weightOf attr p.1 = .ok p.2)
    (hn : ((pre ++ bucket ++ rest.map Prod.fst).map (fun e => e.2.2)).Nodup) :
    run world pre.length (bucketLoopCo attr ds (cur.map .ok) bucket (rest.map Prod.fst)) = bucketLoop ds cur bucket rest := by
  induction rest generalizing ds cur bucket pre with
  | nil =>
    simp only [List.map_nil, bucketLoopCo, run_yieldAll, run, bucketLoop, List.append_nil]
  | cons p rest ih =>
    obtain ⟨e, w⟩ := p
    have hpre : R.take pre.length = pre := by rw [hR]; simp
    have he : (world pre.length).weightOf attr e = .ok w := by
      refine hw pre.length (e, w) (by simp) ?_
      rw [hpre]
      intro hm
      rw [List.map_append, List.map_append, List.append_assoc, List.nodup_append] at hn
      exact hn.2.2 _ hm _ (by simp) rfl
    have hw' : ∀ k, ∀ p ∈ rest, p.1.2.2 ∉ (R.take k).map (fun e => e.2.2) → (world k).weightOf attr p.1 = .ok p.2 :=
      fun k p hp => hw k p (List.mem_cons_of_mem _ hp)
    have hflush : ∀ (_ : R = pre ++ (run world pre.length (flushBucketCo bucket ds fun ds =>
          match ds.areInSameSet e.1 e.2.1 with
          | (_, .error x) => stop (some x)
          | (ds, .ok b) => bucketLoopCo attr ds (some (.ok w)) (if b then [] else [e]) (rest.map Prod.fst))).yields),
        run world pre.length (flushBucketCo bucket ds fun ds =>
          match ds.areInSameSet e.1 e.2.1 with
          | (_, .error x) => stop (some x)
          | (ds, .ok b) => bucketLoopCo attr ds (some (.ok w)) (if b then [] else [e]) (rest.map Prod.fst)) =
        match flushBucket ds bucket with
        | (_, ⟨ys, some x⟩) => ⟨ys, some x⟩
        | (ds, ⟨ys, none⟩) =>
          match ds.areInSameSet e.1 e.2.1 with
          | (_, .error x) => ⟨ys, some x⟩
          | (ds, .ok b) =>
            ⟨ys ++ (bucketLoop ds (some w) (if b then [] else [e]) rest).yields,
              (bucketLoop ds (some w) (if b then [] else [e]) rest).err⟩ := by
      intro hR
      rw [run_flushBucketCo] at hR ⊢
      rcases hf : flushBucket ds bucket with ⟨ds₁, ⟨ys, _ | x⟩⟩
      · rw [hf] at hR
        have hys := flushBucket_yields _ _ _ _ hf
        subst hys
        simp only at hR ⊢
        rcases hu : ds₁.areInSameSet e.1 e.2.1 with ⟨ds₂, x | b⟩
        · simp [run]
        · simp only [hu] at hR ⊢
          have hlen : pre.length + ys.length = (pre ++ ys).length := by simp
          have := ih ds₂ (some w) (if b then [] else [e]) (pre ++ ys) (by
              rw [← hlen, List.append_assoc]; exact hR) hw' (by
              refine hn.sublist (List.Sublist.map _ ?_)
              rw [List.map_cons, List.append_assoc (pre ++ ys)]
              refine List.Sublist.append_left ?_ _
              cases b
              · exact List.Sublist.refl _
              · exact List.sublist_cons_self _ _)
          rw [hlen]
          simp only [Option.map_some] at this
          rw [this]
      · rfl
    have hsame : ∀ c : K, ∀ (_ : R = pre ++ (run world pre.length (match ds.areInSameSet e.1 e.2.1 with
          | (_, .error x) => stop (some x)
          | (ds, .ok b) => bucketLoopCo attr ds (some (.ok c)) (if b then bucket else bucket ++ [e]) (rest.map Prod.fst))).yields),
        run world pre.length (match ds.areInSameSet e.1 e.2.1 with
          | (_, .error x) => stop (some x)
          | (ds, .ok b) => bucketLoopCo attr ds (some (.ok c)) (if b then bucket else bucket ++ [e]) (rest.map Prod.fst)) =
        match ds.areInSameSet e.1 e.2.1 with
        | (_, .error x) => ⟨[], some x⟩
        | (ds, .ok b) => bucketLoop ds (some c) (if b then bucket else bucket ++ [e]) rest := by
      intro c hR
      rcases hu : ds.areInSameSet e.1 e.2.1 with ⟨ds₂, x | b⟩
      · rfl
      · simp only [hu] at hR ⊢
        exact ih ds₂ (some c) _ pre hR hw' (by
          refine hn.sublist (List.Sublist.map _ ?_)
          rw [List.map_cons, List.append_assoc, List.append_assoc]
          refine List.Sublist.append_left ?_ _
          cases b
          · simp
          · exact List.Sublist.append_left (List.sublist_cons_self _ _) _)
    simp only [List.map_cons, bucketLoopCo, run, he] at hR ⊢
    cases cur with
    | none =>
      simp only [Option.map_none] at hR ⊢
      simp only [bucketLoop]
      refine Eq.trans (hflush hR) ?_
      rcases flushBucket ds bucket with ⟨ds₁, ⟨ys, _ | x⟩⟩
      · simp only
        rcases ds₁.areInSameSet e.1 e.2.1 with ⟨ds₂, x | b⟩ <;> rfl
      · rfl
    | some c =>
      simp only [Option.map_some] at hR ⊢
      simp only [bucketLoop]
      cases hd : decide (c - w > weightEpsilon) with
      | true =>
        simp only [hd] at hR ⊢
        refine Eq.trans (hflush hR) ?_
        rcases flushBucket ds bucket with ⟨ds₁, ⟨ys, _ | x⟩⟩
        · simp only
          rcases ds₁.areInSameSet e.1 e.2.1 with ⟨ds₂, x | b⟩ <;> rfl
        · rfl
      | false =>
        simp only [hd] at hR ⊢
        exact hsame c hR


theorem flushBucket_map {B C : Type} (D : V × V × B → V × V × C) (hD : ∀ e, (D e).1 = e.1 ∧ (D e).2.1 = e.2.1)
    (ds : DisjointSet V) (l : List (V × V × B)) :
    flushBucket ds (l.map D) = ((flushBucket ds l).1, (flushBucket ds l).2.map D) := by
  induction l generalizing ds with
  | nil => rfl
  | cons e l ih =>
    simp only [List.map_cons, flushBucket, (hD e).1, (hD e).2]
    rcases ds.union e.1 e.2.1 with ⟨ds', _ | b⟩
    · rfl
    · simp only [ih]
      rcases flushBucket ds' l with ⟨_, ⟨_, _⟩⟩
      rfl

theorem bucketLoop_map {B C : Type} (D : V × V × B → V × V × C) (hD : ∀ e, (D e).1 = e.1 ∧ (D e).2.1 = e.2.1)
    (ds : DisjointSet V) (cur : Option K) (bucket : List (V × V × B)) (l : List ((V × V × B) × K)) :
    bucketLoop ds cur (bucket.map D) (l.map (fun p => (D p.1, p.2))) = (bucketLoop ds cur bucket l).map D := by
  induction l generalizing ds cur bucket with
  | nil => rfl
  | cons p l ih =>
    obtain ⟨e, w⟩ := p
    have hnew : (match flushBucket ds (bucket.map D) with
        | (_, ⟨ys, some x⟩) => ⟨ys, some x⟩
        | (ds, ⟨ys, none⟩) =>
          match ds.areInSameSet e.1 e.2.1 with
          | (_, .error x) => ⟨ys, some x⟩
          | (ds, .ok b) =>
            match bucketLoop ds (some w) (if b then [] else [D e]) (l.map (fun p => (D p.1, p.2))) with
            | ⟨zs, err⟩ => ⟨ys ++ zs, err⟩ : Gen (V × V × C)) =
        Gen.map D (match flushBucket ds bucket with
        | (_, ⟨ys, some x⟩) => ⟨ys, some x⟩
        | (ds, ⟨ys, none⟩) =>
          match ds.areInSameSet e.1 e.2.1 with
          | (_, .error x) => ⟨ys, some x⟩
          | (ds, .ok b) =>
            match bucketLoop ds (some w) (if b then [] else [e]) l with
            | ⟨zs, err⟩ => ⟨ys ++ zs, err⟩) := by
      rw [flushBucket_map D hD]
      rcases flushBucket ds bucket with ⟨ds', ⟨ys, _ | x⟩⟩
      · simp only [Gen.map]
        rcases ds'.areInSameSet e.1 e.2.1 with ⟨ds'', _ | b⟩
        · rfl
        · have := ih ds'' (some w) (if b = true then [] else [e])
          rw [show (if b = true then [] else [e]).map D = if b = true then [] else [D e] by cases b <;> rfl] at this
          simp only [this, Gen.map, List.map_append]
      · rfl
    have hsame : (match ds.areInSameSet e.1 e.2.1 with
        | (_, .error x) => ⟨[], some x⟩
        | (ds, .ok b) => bucketLoop ds cur (if b then bucket.map D else bucket.map D ++ [D e])
            (l.map (fun p => (D p.1, p.2))) : Gen (V × V × C)) =
        Gen.map D (match ds.areInSameSet e.1 e.2.1 with
        | (_, .error x) => ⟨[], some x⟩
        | (ds, .ok b) => bucketLoop ds cur (if b then bucket else bucket ++ [e]) l) := by
      rcases ds.areInSameSet e.1 e.2.1 with ⟨ds', _ | b⟩
      · rfl
      · have := ih ds' cur (if b = true then bucket else bucket ++ [e])
        rw [show (if b = true then bucket else bucket ++ [e]).map D =
          if b = true then bucket.map D else bucket.map D ++ [D e] by cases b <;> simp] at this
        simp only [this]
    cases cur with
    | none =>
      simp only [List.map_cons, bucketLoop, (hD e).1, (hD e).2]
      exact hnew
    | some c =>
      simp only [List.map_cons, bucketLoop, (hD e).1, (hD e).2]
      cases decide (c - w > weightEpsilon) with
      | true => exact hnew
      | false => exact hsame

theorem sortByWeight_payload {E F : Type} (D : E → F) (es : List (E × K)) :
    sortByWeight (es.map (fun p => (D p.1, p.2))) = (sortByWeight es).map (fun p => (D p.1, p.2)) := by
  unfold sortByWeight pySortedRev
  rw [insertionSort_map]

/-- An edge with the content its dict has in the world. -/
def World.edge (w : World V A) (e : V × V × Loc) : V × V × Attrs A := (e.1, e.2.1, w.heap.read e.2.2)

theorem World.edges_deref (w : World V A) : w.deref.edgesData = w.edges.map w.edge := by
  unfold Graph.edgesData World.deref World.edges
  rw [edgesKeys_deref, List.map_map, List.map_map]
  rfl

theorem weighted_keyed (w : World V (Val K)) (attr : String) (es : List (V × V × Loc)) :
    weighted attr (es.map w.edge) =
      (keyed es (es.map (fun e => w.weightOf attr e))).map (fun l => l.map (fun p => (w.edge p.1, p.2))) := by
  induction es with
  | nil => rfl
  | cons e es ih =>
    simp only [List.map_cons, weighted, keyed]
    have : Pelote.weightOf attr (w.edge e).2.2 = w.weightOf attr e := rfl
    rw [this]
    rcases w.weightOf attr e with x | k
    · rfl
    · simp only [ih]
      rcases keyed es (es.map (fun e => w.weightOf attr e)) with x | l <;> rfl

theorem keyed_ok (w : World V (Val K)) (attr : String) (es : List (V × V × Loc)) (l : List ((V × V × Loc) × K))
    (h : keyed es (es.map (fun e => w.weightOf attr e)) = .ok l) :
    l.map Prod.fst = es ∧ ∀ p ∈ l, w.weightOf attr p.1 = .ok p.2 := by
  induction es generalizing l with
  | nil => simp only [keyed] at h; cases h; simp
  | cons e es ih =>
    simp only [List.map_cons, keyed] at h
    rcases hw : w.weightOf attr e with x | k
    · simp [hw] at h
    · rcases hk : keyed es (es.map (fun e => w.weightOf attr e)) with x | l'
      · simp [hw, hk] at h
      · simp only [hw, hk] at h
        cases h
        obtain ⟨h1, h2⟩ := ih l' hk
        simp only [List.map_cons, h1, List.mem_cons, forall_eq_or_imp, hw, true_and]
        exact h2

/-- C85 for `union_of_maximum_spanning_trees`: the loop consuming the generator may do anything to the graph, as long as the
weights of the edges that have not been yielded yet do not change. -/
theorem spanningTrees_snapshot (ulongMax : Nat) (attr : String) (world : Nat → World V (Val K))
    (hv : (world 0).graph.Valid (world 0).heap) (hd : (world 0).graph.locs.Nodup) (wf : (world 0).deref.WF)
    (hw : ∀ k, ∀ e ∈ (world 0).edges,
      e.2.2 ∉ ((run world 0 (spanningTreesCo ulongMax attr)).yields.take k).map (fun e => e.2.2) →
      (world k).weightOf attr e = (world 0).weightOf attr e) :
    (run world 0 (spanningTreesCo ulongMax attr)).map (world 0).edge =
      unionOfMaximumSpanningTrees ulongMax (world 0).deref attr := by
  have hnd : ((world 0).edges.map (fun e => e.2.2)).Nodup := by
    have := edgesKeys_locs_nodup (H := (world 0).heap) (g := (world 0).graph) ⟨hd, hv⟩ wf
    unfold World.edges
    rw [List.map_map]
    exact this
  generalize hR : (run world 0 (spanningTreesCo ulongMax attr)).yields = R at hw
  simp only [spanningTreesCo, run] at hR ⊢
  unfold unionOfMaximumSpanningTrees
  by_cases h0 : (world 0).deref.size = 0
  · rw [if_pos h0, if_pos h0]; rfl
  · rw [if_neg h0] at hR ⊢
    rw [if_neg h0]
    simp only [run, run_readMap] at hR ⊢
    rw [World.edges_deref]
    have single : ∀ e : V × V × Loc, sortKeys attr [(world 0).edge e] = .ok [((world 0).edge e, (1 : K))] := fun _ => rfl
    match hes : (world 0).edges with
    | [e] =>
      rw [hes] at hR
      simp only [List.map_cons, List.map_nil, run, single]
      rcases DisjointSet.init ulongMax (world 0).deref.order with x | ds
      · rfl
      · have h1 : sortByWeight [(e, (1 : K))] = [(e, 1)] := rfl
        have h2 : sortByWeight [((world 0).edge e, (1 : K))] = [((world 0).edge e, 1)] := rfl
        simp only [h1, h2, List.map_cons, List.map_nil, bucketLoopCo, run, flushBucketCo, bucketLoop, flushBucket]
        have : ds.areInSameSet ((world 0).edge e).1 ((world 0).edge e).2.1 = ds.areInSameSet e.1 e.2.1 := rfl
        rw [this]
        rcases ds.areInSameSet e.1 e.2.1 with ⟨ds', x | b⟩
        · rfl
        · cases b <;> rfl
    | [] =>
      rw [hes] at hR
      simp only [List.map_nil, keyed, run, sortKeys, weighted]
      rcases DisjointSet.init ulongMax (world 0).deref.order with x | ds <;> rfl
    | e₁ :: e₂ :: es =>
      rw [hes] at hR hw hnd
      have hs : sortKeys attr ((e₁ :: e₂ :: es).map (world 0).edge) = weighted (N := K) attr ((e₁ :: e₂ :: es).map (world 0).edge) := rfl
      rw [hs, weighted_keyed]
      simp only at hR ⊢
      generalize e₁ :: e₂ :: es = es at *
      rcases hk : keyed es (es.map (fun e => (world 0).weightOf attr e)) with x | l
      · rfl
      · rw [hk] at hR
        obtain ⟨h1, h2⟩ := keyed_ok _ _ _ _ hk
        simp only [Except.map, run] at hR ⊢
        rcases hds : DisjointSet.init ulongMax (world 0).deref.order with x | ds
        · rfl
        · rw [hds] at hR
          simp only at hR ⊢
          have hp : (sortByWeight l).Perm l := List.perm_insertionSort _ _
          have := run_bucketLoopCo world attr R (sortByWeight l) ds none [] [] hR.symm (by
              intro k p hp' hnot
              have hpl := hp.subset hp'
              rw [← h2 p hpl]
              exact hw k p.1 (by rw [← h1]; exact List.mem_map_of_mem hpl) hnot) (by
              simp only [List.nil_append]
              refine ((hp.map Prod.fst).map (fun e => e.2.2)).nodup_iff.2 ?_
              rw [h1]
              exact hnd)
          simp only [List.length_nil, Option.map_none] at this
          rw [this, sortByWeight_payload, ← bucketLoop_map (world 0).edge (fun _ => ⟨rfl, rfl⟩)]
          rfl

end Trees

/-! ### `connected_component_orders` -/

theorem drainStackM_none (g : Graph V A) (fuel : Nat) (t : Traversal V V) (size : Nat) :
    drainStackM g (fun _ _ _ s => (.ok true, s)) fuel t size () = (drainStack g none fuel t size, ()) := by
  have h1 : ∀ (n : V) (es : List (V × V × PyKey × Attrs A)) (t : Traversal V V),
      pushNeighborsM (fun _ _ _ s => (.ok true, s)) n es t () = (pushNeighbors none n es t, ()) := by
    intro n es
    induction es with
    | nil => intro t; rfl
    | cons e es ih =>
      intro t
      obtain ⟨u, v, k, a⟩ := e
      simp only [pushNeighborsM, pushNeighbors, follows]
      exact ih _
  induction fuel generalizing t size with
  | zero => unfold drainStackM drainStack; split <;> rfl
  | succ fuel ih =>
    unfold drainStackM drainStack
    split
    · rfl
    · rcases t.pop with x | ⟨t', n⟩
      · rfl
      · simp only [h1]
        rcases pushNeighbors none n (g.edgesOf n) t' with x | t''
        · rfl
        · exact ih _ _

theorem run_drainStackCo (world : Nat → Graph V A) (k fuel : Nat) (t : Traversal V V) (size : Nat)
    (c : Nat → Traversal V V → Co (Graph V A) Nat) :
    run world k (drainStackCo fuel t size c) =
      match drainStack (world k) none fuel t size with
      | .error e => ⟨[], some e⟩
      | .ok (size, t) => run world k (c size t) := by
  induction fuel generalizing t size with
  | zero => unfold drainStackCo drainStack; split <;> rfl
  | succ fuel ih =>
    unfold drainStackCo drainStack
    split
    · rfl
    · rcases t.pop with x | ⟨t', n⟩
      · rfl
      · simp only [run]
        rcases pushNeighbors none n ((world k).edgesOf n) t' with x | t''
        · rfl
        · exact ih _ _

theorem run_componentOrdersLoopCo_const (g : Graph V A) (k : Nat) (ns : List V) (t : Traversal V V) :
    run (fun _ => g) k (componentOrdersLoopCo g.order ns t) = componentOrdersLoop g none ns t := by
  induction ns generalizing k t with
  | nil => rfl
  | cons n ns ih =>
    unfold componentOrdersLoopCo componentOrdersLoop
    split
    · rfl
    · split
      · exact ih k t
      · rw [run_drainStackCo]
        rcases drainStack g none g.order (t.append id n none).1 0 with x | ⟨m, t'⟩
        · rfl
        · simp only [run, ih]

/-- Nothing modifies the graph: the generator is the one of the other properties. -/
theorem componentOrdersCo_const (g : Graph V A) :
    run (fun _ => g) 0 connectedComponentOrdersCo = connectedComponentOrders g none :=
  run_componentOrdersLoopCo_const g 0 g.nodes (Traversal.init g.nodes)

theorem run_componentOrdersLoopCo (world : Nat → Graph V A) (nodes : List V) (hn : ∀ k, (world k).nodes = nodes)
    (h : ∀ k, (world k).WF) (k : Nat) (ns : List V) (t : Traversal V V)
    (hd : t.seen.Nodup) (hs : ∀ x ∈ t.seen, x ∈ nodes) (hi : t.items = []) (hg : t.graph = nodes)
    (hcov : ∀ x ∈ nodes, x ∈ t.seen ∨ x ∈ ns) (hns : ∀ x ∈ ns, x ∈ nodes) :
    (run world k (componentOrdersLoopCo nodes.length ns t)).err = none ∧
      (run world k (componentOrdersLoopCo nodes.length ns t)).yields.sum + t.seen.length = nodes.length ∧
      ∀ m ∈ (run world k (componentOrdersLoopCo nodes.length ns t)).yields, 0 < m := by
  induction ns generalizing k t with
  | nil =>
    refine ⟨rfl, ?_, by simp [componentOrdersLoopCo, run]⟩
    have : t.seen.Perm nodes :=
      (List.perm_ext_iff_of_nodup hd (hn k ▸ (h k).nodup)).2 (fun x => ⟨hs x, fun hx => by simpa using hcov x hx⟩)
    simp [componentOrdersLoopCo, run, this.length_eq]
  | cons n ns ih =>
    unfold componentOrdersLoopCo
    split
    · rename_i hall
      refine ⟨rfl, ?_, by simp [run]⟩
      have : t.seen.length = t.graph.length := by simpa [Traversal.seenAll] using hall
      simp [run, this, hg]
    · split
      · rename_i hcon
        have hcon : n ∈ t.seen := by simpa [Traversal.contains] using hcon
        exact ih k t hd hs hi hg (fun x hx => by
          rcases hcov x hx with hx | hx
          · exact .inl hx
          · rcases List.mem_cons.1 hx with rfl | hx
            · exact .inl hcon
            · exact .inr hx) (fun x hx => hns x (List.mem_cons_of_mem _ hx))
      · rename_i hcon
        have hcon : n ∉ t.seen := by simpa [Traversal.contains] using hcon
        have hnm := hns n (by simp)
        have hu : (t.append id n none).1 = { t with seen := n :: t.seen, items := [n] } := by
          unfold Traversal.append
          simp [hcon, hi]
        rw [hu, run_drainStackCo]
        have hlen : (world k).nodes.length = nodes.length := by rw [hn k]
        rcases drainStackM_cases (h k) (fun _ _ _ s => (.ok true, s)) nodes.length
            { t with seen := n :: t.seen, items := [n] } 0 () (List.nodup_cons.2 ⟨hcon, hd⟩) (by
              intro x hx
              rw [hn k]
              rcases List.mem_cons.1 hx with rfl | hx
              · exact hnm
              · exact hs x hx) (by
              intro x hx
              rw [hn k, List.mem_singleton.1 hx]
              exact hnm) (by
              simp only [List.length_cons, List.length_nil]
              omega) with
          ⟨t', s', bs, popped, p1, p2, p3, p4, p5, p6, p7, p8⟩ | ⟨x, s', p1, m, hm, e, he, s₁, p2⟩
        · rw [drainStackM_none] at p1
          have p1 := congrArg Prod.fst p1
          simp only [Nat.zero_add] at p1
          rw [p1]
          simp only [run]
          have hp : (popped ++ t.seen).Perm t'.seen := by
            have := p3
            simp only [List.singleton_append] at this
            exact (List.perm_cons n).1 (List.perm_middle.symm.trans this)
          obtain ⟨q1, q2, q3⟩ := ih (k + 1) t' p6 (fun x hx => hn k ▸ p7 x hx) p4 (p5.trans hg) (fun x hx => by
              rcases hcov x hx with hx | hx
              · exact .inl (hp.subset (by simp [hx]))
              · rcases List.mem_cons.1 hx with rfl | hx
                · exact .inl (p8 x (by simp))
                · exact .inr hx) (fun x hx => hns x (List.mem_cons_of_mem _ hx))
          have hl := hp.length_eq
          rw [List.length_append] at hl
          refine ⟨q1, ?_, ?_⟩
          · simp only [List.sum_cons]
            omega
          · intro m hm
            rcases List.mem_cons.1 hm with rfl | hm
            · rcases popped with _ | ⟨x, popped⟩
              · have : n ∈ t.seen := by
                  have := p8 n (by simp)
                  simpa using hp.symm.subset this
                exact absurd this hcon
              · simp
            · exact q3 m hm
        · cases p2

/-- C85 for `connected_component_orders`: the loop consuming the generator may add and remove edges; the orders then add up to
the number of nodes, each is positive and nothing is raised. -/
theorem componentOrdersCo_partition (world : Nat → Graph V A) (hn : ∀ k, (world k).nodes = (world 0).nodes)
    (h : ∀ k, (world k).WF) :
    (run world 0 connectedComponentOrdersCo).err = none ∧
      (run world 0 connectedComponentOrdersCo).yields.sum = (world 0).order ∧
      ∀ m ∈ (run world 0 connectedComponentOrdersCo).yields, 0 < m := by
  have ho : (world 0).order = (world 0).nodes.length := by simp [Graph.order, Graph.nodes, Dict.keys]
  have := run_componentOrdersLoopCo world (world 0).nodes hn h 0 (world 0).nodes (Traversal.init (world 0).nodes)
    (by simp [Traversal.init]) (by simp [Traversal.init]) rfl rfl (fun x hx => .inr hx) (fun x hx => hx)
  simp only [connectedComponentOrdersCo, run, ho]
  simpa [Traversal.init] using this

/-! ### Concrete cases -/

/-- A triangle 1, 2, 3 and a triangle 2, 3, 4. -/
def demoCo : Graph Int Int :=
  { directed := false, multi := false, attrs := [], node := [(1, []), (2, []), (3, []), (4, [])],
    links := [⟨1, 2, [(.int 0, [])]⟩, ⟨2, 3, [(.int 0, [])]⟩, ⟨1, 3, [(.int 0, [])]⟩, ⟨2, 4, [(.int 0, [])]⟩,
      ⟨3, 4, [(.int 0, [])]⟩] }

/-- The loop empties the graph at the first triangle: the second one is found all the same. -/
example : (run (fun k => if k = 0 then demoCo else ⟨false, false, [], [], []⟩) 0 trianglesCo).yields =
    [(2, 4, 3), (2, 3, 1)] := by decide +kernel

/-- Three nodes without edges. -/
def demoCoApart : Graph Int Int :=
  { directed := false, multi := false, attrs := [], node := [(1, []), (2, []), (3, [])], links := [] }

/-- The same with the edge 2 - 3. -/
def demoCoJoined : Graph Int Int :=
  { directed := false, multi := false, attrs := [], node := [(1, []), (2, []), (3, [])],
    links := [⟨2, 3, [(.int 0, [])]⟩] }

/-- C85 fails for `connected_component_orders`: an edge added after the first yield is followed. -/
theorem componentOrders_not_snapshot :
    demoCoApart.WF ∧ demoCoJoined.WF ∧ demoCoApart.nodes = demoCoJoined.nodes ∧
    (connectedComponentOrders demoCoApart none).yields = [1, 1, 1] ∧
    (run (fun k => if k = 0 then demoCoApart else demoCoJoined) 0 connectedComponentOrdersCo).yields = [1, 2] := by
  refine ⟨by constructor <;> decide, by constructor <;> decide, by decide, by decide +kernel, by decide +kernel⟩

/-- A path 1 - 2 - 3 with weights 5 and 3, whose dicts are 4 and 5. -/
def demoCoTree : HGraph Int :=
  { directed := false, multi := false, attrs := 0, node := [(1, 1), (2, 2), (3, 3)],
    links := [⟨1, 2, [(.int 0, 4)]⟩, ⟨2, 3, [(.int 0, 5)]⟩] }

/-- The dicts, with the weights of the two edges. -/
def demoCoHeap (x y : ℚ) : Heap (Val ℚ) := [[], [], [], [], [(.str "weight", .num x)], [(.str "weight", .num y)]]

/-- The loop sets the weights of the edges yielded to 0 and removes the edges of the graph. -/
def demoCoWorld (k : Nat) : World Int (Val ℚ) :=
  if k = 0 then ⟨demoCoHeap 5 3, demoCoTree⟩
  else if k = 1 then ⟨demoCoHeap 0 3, { demoCoTree with links := [] }⟩
  else ⟨demoCoHeap 0 0, { demoCoTree with links := [] }⟩

example : (run demoCoWorld 0 (spanningTreesCo (2 ^ 64 - 1) "weight")).yields = [(1, 2, 4), (2, 3, 5)] := by decide +kernel

example : (demoCoWorld 0).graph.Valid (demoCoWorld 0).heap ∧ (demoCoWorld 0).graph.locs.Nodup := by
  refine ⟨?_, by decide +kernel⟩
  unfold HGraph.Valid
  decide +kernel

set_option synthInstance.maxSize 2000 in
example : (demoCoWorld 0).deref.WF := by constructor <;> decide

/-- The hypothesis of `spanningTrees_snapshot` about weights. -/
example (k : Nat) (e : Int × Int × Loc) (he : e ∈ (demoCoWorld 0).edges)
    (hn : e.2.2 ∉ ((run demoCoWorld 0 (spanningTreesCo (2 ^ 64 - 1) "weight")).yields.take k).map (fun e => e.2.2)) :
    (demoCoWorld k).weightOf "weight" e = (demoCoWorld 0).weightOf "weight" e := by
  have hy : (run demoCoWorld 0 (spanningTreesCo (2 ^ 64 - 1) "weight")).yields = [(1, 2, 4), (2, 3, 5)] := by
    decide +kernel
  have hed : (demoCoWorld 0).edges = [(1, 2, 4), (2, 3, 5)] := by decide +kernel
  rw [hy] at hn
  rw [hed] at he
  match k with
  | 0 => rfl
  | 1 =>
    simp only [List.mem_cons, List.not_mem_nil, or_false] at he
    rcases he with rfl | rfl
    · simp at hn
    · rfl
  | k + 2 =>
    simp only [List.mem_cons, List.not_mem_nil, or_false] at he
    rcases he with rfl | rfl <;> simp at hn

/-- A triangle with weights 5, 4 and a last one. -/
def demoCoTriangle (x : ℚ) : World Int (Val ℚ) :=
  { heap := [[], [], [], [], [(.str "weight", .num 5)], [(.str "weight", .num 4)], [(.str "weight", .num x)]]
    graph := { directed := false, multi := false, attrs := 0, node := [(1, 1), (2, 2), (3, 3)],
               links := [⟨1, 2, [(.int 0, 4)]⟩, ⟨2, 3, [(.int 0, 5)]⟩, ⟨1, 3, [(.int 0, 6)]⟩] } }

/-- The weight of an edge that has not been yielded must not change: here it is raised from 3 to 4 at the first yield, and the
three edges of the triangle come out, as if they were all in some maximum spanning tree. -/
theorem spanningTrees_weights_read_late :
    (run (fun k => if k = 0 then demoCoTriangle 3 else demoCoTriangle 4) 0 (spanningTreesCo (2 ^ 64 - 1) "weight")).yields =
      [(1, 2, 4), (2, 3, 5), (1, 3, 6)] ∧
    (run (fun _ => demoCoTriangle 3) 0 (spanningTreesCo (2 ^ 64 - 1) "weight")).yields = [(1, 2, 4), (2, 3, 5)] := by
  decide +kernel

end Pelote
