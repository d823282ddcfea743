import Verif.Model.EdgeLoop
import Verif.Props.Coroutine
import Verif.Props.Copies

/-! C103: modifying a graph in a loop over `relevant_edges(graph)` or `redundant_edges(graph)`. -/
namespace Pelote
variable {V A : Type} [DecidableEq V]
open Co

/-- What comes out of a test of each edge in turn, the dicts being `heap j` once `j` edges came out, when the generator is
interrupted by `RuntimeError` after `k` edges. -/
def testedInTurn (want : Bool) (predicate : EdgePred V A) (heap : Nat → Heap A) (k : Nat) :
    Nat → List (V × V × Loc) → Gen (V × V × Loc)
  | _, [] => ⟨[], none⟩
  | j, e :: es =>
    match predicate e.1 e.2.1 ((heap j).read e.2.2) with
    | .error x => ⟨[], some x⟩
    | .ok b =>
      if b = want then
        if j + 1 = k then ⟨[e], some .runtimeError⟩
        else ⟨e :: (testedInTurn want predicate heap k (j + 1) es).yields, (testedInTurn want predicate heap k (j + 1) es).err⟩
      else testedInTurn want predicate heap k j es

section
variable (want : Bool) (p : EdgePred V A) (other : Co (World V A) (V × V × Loc)) (world : Nat → World V A) (k : Nat)
  (G : HGraph V)

/-- The edges of one node which are listed. -/
def HGraph.listed (G : HGraph V) (n : V) (seen : List V) (l : List (V × Dict PyKey Loc)) : List (V × V × Loc) :=
  (l.filter (fun q => G.directed || !decide (q.1 ∈ seen))).flatMap (fun q => q.2.map (fun ka => (n, q.1, ka.2)))

/-- What is required of the world after `k` edges: the last one came from a node whose number of neighbors is another one. -/
def Interrupted (n : V) : Prop :=
  (world k).graph.node = G.node ∧ ((world k).graph.adj n).length ≠ (G.adj n).length

variable {world k G}

theorem run_neighborsCo (hG : ∀ j < k, (world j).graph = G) {n : V} {l : Loc} (hl : G.node.get? n = some l) (seen : List V)
    (c : Co (World V A) (V × V × Loc)) (es : List (V × V × Loc))
    (hc : ∀ j < k, (∀ e, (testedInTurn want p (fun j => (world j).heap) k j es).yields[k - 1 - j]? = some e →
        Interrupted world k G e.1) → run world j c = testedInTurn want p (fun j => (world j).heap) k j es)
    (rest : List (V × Dict PyKey Loc)) (hd : ∀ q ∈ rest, ∃ x, q.2 = [x]) (j : Nat) (hj : j < k)
    (hk : ∀ e, (testedInTurn want p (fun j => (world j).heap) k j (G.listed n seen rest ++ es)).yields[k - 1 - j]? = some e →
        Interrupted world k G e.1) :
    run world j (neighborsCo want p other n l seen (G.adj n) c rest) =
      testedInTurn want p (fun j => (world j).heap) k j (G.listed n seen rest ++ es) := by
  induction rest generalizing j with
  | nil =>
    simp only [neighborsCo, run, hG j hj, hl, ne_eq, not_true_eq_false, if_false, nextItem]
    exact hc j hj hk
  | cons q rest ih =>
    obtain ⟨m, data⟩ := q
    obtain ⟨⟨key, d⟩, hx⟩ := hd _ List.mem_cons_self
    simp only at hx
    subst hx
    have ih := ih (fun q hq => hd q (List.mem_cons_of_mem _ hq))
    simp only [neighborsCo, run, hG j hj, hl, ne_eq, not_true_eq_false, if_false, nextItem]
    by_cases hs : (!G.directed && decide (m ∈ seen)) = true
    · have hls : G.listed n seen ((m, [(key, d)]) :: rest) = G.listed n seen rest := by
        have : (G.directed || !decide (m ∈ seen)) = false := by
          revert hs; cases G.directed <;> cases decide (m ∈ seen) <;> simp
        simp only [HGraph.listed, List.filter_cons, this, Bool.false_eq_true, if_false]
      rw [if_pos hs]
      rw [hls] at hk ⊢
      exact ih j hj hk
    · have hls : G.listed n seen ((m, [(key, d)]) :: rest) = (n, m, d) :: G.listed n seen rest := by
        have : (G.directed || !decide (m ∈ seen)) = true := by
          revert hs; cases G.directed <;> cases decide (m ∈ seen) <;> simp
        simp only [HGraph.listed, List.filter_cons, this, if_true, List.flatMap_cons, List.map_cons, List.map_nil,
          List.singleton_append]
      rw [if_neg hs]
      rw [hls] at hk ⊢
      simp only [List.cons_append, testedInTurn] at hk ⊢
      rcases hp : p n m ((world j).heap.read d) with x | b
      · simp only [run]
      · simp only [hp] at hk
        simp only
        by_cases hb : b = want
        · simp only [hb, if_true, run] at hk ⊢
          by_cases hjk : j + 1 = k
          · simp only [hjk, if_true] at hk ⊢
            have h := hk (n, m, d) (by simp [← hjk])
            obtain ⟨h1, h2⟩ := h
            simp only at h2
            have : run world k (neighborsCo want p other n l seen (G.adj n) c rest) = ⟨[], some .runtimeError⟩ := by
              cases rest <;> simp [neighborsCo, run, h1, hl, nextItem, h2]
            rw [this]
          · simp only [hjk, if_false] at hk ⊢
            rw [ih (j + 1) (by omega)]
            intro e he
            apply hk e
            have : k - 1 - j = (k - 1 - (j + 1)) + 1 := by omega
            rw [this, List.getElem?_cons_succ]
            exact he
        · simp only [hb, if_false] at hk ⊢
          exact ih j hj hk

theorem run_edgesCo (hG : ∀ j < k, (world j).graph = G) (hs : ∀ n, ∀ q ∈ G.adj n, ∃ x, q.2 = [x]) (hn : G.node.keys.Nodup)
    (rest : Dict V Loc) (hr : ∀ q ∈ rest, q ∈ G.node) (seen : List V) (j : Nat) (hj : j < k)
    (hk : ∀ e, (testedInTurn want p (fun j => (world j).heap) k j
        ((G.edgesFrom seen rest.keys).map (fun e => (e.1, e.2.1, e.2.2.2)))).yields[k - 1 - j]? = some e →
        Interrupted world k G e.1) :
    run world j (edgesCo want p other G.node seen rest) =
      testedInTurn want p (fun j => (world j).heap) k j ((G.edgesFrom seen rest.keys).map (fun e => (e.1, e.2.1, e.2.2.2))) := by
  induction rest generalizing seen j with
  | nil =>
    simp [edgesCo, run, hG j hj, nextItem, HGraph.edgesFrom, Dict.keys, testedInTurn]
  | cons q rest ih =>
    obtain ⟨n, l⟩ := q
    have hl : G.node.get? n = some l := Dict.get?_of_mem hn (hr _ List.mem_cons_self)
    have hcons : (G.edgesFrom seen (Dict.keys ((n, l) :: rest))).map (fun e => (e.1, e.2.1, e.2.2.2)) =
        G.listed n seen (G.adj n) ++ (G.edgesFrom (n :: seen) (Dict.keys rest)).map (fun e => (e.1, e.2.1, e.2.2.2)) := by
      simp only [Dict.keys, List.map_cons, HGraph.edgesFrom, List.map_append, HGraph.listed, List.map_flatMap, List.map_map]
      rfl
    rw [hcons] at hk ⊢
    simp only [edgesCo, run, hG j hj, nextItem, ne_eq, not_true_eq_false, if_false]
    exact run_neighborsCo want p other hG hl seen _ _
      (fun j hj hk => ih (fun q hq => hr q (List.mem_cons_of_mem _ hq)) (n :: seen) j hj hk) _ (hs n) j hj hk

end

/-! ### Edges which do not change before they come out -/

/-- The edges which come out of a listing made first. -/
def testedFirst (want : Bool) (p : EdgePred V A) (H : Heap A) (es : List (V × V × Loc)) : Gen (V × V × Loc) :=
  testedInTurn want p (fun _ => H) 0 0 es

theorem testedInTurn_const (want : Bool) (p : EdgePred V A) (H : Heap A) (j : Nat) (es : List (V × V × Loc)) :
    testedInTurn want p (fun _ => H) 0 j es = testedFirst want p H es := by
  have aux : ∀ i j, testedInTurn want p (fun _ => H) 0 j es = testedInTurn want p (fun _ => H) 0 i es := by
    induction es with
    | nil => exact fun _ _ => rfl
    | cons e es ih =>
      intro i j
      simp only [testedInTurn]
      rcases p e.1 e.2.1 (H.read e.2.2) with x | b
      · rfl
      · simp only [Nat.add_eq_zero_iff, one_ne_zero, and_false, if_false]
        rw [ih (i + 1) (j + 1), ih i j]
  exact aux 0 j

theorem testedFirst_cons (want : Bool) (p : EdgePred V A) (H : Heap A) (e : V × V × Loc) (es : List (V × V × Loc)) :
    testedFirst want p H (e :: es) =
      match p e.1 e.2.1 (H.read e.2.2) with
      | .error x => ⟨[], some x⟩
      | .ok b =>
        if b = want then ⟨e :: (testedFirst want p H es).yields, (testedFirst want p H es).err⟩ else testedFirst want p H es := by
  rw [testedFirst, testedInTurn, testedInTurn_const]
  simp only [Nat.add_eq_zero_iff, one_ne_zero, and_false, if_false]
  rfl

theorem testedFirst_length (want : Bool) (p : EdgePred V A) (H : Heap A) (es : List (V × V × Loc)) :
    (testedFirst want p H es).yields.length ≤ es.length := by
  induction es with
  | nil => exact le_refl _
  | cons e es ih =>
    rw [testedFirst_cons]
    rcases p e.1 e.2.1 (H.read e.2.2) with x | b
    · simp
    · by_cases hb : b = want
      · simpa [hb] using ih
      · simp only [hb, if_false, List.length_cons]; omega

theorem testedFirst_subset (want : Bool) (p : EdgePred V A) (H : Heap A) (es : List (V × V × Loc)) :
    (testedFirst want p H es).yields ⊆ es := by
  induction es with
  | nil => exact List.Subset.refl _
  | cons e es ih =>
    rw [testedFirst_cons]
    rcases p e.1 e.2.1 (H.read e.2.2) with x | b
    · simp
    · by_cases hb : b = want
      · simpa [hb] using List.subset_cons_of_subset e ih
      · simpa [hb] using List.subset_cons_of_subset e ih

theorem testedFirst_yieldWhen (want : Bool) (p : EdgePred V A) (w : World V A) (es : List (V × V × PyKey × Loc)) :
    (testedFirst want p w.heap (es.map (fun e => (e.1, e.2.1, e.2.2.2)))).map w.edge =
      (yieldWhen want p (es.map (derefEdge w.heap))).map (fun e => (e.1, e.2.1, e.2.2.2)) := by
  induction es with
  | nil => rfl
  | cons e es ih =>
    obtain ⟨u, v, key, d⟩ := e
    rw [List.map_cons, testedFirst_cons]
    simp only [List.map_cons, derefEdge, yieldWhen]
    rcases p u v (w.heap.read d) with x | b
    · rfl
    · simp only [Gen.map, Gen.mk.injEq] at ih ⊢
      by_cases hb : b = want
      · simp only [hb, if_true, List.map_cons, ih.1, ih.2, World.edge, and_self]
      · simp only [hb, if_false]
        exact ih

theorem testedInTurn_eq (want : Bool) (p : EdgePred V A) (heap : Nat → Heap A) (H : Heap A) (k j : Nat) (hj : j < k)
    (es : List (V × V × Loc)) (hn : (es.map (fun e => (e.1, e.2.1))).Nodup)
    (hw : ∀ i, j ≤ i → i < k → ∀ e ∈ es,
      (e.1, e.2.1) ∉ ((testedFirst want p H es).yields.take (i - j)).map (fun e => (e.1, e.2.1)) →
      p e.1 e.2.1 ((heap i).read e.2.2) = p e.1 e.2.1 (H.read e.2.2)) :
    testedInTurn want p heap k j es =
      if k - j ≤ (testedFirst want p H es).yields.length then
        ⟨(testedFirst want p H es).yields.take (k - j), some .runtimeError⟩
      else testedFirst want p H es := by
  induction es generalizing j with
  | nil =>
    have : ¬ k - j ≤ (testedFirst want p H ([] : List (V × V × Loc))).yields.length := by
      simp [testedFirst, testedInTurn]; omega
    rw [if_neg this]; rfl
  | cons e es ih =>
    have hn' := (List.nodup_cons.1 hn).2
    have he := (List.nodup_cons.1 hn).1
    have h0 := hw j (le_refl _) hj e List.mem_cons_self (by simp)
    rw [testedFirst_cons] at hw ⊢
    simp only [testedInTurn]
    rw [h0]
    rcases hp : p e.1 e.2.1 (H.read e.2.2) with x | b
    · simp only [List.length_nil]
      rw [if_neg (by omega)]
    · rw [hp] at hw
      simp only at hw ⊢
      by_cases hb : b = want
      · simp only [hb, if_true] at hw ⊢
        by_cases hjk : j + 1 = k
        · have h1 : k - j = 1 := by omega
          simp [hjk, h1]
        · simp only [hjk, if_false]
          have h1 : k - j = (k - (j + 1)) + 1 := by omega
          rw [ih (j + 1) (by omega) hn']
          · simp only [h1, List.length_cons, Nat.add_le_add_iff_right, List.take_succ_cons]
            split <;> rfl
          · intro i hi hik x hx hnot
            apply hw i (by omega) hik x (List.mem_cons_of_mem _ hx)
            have h2 : i - j = (i - (j + 1)) + 1 := by omega
            rw [h2, List.take_succ_cons, List.map_cons, List.mem_cons, not_or]
            refine ⟨?_, hnot⟩
            intro heq
            refine he ?_
            show (e.1, e.2.1) ∈ _
            rw [← heq]
            exact List.mem_map_of_mem (f := fun e : V × V × Loc => (e.1, e.2.1)) hx
      · simp only [hb, if_false] at hw ⊢
        exact ih j hj hn' (fun i hi hik x hx hnot => hw i hi hik x (List.mem_cons_of_mem _ hx) hnot)

/-! ### The theorems -/

section
variable (want : Bool) (factory : PredFactory V A) (other : Co (World V A) (V × V × Loc)) (world : Nat → World V A)

variable {want factory other world}

theorem simple_adj {w : World V A} (wf : w.deref.WF) (hm : w.graph.multi = false) (n : V) :
    ∀ q ∈ w.graph.adj n, ∃ x, q.2 = [x] := by
  intro q hq
  obtain ⟨x, hx, _, he⟩ := adj_link hq
  have := wf.simple hm (HGraph.derefLink w.heap x) (List.mem_map_of_mem hx)
  rw [HGraph.derefLink_eq] at this
  simp only [keys_derefD] at this
  rw [he]
  match hxd : x.data with
  | [] => rw [hxd] at this; cases this
  | [y] => exact ⟨y, rfl⟩
  | y :: z :: l => rw [hxd] at this; simp [Dict.keys] at this

theorem run_sparsifierEdgesCo {k : Nat} (hk0 : 0 < k) (wf : (world 0).deref.WF) (hm : (world 0).graph.multi = false)
    (hG : ∀ j < k, (world j).graph = (world 0).graph) {p : EdgePred V A} (hp : factory (world 0).deref = .ok p)
    (hk : ∀ e, (testedFirst want p (world 0).heap (world 0).edges).yields[k - 1]? = some e →
      Interrupted world k (world 0).graph e.1)
    (hw : ∀ i < k, ∀ e ∈ (world 0).edges,
      (e.1, e.2.1) ∉ ((testedFirst want p (world 0).heap (world 0).edges).yields.take i).map (fun e => (e.1, e.2.1)) →
      p e.1 e.2.1 ((world i).heap.read e.2.2) = p e.1 e.2.1 ((world 0).heap.read e.2.2)) :
    run world 0 (sparsifierEdgesCo want factory other) =
      (if k ≤ (testedFirst want p (world 0).heap (world 0).edges).yields.length then
        ⟨(testedFirst want p (world 0).heap (world 0).edges).yields.take k, some .runtimeError⟩
      else testedFirst want p (world 0).heap (world 0).edges) := by
  have hnd : ((world 0).edges.map (fun e => (e.1, e.2.1))).Nodup := by
    have := pairs_nodup wf hm
    rw [World.edges_deref, List.map_map] at this
    exact this
  have hn : (world 0).graph.node.keys.Nodup := by
    have := wf.nodup
    unfold Graph.nodes World.deref HGraph.deref at this
    simpa [Dict.keys, Function.comp_def] using this
  have ht := testedInTurn_eq want p (fun j => (world j).heap) (world 0).heap k 0 hk0 (world 0).edges hnd
    (fun i _ hi e he hnot => hw i hi e he hnot)
  rw [Nat.sub_zero] at ht
  rw [← ht]
  simp only [sparsifierEdgesCo, run, hp]
  refine run_edgesCo want p other hG (simple_adj wf hm) hn _ (fun q hq => hq) [] 0 hk0 ?_
  intro e he
  apply hk e
  have he : (testedInTurn want p (fun j => (world j).heap) k 0 (world 0).edges).yields[k - 1 - 0]? = some e := he
  rw [Nat.sub_zero, ht] at he
  split at he
  · have h2 := List.getElem?_eq_some_iff.1 he
    obtain ⟨h3, h4⟩ := h2
    rw [List.getElem_take] at h4
    rw [List.getElem?_eq_some_iff]
    exact ⟨by simp at h3; omega, h4⟩
  · exact he

/-- An edge without its key. -/
def dropKey {B : Type} (e : V × V × PyKey × B) : V × V × B := (e.1, e.2.1, e.2.2.2)

theorem testedFirst_default {w : World V A} {p : EdgePred V A} (hp : factory w.deref = .ok p) :
    (testedFirst want p w.heap w.edges).map w.edge = (defaultGenerator want factory w.deref).map dropKey := by
  simp only [defaultGenerator, hp]
  rw [World.deref, edgesKeys_deref]
  exact testedFirst_yieldWhen want p w w.graph.edgesKeys

variable (want factory world) in
/-- Before the `k`-th edge comes out, the attributes of the edges which are still to come (among those of a listing made first)
are what they were, as far as the predicate can tell. -/
def Untouched (k : Nat) : Prop :=
  ∀ p, factory (world 0).deref = .ok p → ∀ i < k, ∀ e ∈ (world 0).edges,
    (e.1, e.2.1) ∉ ((defaultGenerator want factory (world 0).deref).yields.take i).map (fun e => (e.1, e.2.1)) →
    p e.1 e.2.1 ((world i).heap.read e.2.2) = p e.1 e.2.1 ((world 0).heap.read e.2.2)

theorem pairs_default {w : World V A} {p : EdgePred V A} (hp : factory w.deref = .ok p) :
    (testedFirst want p w.heap w.edges).yields.map (fun e => (e.1, e.2.1)) =
      (defaultGenerator want factory w.deref).yields.map (fun e => (e.1, e.2.1)) := by
  have h := congrArg Gen.yields (testedFirst_default (want := want) hp)
  simp only [Gen.map] at h
  have h := congrArg (List.map (fun e : V × V × Attrs A => (e.1, e.2.1))) h
  simpa [List.map_map, Function.comp_def, World.edge, dropKey] using h

/-- C103: while the graph keeps its nodes and edges, the loop may modify the attributes of the edges it was given (and of the
others, if the predicate does not look at what is modified): what comes out is what a listing made first has. -/
theorem sparsifier_loop_snapshot (wf : (world 0).deref.WF) (hm : (world 0).graph.multi = false)
    (hG : ∀ j, (world j).graph = (world 0).graph) (hu : ∀ k, Untouched want factory world k) :
    (run world 0 (sparsifierEdgesCo want factory other)).map (world 0).edge =
      (defaultGenerator want factory (world 0).deref).map dropKey := by
  rcases hp : factory (world 0).deref with x | p
  · simp only [sparsifierEdgesCo, run, hp, defaultGenerator]; rfl
  · rw [← testedFirst_default hp]
    have hlen := testedFirst_length want p (world 0).heap (world 0).edges
    rw [run_sparsifierEdgesCo (k := (world 0).edges.length + 1) (by omega) wf hm (fun j _ => hG j) hp, if_neg (by omega)]
    · intro e he
      have := (List.getElem?_eq_some_iff.1 he).1
      omega
    · intro i hi e he hnot
      refine hu _ p hp i hi e he ?_
      rwa [List.map_take, ← pairs_default hp, ← List.map_take]

/-- C103: when the loop adds or removes edges so that the node an edge came from (its first end) has another number of
neighbors, the next `next()` raises `RuntimeError`: exactly the edges up to that one came out. -/
theorem sparsifier_loop_interrupted (wf : (world 0).deref.WF) (hm : (world 0).graph.multi = false) {k : Nat} (hk0 : 0 < k)
    (hG : ∀ j < k, (world j).graph = (world 0).graph) (hu : Untouched want factory world k)
    {e : KeyedEdge V A} (he : (defaultGenerator want factory (world 0).deref).yields[k - 1]? = some e)
    (hn : (world k).graph.node = (world 0).graph.node)
    (hl : ((world k).graph.adj e.1).length ≠ ((world 0).graph.adj e.1).length) :
    (run world 0 (sparsifierEdgesCo want factory other)).map (world 0).edge =
      ⟨((defaultGenerator want factory (world 0).deref).yields.take k).map dropKey, some .runtimeError⟩ := by
  rcases hp : factory (world 0).deref with x | p
  · simp [defaultGenerator, hp] at he
  · have h := testedFirst_default (want := want) hp
    have hlen : (testedFirst want p (world 0).heap (world 0).edges).yields.length =
        (defaultGenerator want factory (world 0).deref).yields.length := by
      have := congrArg (fun x => x.yields.length) h
      simpa [Gen.map] using this
    have hke := (List.getElem?_eq_some_iff.1 he).1
    rw [run_sparsifierEdgesCo hk0 wf hm hG hp, if_pos (by omega)]
    · have := congrArg Gen.yields h
      simp only [Gen.map] at this ⊢
      rw [List.map_take, this, List.map_take]
    · intro f hf
      have hpair := congrArg (fun l => l[k - 1]?) (pairs_default (want := want) hp)
      simp only [List.getElem?_map, hf, he, Option.map_some, Option.some.injEq, Prod.mk.injEq] at hpair
      rw [hpair.1]
      exact ⟨hn, hl⟩
    · intro i hi f hf hnot
      refine hu p hp i hi f hf ?_
      rwa [List.map_take, ← pairs_default hp, ← List.map_take]

end

/-! ### Loops -/

section Loop
variable {ρ α : Type} (body : ρ → α → ρ)

/-- What the world is once the body was run `j` times. -/
def Co.during : Co ρ α → ρ → Nat → ρ
  | stop _, w, _ => w
  | read f, w, j => during (f w) w j
  | yield _ _, w, 0 => w
  | yield a c, w, j + 1 => during c (body w a) j

theorem Co.during_zero (c : Co ρ α) (w : ρ) : c.during body w 0 = w := by
  induction c generalizing w with
  | stop e => rfl
  | read f ih => exact ih w w
  | yield a c _ => rfl

theorem Co.run_shift (world : Nat → ρ) (k : Nat) (c : Co ρ α) : run world k c = run (fun j => world (k + j)) 0 c := by
  have aux : ∀ (world world' : Nat → ρ) (i j : Nat), (∀ m, world (i + m) = world' (j + m)) →
      run world i c = run world' j c := by
    induction c with
    | stop e => intros; rfl
    | read f ih =>
      intro world world' i j h
      simp only [run]
      have := h 0
      simp only [Nat.add_zero] at this
      rw [this]
      exact ih _ _ _ _ _ h
    | yield a c ih =>
      intro world world' i j h
      simp only [run]
      rw [ih world world' (i + 1) (j + 1) (fun m => by have := h (m + 1); rwa [Nat.add_comm m 1, ← Nat.add_assoc, ← Nat.add_assoc] at this)]
  exact aux _ _ _ _ (fun m => by simp)

/-- A loop gets what comes out of the generator in the worlds the loop itself makes. -/
theorem Co.loop_run (c : Co ρ α) (w : ρ) :
    (c.loop body w).2 = run (c.during body w) 0 c ∧
      (c.loop body w).1 = c.during body w (c.loop body w).2.yields.length ∧
      ∀ j a, (c.loop body w).2.yields[j]? = some a → c.during body w (j + 1) = body (c.during body w j) a := by
  induction c generalizing w with
  | stop e => exact ⟨rfl, rfl, by simp [loop]⟩
  | read f ih =>
    have := ih w w
    simp only [loop, run, Co.during_zero]
    exact this
  | yield a c ih =>
    obtain ⟨h1, h2, h3⟩ := ih (body w a)
    refine ⟨?_, h2, ?_⟩
    · simp only [loop, run]
      rw [Co.run_shift]
      have : (fun j => (yield a c).during body w (0 + 1 + j)) = c.during body (body w a) := by
        funext j
        rw [show 0 + 1 + j = j + 1 by omega]
        rfl
      rw [this, ← h1]
    · rintro (_ | j) b hb
      · simp only [loop, List.getElem?_cons_zero, Option.some.injEq] at hb
        subst hb
        show c.during body (body w a) 0 = body w a
        exact Co.during_zero body c _
      · simp only [loop, List.getElem?_cons_succ] at hb
        exact h3 j b hb

/-- The first value a loop gets depends on what the world is before the loop only. -/
theorem Co.loop_first (c : Co ρ α) (world : Nat → ρ) (k : Nat) :
    (c.loop body (world k)).2.yields[0]? = (run world k c).yields[0]? := by
  induction c with
  | stop e => rfl
  | read f ih => exact ih _
  | yield a c _ => rfl

end Loop

theorem length_filterMap_filter_lt {α β : Type} (f : α → Option β) (p : α → Bool) (l : List α)
    (h : ∃ x ∈ l, p x = false ∧ (f x).isSome) : ((l.filter p).filterMap f).length < (l.filterMap f).length := by
  have hle : ∀ l : List α, ((l.filter p).filterMap f).length ≤ (l.filterMap f).length := fun l =>
    (List.Sublist.filterMap f List.filter_sublist).length_le
  induction l with
  | nil => simp at h
  | cons a l ih =>
    obtain ⟨x, hx, h1, h2⟩ := h
    rcases List.mem_cons.1 hx with rfl | hx
    · obtain ⟨b, hb⟩ := Option.isSome_iff_exists.1 h2
      simp only [List.filter_cons, h1, Bool.false_eq_true, if_false, List.filterMap_cons, hb, List.length_cons]
      have := hle l
      omega
    · have := ih ⟨x, hx, h1, h2⟩
      rcases hp : p a <;> rcases hf : f a <;>
        simp only [List.filter_cons, hp, Bool.false_eq_true, if_false, if_true, List.filterMap_cons, hf, List.length_cons] <;> omega

/-- C103: `for u, v, a in sparsifier.redundant_edges(graph): graph.remove_edge(u, v)` removes the first redundant edge, then
raises `RuntimeError`; it does nothing when there is none.  (Likewise for `relevant_edges`.) -/
theorem sparsifier_loop_removing {want : Bool} {factory : PredFactory V A} (other : Co (World V A) (V × V × Loc)) {w : World V A}
    (wf : w.deref.WF) (hm : w.graph.multi = false) :
    let r := (sparsifierEdgesCo want factory other).loop (fun w e => w.removeEdge e.1 e.2.1) w
    match (defaultGenerator want factory w.deref).yields with
    | [] => r.1 = w ∧ r.2 = ⟨[], (defaultGenerator want factory w.deref).err⟩
    | e :: _ => r.1 = w.removeEdge e.1 e.2.1 ∧ r.2.map w.edge = ⟨[dropKey e], some .runtimeError⟩ := by
  intro r
  obtain ⟨h1, h2, h3⟩ := Co.loop_run (fun w e => w.removeEdge e.1 e.2.1) (sparsifierEdgesCo want factory other) w
  set world := (sparsifierEdgesCo want factory other).during (fun (w : World V A) e => w.removeEdge e.1 e.2.1) w with hworld
  have h0 : world 0 = w := Co.during_zero _ _ _
  rcases hp : factory w.deref with x | p
  · have : r = (w, ⟨[], some x⟩) := by
      simp only [r, sparsifierEdgesCo, Co.loop, hp]
    rw [this]
    simp [defaultGenerator, hp]
  · have hd := testedFirst_default (want := want) hp
    have hrun : ∀ k, 0 < k → (∀ j < k, (world j).graph = w.graph) →
        (∀ e, (testedFirst want p w.heap w.edges).yields[k - 1]? = some e → Interrupted world k w.graph e.1) →
        (∀ i < k, (world i).heap = w.heap) →
        r.2 = if k ≤ (testedFirst want p w.heap w.edges).yields.length then
          ⟨(testedFirst want p w.heap w.edges).yields.take k, some .runtimeError⟩ else testedFirst want p w.heap w.edges := by
      intro k hk hG hI hH
      show ((sparsifierEdgesCo want factory other).loop _ w).2 = _
      rw [h1, run_sparsifierEdgesCo (p := p) hk (by rw [h0]; exact wf) (by rw [h0]; exact hm) (by rw [h0]; exact hG)
        (by rw [h0]; exact hp) (by rw [h0]; exact hI) (by intro i hi e _ _; rw [h0, hH i hi]), h0]
    rcases hy : (defaultGenerator want factory w.deref).yields with _ | ⟨e, es⟩
    · have ht : (testedFirst want p w.heap w.edges).yields = [] := by
        have := congrArg Gen.yields hd
        simpa [Gen.map, hy] using this
      have hr := hrun 1 (by omega) (by intro j hj; obtain rfl : j = 0 := by omega
                                       rw [h0]) (by simp [ht]) (by intro j hj; obtain rfl : j = 0 := by omega
                                                                   rw [h0])
      rw [ht, if_neg (by simp)] at hr
      have herr : (testedFirst want p w.heap w.edges).err = (defaultGenerator want factory w.deref).err := by
        have := congrArg Gen.err hd
        simpa [Gen.map] using this
      refine ⟨?_, ?_⟩
      · show ((sparsifierEdgesCo want factory other).loop _ w).1 = w
        rw [h2]
        have : ((sparsifierEdgesCo want factory other).loop (fun (w : World V A) e => w.removeEdge e.1 e.2.1) w).2.yields = [] := by
          show r.2.yields = []
          rw [hr, ht]
        rw [this]
        exact h0
      · rw [hr, ← herr, ← ht]
    · match ht : (testedFirst want p w.heap w.edges).yields with
      | [] =>
        have := congrArg Gen.yields hd
        simp [Gen.map, hy, ht] at this
      | f :: fs =>
        have hfe : w.edge f = dropKey e := by
          have := congrArg Gen.yields hd
          simp only [Gen.map, hy, ht, List.map_cons, List.cons.injEq] at this
          exact this.1
        have hf1 : f.1 = e.1 := congrArg (fun x => x.1) hfe
        have hf2 : f.2.1 = e.2.1 := congrArg (fun x => x.2.1) hfe
        have hlen : ((w.removeEdge f.1 f.2.1).graph.adj f.1).length ≠ (w.graph.adj f.1).length := by
          have hmem : f ∈ w.edges := testedFirst_subset want p w.heap w.edges (by rw [ht]; exact List.mem_cons_self)
          obtain ⟨g, hg, rfl⟩ := List.mem_map.1 hmem
          obtain ⟨x, hx, hs, _⟩ := edgesFrom_link hg
          apply ne_of_lt
          unfold HGraph.adj World.removeEdge
          refine length_filterMap_filter_lt _ _ _ ⟨x, hx, by simp [hs], ?_⟩
          have hs := samePair_iff.1 hs
          simp only
          by_cases hxu : x.u = g.1
          · simp [hxu]
          · rcases hs with ⟨h, _⟩ | ⟨hdir, h, _⟩
            · exact absurd h.symm hxu
            · rw [if_neg hxu, if_pos (by rw [hdir, ← h]; simp)]; rfl
        have hfirst : r.2.yields[0]? = some f := by
          have h := Co.loop_first (fun (w : World V A) e => w.removeEdge e.1 e.2.1) (sparsifierEdgesCo want factory other)
            (fun j => if j = 0 then w else w.removeEdge f.1 f.2.1) 0
          rw [run_sparsifierEdgesCo (k := 1) (p := p) (by omega) wf hm
            (by intro j hj; obtain rfl : j = 0 := by omega
                rfl) hp
            (by intro e he
                simp only [if_true, ht, Nat.sub_self, List.getElem?_cons_zero, Option.some.injEq] at he
                subst he
                exact ⟨rfl, hlen⟩)
            (by intro i hi e _ _; obtain rfl : i = 0 := by omega
                rfl)] at h
          simp only [if_true, ht, List.length_cons, Nat.le_add_left, List.take_succ_cons] at h
          exact h
        have hw1 : world 1 = w.removeEdge f.1 f.2.1 := by
          have := h3 0 f hfirst
          rw [h0] at this
          exact this
        have hr := hrun 1 (by omega) (by intro j hj; obtain rfl : j = 0 := by omega
                                         rw [h0])
          (by intro e he
              simp only [ht, Nat.sub_self, List.getElem?_cons_zero, Option.some.injEq] at he
              subst he
              unfold Interrupted
              rw [hw1]
              exact ⟨rfl, hlen⟩)
          (by intro j hj; obtain rfl : j = 0 := by omega
              rw [h0])
        rw [ht, if_pos (by simp)] at hr
        refine ⟨?_, ?_⟩
        · show ((sparsifierEdgesCo want factory other).loop _ w).1 = _
          rw [h2]
          have : ((sparsifierEdgesCo want factory other).loop (fun (w : World V A) e => w.removeEdge e.1 e.2.1) w).2.yields.length = 1 := by
            show r.2.yields.length = 1
            rw [hr]
            simp
          rw [this, hw1, hf1, hf2]
        · rw [hr]
          simp [Gen.map, hfe]

/-- What is left of the graph. -/
theorem removeEdge_deref (w : World V A) (hm : w.graph.multi = false) (u v : V) :
    (w.removeEdge u v).deref = w.deref.removeEdge u v := by
  unfold World.deref World.removeEdge HGraph.deref Graph.removeEdge
  simp only [hm, Bool.false_and, Bool.false_eq_true, if_false, Graph.mk.injEq, true_and]
  induction w.graph.links with
  | nil => rfl
  | cons l ls ih =>
    by_cases hs : samePair w.graph.directed u v l.u l.v = true
    · have hs' : samePair w.graph.directed u v (HGraph.derefLink w.heap l).u (HGraph.derefLink w.heap l).v = true := hs
      simp only [List.filter_cons, hs, Bool.not_true, Bool.false_eq_true, if_false, List.map_cons, List.filterMap_cons, hs',
        if_true]
      exact ih
    · have hs' : ¬ samePair w.graph.directed u v (HGraph.derefLink w.heap l).u (HGraph.derefLink w.heap l).v = true := hs
      have hs'' : (!samePair w.graph.directed u v l.u l.v) = true := by simpa using hs
      simp only [List.filter_cons, hs'', if_true, List.map_cons, List.filterMap_cons, hs', if_false]
      rw [ih]
      rfl

/-! ### Predicates that do not look at the attributes -/

/-- The predicates of a factory do not look at the attributes of the edge. -/
def PredFactory.Blind (factory : PredFactory V A) : Prop :=
  ∀ g p, factory g = .ok p → ∀ u v a b, p u v a = p u v b

theorem PredFactory.Blind.untouched {want : Bool} {factory : PredFactory V A} (h : factory.Blind) (world : Nat → World V A)
    (k : Nat) : Untouched want factory world k := fun p hp _ _ _ _ _ => h _ p hp _ _ _ _

section
variable {K : Type} [Field K] [LinearOrder K]

/-- C103: the multiscale backbone computes all the disparities before the first edge comes out, so that a loop may modify any
attribute. -/
theorem backbone_blind [PyOrd V] (ops : NumOps K) (alpha : K) (attr : String) :
    PredFactory.Blind (V := V) (backboneFactoryN ops alpha attr) := by
  intro g p hp u v a b
  unfold backboneFactoryN at hp
  split at hp
  · cases hp
  · cases hp; rfl

theorem decorated_blind (ulongMax : Nat) {factory : PredFactory V (Val K)} (h : factory.Blind) :
    (decorateWithUmst ulongMax factory).Blind := by
  intro g p hp u v a b
  unfold decorateWithUmst at hp
  rcases hf : factory g with x | q
  · simp [hf] at hp
  · simp only [hf] at hp
    split at hp
    · cases hp
    · cases hp
      simp only [h g q hf u v a b]

/-- The generators of the sparsifiers of the library are those of `sparsifierEdgesCo`, for the factory of the sparsifier. -/
theorem sparsifier_generators [PyOrd V] (ulongMax : Nat) (f : PredFactory V (Val K)) (keepConnected : Bool)
    (s : Sparsifier V (Val K)) (hs : Sparsifier.make ulongMax (some f) none none keepConnected = .ok s) :
    s.relevant = defaultGenerator true s.factory ∧ s.redundant = defaultGenerator false s.factory := by
  unfold Sparsifier.make at hs
  cases hs
  exact ⟨rfl, rfl⟩

end

/-! ### Concrete cases -/

/-- A star 1 - 2, 1 - 3 and the edge 2 - 3, of the given weights. -/
def demoLoopWorld (x y z : ℚ) : World Int (Val ℚ) :=
  { heap := [[], [], [], [], [(.str "weight", .num x)], [(.str "weight", .num y)], [(.str "weight", .num z)]]
    graph := { directed := false, multi := false, attrs := 0, node := [(1, 1), (2, 2), (3, 3)],
               links := [⟨1, 2, [(.int 0, 4)]⟩, ⟨1, 3, [(.int 0, 5)]⟩, ⟨2, 3, [(.int 0, 6)]⟩] } }

/-- The threshold 3. -/
def demoLoopFactory : PredFactory Int (Val ℚ) := fun _ => .ok (thresholdPredicate 3 "weight" false)

set_option synthInstance.maxSize 2000 in
example : (demoLoopWorld 1 2 5).deref.WF ∧ (demoLoopWorld 1 2 5).graph.multi = false := by
  refine ⟨?_, rfl⟩
  constructor <;> decide

/-- Removing the redundant edges one by one: the first one is removed, the second one stays. -/
example (other : Co (World Int (Val ℚ)) (Int × Int × Loc)) :
    let r := (sparsifierEdgesCo false demoLoopFactory other).loop (fun w e => w.removeEdge e.1 e.2.1) (demoLoopWorld 1 2 5)
    r.2.yields = [(1, 2, 4)] ∧ r.2.err = some .runtimeError ∧ r.1.edges = [(1, 3, 5), (2, 3, 6)] := by
  refine ⟨?_, ?_, ?_⟩ <;> rfl

/-- C103 does not hold of a predicate that looks at attributes which are modified meanwhile: a weight raised before its turn
makes the edge come out. -/
theorem sparsifier_loop_late (other : Co (World Int (Val ℚ)) (Int × Int × Loc)) :
    (run (fun k => if k = 0 then demoLoopWorld 4 2 5 else demoLoopWorld 4 7 5) 0
      (sparsifierEdgesCo true demoLoopFactory other)).yields = [(1, 2, 4), (1, 3, 5), (2, 3, 6)] ∧
    (run (fun _ => demoLoopWorld 4 2 5) 0 (sparsifierEdgesCo true demoLoopFactory other)).yields = [(1, 2, 4), (2, 3, 6)] := by
  refine ⟨?_, ?_⟩ <;> rfl

/-- The hypotheses of `sparsifier_loop_interrupted`, for a loop which removes the first edge when the second one comes out. -/
example : let world : Nat → World Int (Val ℚ) := fun k => if k < 2 then demoLoopWorld 4 7 5 else (demoLoopWorld 4 7 5).removeEdge 1 2
    (defaultGenerator true demoLoopFactory (world 0).deref).yields[2 - 1]?.map (fun e => (e.1, e.2.1)) = some (1, 3) ∧
    (world 2).graph.node = (world 0).graph.node ∧
    ((world 2).graph.adj 1).length ≠ ((world 0).graph.adj 1).length ∧ Untouched true demoLoopFactory world 2 := by
  refine ⟨by rfl, rfl, by decide, ?_⟩
  intro p _ i hi e _ _
  have : i = 0 ∨ i = 1 := by omega
  rcases this with rfl | rfl <;> rfl

end Pelote
