import Verif.Props.Sparsification
import Verif.Props.DisparityFloat
import Verif.Props.Components

/-! C96: what a call that raises leaves behind. -/
set_option linter.unusedSectionVars false
namespace Pelote
open Graph
variable {V A K : Type} [DecidableEq V] [Field K] [LinearOrder K]

/-- Asked about the items of the list one after the other, the function answers on those of `pre`, then raises `e` on `x`. -/
structure StopsAt {α : Type} (f : α → Py Bool) (l pre : List α) (x : α) (post : List α) (e : PyErr) : Prop where
  split : l = pre ++ x :: post
  answers : ∀ y ∈ pre, ∃ b, f y = .ok b
  raises : f x = .error e

theorem stopsAt_or {α : Type} (f : α → Py Bool) (l : List α) :
    (∀ y ∈ l, ∃ b, f y = .ok b) ∨ ∃ pre x post e, StopsAt f l pre x post e := by
  induction l with
  | nil => exact .inl (by simp)
  | cons a l ih =>
    cases ha : f a with
    | error e => exact .inr ⟨[], a, l, e, rfl, by simp, ha⟩
    | ok b =>
      rcases ih with h | ⟨pre, x, post, e, h⟩
      · exact .inl (by rintro y (_ | ⟨_, hy⟩); exacts [⟨b, ha⟩, h y hy])
      · refine .inr ⟨a :: pre, x, post, e, by rw [h.split]; rfl, ?_, h.raises⟩
        rintro y (_ | ⟨_, hy⟩)
        exacts [⟨b, ha⟩, h.answers y hy]

theorem edgesToDrop_raises (pred : EdgePred V A) (l : List (V × V × Attrs A)) (e : PyErr) :
    edgesToDrop pred l = .error e ↔ ∃ pre x post, StopsAt (fun y => pred y.1 y.2.1 y.2.2) l pre x post e := by
  induction l with
  | nil =>
    constructor
    · intro h; simp [edgesToDrop] at h
    · rintro ⟨pre, x, post, h⟩; simpa using h.split
  | cons a l ih =>
    obtain ⟨u, v, a⟩ := a
    cases ha : pred u v a with
    | error e' =>
      simp only [edgesToDrop, ha]
      constructor
      · intro h; cases h; exact ⟨[], (u, v, a), l, rfl, by simp, ha⟩
      · rintro ⟨pre, x, post, h1, h2, h3⟩
        cases pre with
        | nil => cases h1; simp only at h3; rw [ha] at h3; cases h3; rfl
        | cons y pre =>
          obtain ⟨b, hb⟩ := h2 y (by simp)
          cases h1
          simp only at hb
          rw [ha] at hb; cases hb
    | ok b =>
      simp only [edgesToDrop, ha]
      constructor
      · intro h
        cases hl : edgesToDrop pred l with
        | ok es => rw [hl] at h; cases h
        | error e' =>
          rw [hl] at h; cases h
          obtain ⟨pre, x, post, h1, h2, h3⟩ := ih.1 hl
          refine ⟨(u, v, a) :: pre, x, post, by rw [h1]; rfl, ?_, h3⟩
          rintro y (_ | ⟨_, hy⟩)
          exacts [⟨b, ha⟩, h2 y hy]
      · rintro ⟨pre, x, post, h1, h2, h3⟩
        cases pre with
        | nil => cases h1; simp only at h3; rw [ha] at h3; cases h3
        | cons y pre =>
          cases h1
          rw [ih.2 ⟨pre, x, post, rfl, fun y hy => h2 y (by simp [hy]), h3⟩]

theorem nodesToDrop_raises (pred : NodePred V A) (l : Dict V (Attrs A)) (e : PyErr) :
    nodesToDrop pred l = .error e ↔ ∃ pre x post, StopsAt (fun y => pred y.1 y.2) l pre x post e := by
  induction l with
  | nil =>
    constructor
    · intro h; simp [nodesToDrop] at h
    · rintro ⟨pre, x, post, h⟩; simpa using h.split
  | cons a l ih =>
    obtain ⟨u, a⟩ := a
    cases ha : pred u a with
    | error e' =>
      simp only [nodesToDrop, ha]
      constructor
      · intro h; cases h; exact ⟨[], (u, a), l, rfl, by simp, ha⟩
      · rintro ⟨pre, x, post, h1, h2, h3⟩
        cases pre with
        | nil => cases h1; simp only at h3; rw [ha] at h3; cases h3; rfl
        | cons y pre =>
          obtain ⟨b, hb⟩ := h2 y (by simp)
          cases h1
          simp only at hb
          rw [ha] at hb; cases hb
    | ok b =>
      simp only [nodesToDrop, ha]
      constructor
      · intro h
        cases hl : nodesToDrop pred l with
        | ok es => rw [hl] at h; cases h
        | error e' =>
          rw [hl] at h; cases h
          obtain ⟨pre, x, post, h1, h2, h3⟩ := ih.1 hl
          refine ⟨(u, a) :: pre, x, post, by rw [h1]; rfl, ?_, h3⟩
          rintro y (_ | ⟨_, hy⟩)
          exacts [⟨b, ha⟩, h2 y hy]
      · rintro ⟨pre, x, post, h1, h2, h3⟩
        cases pre with
        | nil => cases h1; simp only at h3; rw [ha] at h3; cases h3
        | cons y pre =>
          cases h1
          rw [ih.2 ⟨pre, x, post, rfl, fun y hy => h2 y (by simp [hy]), h3⟩]

/-- C96.  `remove_edges` raises exactly what the predicate raises first, in the order of the edges, and then has removed
nothing. -/
theorem removeEdges_first_error (g : Graph V A) (pred : EdgePred V A) (e : PyErr) :
    (removeEdges g pred).2 = .error e ↔
      removeEdges g pred = (g, .error e) ∧
        ∃ pre x post, StopsAt (fun y => pred y.1 y.2.1 y.2.2) g.edgesData pre x post e := by
  rw [← edgesToDrop_raises]
  unfold removeEdges
  cases edgesToDrop pred g.edgesData with
  | error e' => simp
  | ok es => simp

/-- C96.  `remove_nodes` raises exactly what the predicate raises first, in the order of the nodes, and then has removed
nothing. -/
theorem removeNodes_first_error (g : Graph V A) (pred : NodePred V A) (e : PyErr) :
    (removeNodes g pred).2 = .error e ↔
      removeNodes g pred = (g, .error e) ∧
        ∃ pre x post, StopsAt (fun y => pred y.1 y.2) g.node pre x post e := by
  rw [← nodesToDrop_raises]
  unfold removeNodes
  cases nodesToDrop pred g.node with
  | error e' => simp
  | ok es => simp

/-- C96.  `remove_leaves` does not raise. -/
theorem removeLeaves_no_error (g : Graph V A) (e : PyErr) : (removeLeaves g).2 ≠ .error e := by
  intro h
  obtain ⟨-, pre, x, post, h⟩ := (removeNodes_first_error g _ e).1 h
  cases h.raises

/-- C96.  `Sparsifier.remove`, for any sparsifier: when it raises, nothing was removed. -/
theorem sparsifier_remove_atomic (s : Sparsifier V A) (g : Graph V A) {e : PyErr} (h : (s.remove g).2 = .error e) :
    (s.remove g).1 = g := by
  unfold Sparsifier.remove at h ⊢
  cases hr : (s.redundant g).err with
  | some e' => rfl
  | none =>
    rw [hr] at h
    simp only at h ⊢
    by_cases hm : g.multi
    · simp [hm]
    · simp [hm] at h

/-! ### Flagging -/

/-- The predicate, asked about the edges one after the other, answers as `q` on those of `pre`, then raises. -/
structure EdgeStops (g : Graph V A) (pred : EdgePred V A) (q : V → V → Attrs A → Bool) (pre : List (KeyedEdge V A))
    (x : KeyedEdge V A) (post : List (KeyedEdge V A)) (e : PyErr) : Prop where
  split : g.edgesKeys = pre ++ x :: post
  answers : ∀ y ∈ pre, pred y.1 y.2.1 y.2.2.2 = .ok (q y.1 y.2.1 y.2.2.2)
  raises : pred x.1 x.2.1 x.2.2.2 = .error e

theorem yieldWhen_stops (want : Bool) {pred : EdgePred V A} {q : V → V → Attrs A → Bool} {pre : List (KeyedEdge V A)}
    {x : KeyedEdge V A} (post : List (KeyedEdge V A)) {e : PyErr}
    (ha : ∀ y ∈ pre, pred y.1 y.2.1 y.2.2.2 = .ok (q y.1 y.2.1 y.2.2.2)) (hx : pred x.1 x.2.1 x.2.2.2 = .error e) :
    yieldWhen want pred (pre ++ x :: post) = ⟨pre.filter (fun y => q y.1 y.2.1 y.2.2.2 == want), some e⟩ := by
  induction pre with
  | nil =>
    obtain ⟨u, v, k, a⟩ := x
    simp only [List.nil_append, yieldWhen, hx, List.filter_nil]
  | cons y pre ih =>
    obtain ⟨u, v, k, a⟩ := y
    have h1 := ha (u, v, k, a) (by simp)
    simp only at h1
    simp only [List.cons_append, yieldWhen, h1, ih (fun y hy => ha y (by simp [hy])), List.filter_cons]
    by_cases h : q u v a = want <;> simp [h]

theorem flagFullLoop_stops (attr : String) (negate : Bool) {pred : EdgePred V (Val K)} {q : V → V → Attrs (Val K) → Bool}
    {pre : List (KeyedEdge V (Val K))} {x : KeyedEdge V (Val K)} (post : List (KeyedEdge V (Val K))) {e : PyErr}
    (ha : ∀ y ∈ pre, pred y.1 y.2.1 y.2.2.2 = .ok (q y.1 y.2.1 y.2.2.2)) (hx : pred x.1 x.2.1 x.2.2.2 = .error e)
    (g : Graph V (Val K)) :
    Sparsifier.flagFullLoop attr negate pred (pre ++ x :: post) g =
      (setAll attr (pre.map (fun e => (e, .bool (q e.1 e.2.1 e.2.2.2 != negate)))) g, .error e) := by
  induction pre generalizing g with
  | nil =>
    obtain ⟨u, v, k, a⟩ := x
    simp only [List.nil_append, Sparsifier.flagFullLoop, hx]
    rfl
  | cons y pre ih =>
    obtain ⟨u, v, k, a⟩ := y
    have h1 := ha (u, v, k, a) (by simp)
    simp only at h1
    simp only [List.cons_append, Sparsifier.flagFullLoop, h1, ih (fun y hy => ha y (by simp [hy]))]
    rfl

/-- Setting the attribute of some of the first edges of the graph. -/
theorem setAll_prefix {g : Graph V A} (h : g.WF) (attr : String) {pre post : List (KeyedEdge V A)}
    (hs : g.edgesKeys = pre ++ post) (p : KeyedEdge V A → Bool) (value : KeyedEdge V A → A) :
    (setAll attr ((pre.filter p).map (fun e => (e, value e))) g).edgesKeys =
      pre.map (fun e => if p e then (e.1, e.2.1, e.2.2.1, e.2.2.2.set (.str attr) (value e)) else e) ++ post := by
  classical
  have hd := edgesKeys_distinct h
  rw [hs, List.pairwise_append] at hd
  have hdis : ∀ y ∈ post, y ∉ pre := by
    intro y hy hy'
    have := (hd.2.2 y hy' y hy).1
    unfold sameEdge at this
    simp [samePair] at this
  have hf : pre.filter p = g.edgesKeys.filter (fun e => decide (e ∈ pre) && p e) := by
    rw [hs, List.filter_append]
    have h2 : post.filter (fun e => decide (e ∈ pre) && p e) = [] := by
      rw [List.filter_eq_nil_iff]
      intro y hy
      simp [hdis y hy]
    rw [h2, List.append_nil]
    apply List.filter_congr
    intro y hy
    simp [hy]
  rw [hf, setAll_listed h attr _ value, hs, List.map_append]
  congr 1
  · apply List.map_congr_left
    intro y hy
    simp [hy]
  · conv_rhs => rw [← List.map_id post]
    apply List.map_congr_left
    intro y hy
    simp [hdis y hy]

/-- What flagging leaves of the edges: those of `pre` are flagged, those that come later are as they were. -/
def flaggedUpTo (attr : String) (full : Bool) (want : Bool) (q : V → V → Attrs (Val K) → Bool)
    (pre post : List (KeyedEdge V (Val K))) : List (KeyedEdge V (Val K)) :=
  pre.map (fun e =>
    if q e.1 e.2.1 e.2.2.2 == want then flagged attr true e else if full then flagged attr false e else e) ++ post

theorem flag_loops_stop {g : Graph V (Val K)} (h : g.WF) {pred : EdgePred V (Val K)} {q : V → V → Attrs (Val K) → Bool}
    {pre : List (KeyedEdge V (Val K))} {x : KeyedEdge V (Val K)} {post : List (KeyedEdge V (Val K))} {e : PyErr}
    (hx : EdgeStops g pred q pre x post e) (attr : String) (want : Bool) :
    (∃ g', Sparsifier.flagLoop attr (yieldWhen want pred g.edgesKeys).yields (yieldWhen want pred g.edgesKeys).err g =
        (g', .error e) ∧ g'.WF ∧ g'.directed = g.directed ∧ g'.multi = g.multi ∧ g'.attrs = g.attrs ∧ g'.node = g.node ∧
      g'.edgesKeys = flaggedUpTo attr false want q pre (x :: post)) ∧
    (∃ g', Sparsifier.flagFullLoop attr (!want) pred g.edgesKeys g = (g', .error e) ∧
      g'.WF ∧ g'.directed = g.directed ∧ g'.multi = g.multi ∧ g'.attrs = g.attrs ∧ g'.node = g.node ∧
      g'.edgesKeys = flaggedUpTo attr true want q pre (x :: post)) := by
  constructor
  · rw [hx.split, yieldWhen_stops want post hx.answers hx.raises, flagLoop_eq]
    refine ⟨_, rfl, setAll_wf _ _ h, (setAll_frame _ _ _).1, (setAll_frame _ _ _).2.1,
      (setAll_frame _ _ _).2.2.1, (setAll_frame _ _ _).2.2.2, ?_⟩
    exact setAll_prefix h attr hx.split _ (fun _ => .bool true)
  · have := flagFullLoop_stops attr (!want) post hx.answers hx.raises g
    rw [← hx.split] at this
    refine ⟨_, this, setAll_wf _ _ h, (setAll_frame _ _ _).1, (setAll_frame _ _ _).2.1,
      (setAll_frame _ _ _).2.2.1, (setAll_frame _ _ _).2.2.2, ?_⟩
    have := setAll_prefix h attr hx.split (fun _ => true) (fun e => Val.bool (q e.1 e.2.1 e.2.2.2 != !want))
    rw [List.filter_eq_self.2 (fun _ _ => rfl)] at this
    rw [this]
    unfold flaggedUpTo
    congr 1
    apply List.map_congr_left
    intro e _
    cases hb : q e.1 e.2.1 e.2.2.2 <;> cases want <;> simp [flagged]

/-- C96.  Flagging is not all or nothing in general.  When the predicate raises on an edge, so do
`flag_relevant_edges` and `flag_redundant_edges`: the edges listed before it are flagged, the others are as they were. -/
theorem flag_raises [PyOrd V] {ulongMax : Nat} {factory : PredFactory V (Val K)} {keepConnected : Bool}
    {s : Sparsifier V (Val K)} (hs : Sparsifier.make ulongMax (some factory) none none keepConnected = .ok s)
    {g : Graph V (Val K)} (h : g.WF) {pred : EdgePred V (Val K)} (hp : s.factory g = .ok pred)
    {q : V → V → Attrs (Val K) → Bool} {pre : List (KeyedEdge V (Val K))} {x : KeyedEdge V (Val K)}
    {post : List (KeyedEdge V (Val K))} {e : PyErr} (hx : EdgeStops g pred q pre x post e) (attr : String) (full : Bool) :
    (∃ g', s.flagRelevant g attr full = (g', .error e) ∧ g'.WF ∧ g'.directed = g.directed ∧ g'.multi = g.multi ∧
      g'.attrs = g.attrs ∧ g'.node = g.node ∧ g'.edgesKeys = flaggedUpTo attr full true q pre (x :: post)) ∧
    (∃ g', s.flagRedundant g attr full = (g', .error e) ∧ g'.WF ∧ g'.directed = g.directed ∧ g'.multi = g.multi ∧
      g'.attrs = g.attrs ∧ g'.node = g.node ∧ g'.edgesKeys = flaggedUpTo attr full false q pre (x :: post)) := by
  obtain ⟨hr, hd, -⟩ := make_factory hs
  have h1 := flag_loops_stop h hx attr true
  have h2 := flag_loops_stop h hx attr false
  unfold Sparsifier.flagRelevant Sparsifier.flagRedundant
  rw [hr, hd]
  unfold defaultGenerator
  rw [hp]
  cases full with
  | false => exact ⟨h1.1, h2.1⟩
  | true => exact ⟨h1.2, h2.2⟩

/-- C96.  When the factory raises, nothing was flagged. -/
theorem flag_factory_raises [PyOrd V] {ulongMax : Nat} {factory : PredFactory V (Val K)} {keepConnected : Bool}
    {s : Sparsifier V (Val K)} (hs : Sparsifier.make ulongMax (some factory) none none keepConnected = .ok s)
    {g : Graph V (Val K)} {e : PyErr} (hp : s.factory g = .error e) (attr : String) (full : Bool) :
    s.flagRelevant g attr full = (g, .error e) ∧ s.flagRedundant g attr full = (g, .error e) := by
  obtain ⟨hr, hd, -⟩ := make_factory hs
  unfold Sparsifier.flagRelevant Sparsifier.flagRedundant
  rw [hr, hd]
  unfold defaultGenerator
  rw [hp]
  cases full <;> exact ⟨rfl, rfl⟩

/-! ### The backbone -/

section
variable {W : Type} [LinearOrder W] [PyOrd W]

theorem disparityEdges_keys {N : Type} [Zero N] [One N] (ops : NumOps N) (ho : OrderedKeys W) (g : Graph W (Val N)) (attr : String)
    (reverse : Bool) (wd : Dict W N) (source : W) (sw : N) (es : List (W × W × PyKey × Attrs (Val N)))
    (d d' : Dict (W × W) N) (h : disparityEdges ops g attr reverse wd source sw es d = .ok d') :
    (∀ p ∈ d.keys, p ∈ d'.keys) ∧ ∀ e ∈ es, source ≤ e.2.1 → (source, e.2.1) ∈ d'.keys := by
  induction es generalizing d with
  | nil => cases h; exact ⟨fun _ h => h, by simp⟩
  | cons x es ih =>
    obtain ⟨u, target, k, a⟩ := x
    simp only [disparityEdges, ho source target] at h
    by_cases hlt : target < source
    · simp only [decide_eq_true hlt] at h
      obtain ⟨h1, h2⟩ := ih _ h
      refine ⟨h1, ?_⟩
      rintro e (_ | ⟨_, he⟩) hle
      · exact absurd hlt (not_lt.2 hle)
      · exact h2 e he hle
    · simp only [decide_eq_false hlt] at h
      split at h
      · cases h
      · split at h
        · cases h
        · obtain ⟨h1, h2⟩ := ih _ h
          refine ⟨fun p hp => h1 p (Dict.mem_keys_set.2 (.inl hp)), ?_⟩
          rintro e (_ | ⟨_, he⟩) hle
          · exact h1 _ (Dict.mem_keys_set.2 (.inr rfl))
          · exact h2 e he hle

theorem disparityNodes_keys {N : Type} [Zero N] [One N] (ops : NumOps N) (ho : OrderedKeys W) (g : Graph W (Val N)) (attr : String)
    (reverse : Bool) (wd : Dict W N) (ns : List W)
    (d d' : Dict (W × W) N) (h : disparityNodes ops g attr reverse wd ns d = .ok d') :
    (∀ p ∈ d.keys, p ∈ d'.keys) ∧ ∀ n ∈ ns, ∀ e ∈ g.edgesOf n, n ≤ e.2.1 → (n, e.2.1) ∈ d'.keys := by
  induction ns generalizing d with
  | nil => cases h; exact ⟨fun _ h => h, by simp⟩
  | cons n ns ih =>
    simp only [disparityNodes] at h
    split at h
    · cases h
    · split at h
      · cases h
      · rename_i hd1
        obtain ⟨a1, a2⟩ := disparityEdges_keys ops ho g attr reverse wd n _ _ _ _ hd1
        obtain ⟨h1, h2⟩ := ih _ h
        refine ⟨fun p hp => h1 p (a1 p hp), ?_⟩
        rintro m (_ | ⟨_, hm⟩) e he hle
        · exact h1 _ (a2 e he hle)
        · exact h2 m hm e he hle

/-- Once the scores are computed, the predicate of the backbone answers on every edge. -/
theorem backbone_answers {ops : NumOps K} (ho : OrderedKeys W) {g : Graph W (Val K)} (h : g.WF) {alpha : K} {attr : String}
    {pred : EdgePred W (Val K)} (hp : backboneFactoryN ops alpha attr g = .ok pred) :
    ∃ q, EdgeAnswers g pred q := by
  classical
  unfold backboneFactoryN at hp
  cases hd : edgeDisparityN ops g attr false with
  | error e => rw [hd] at hp; cases hp
  | ok d =>
    rw [hd] at hp
    cases hp
    unfold edgeDisparityN at hd
    split at hd
    · cases hd
    · rename_i hdir
      have hdir : g.directed = false := by cases hh : g.directed <;> simp [hh] at hdir ⊢
      split at hd
      · cases hd
      · obtain ⟨-, hk⟩ := disparityNodes_keys ops ho g attr false _ _ _ _ hd
        have key : ∀ u v, g.hasEdge u v = true → u ≤ v → ∃ x, d.get? (u, v) = some x := by
          intro u v he hle
          obtain ⟨l, hl, hs⟩ := hasEdge_iff.1 he
          obtain ⟨ka, hka⟩ : ∃ ka, ka ∈ l.data := List.exists_mem_of_ne_nil _ (h.nonempty l hl)
          have hm : (u, v, ka.1, ka.2) ∈ g.edgesOf u := (mem_edgesOf h).2 ⟨rfl, l, hl, hs, hka⟩
          exact Dict.exists_get?_of_mem_keys (hk u (edgesOf_nodes h hm).1 _ hm hle)
        refine ⟨fun u v a => match disparityPredicate d alpha u v a with | .ok b => b | .error _ => false, ?_⟩
        rintro ⟨u, v, a⟩ he
        have hedge : g.hasEdge u v = true :=
          (hasEdge_listed h).2 (.inl (by rw [edges_eq_map]; exact List.mem_map.2 ⟨_, he, rfl⟩))
        simp only [disparityPredicate, Dict.getItem, ho u v]
        by_cases hlt : v < u
        · obtain ⟨x, hx⟩ := key v u (by rw [Graph.hasEdge_comm hdir]; exact hedge) hlt.le
          simp only [decide_eq_true hlt, if_true, hx]
        · obtain ⟨x, hx⟩ := key u v hedge (not_lt.1 hlt)
          simp only [decide_eq_false hlt, Bool.false_eq_true, if_false, hx]

/-- C96.  Flagging the backbone is all or nothing, whatever the operations on numbers and the weights, with or without
`keep_connected`: when it raises, nothing was flagged. -/
theorem backbone_flag_atomic {ops : NumOps K} (ulongMax : Nat) (ho : OrderedKeys W) {g : Graph W (Val K)} (h : g.WF)
    {alpha : K} {attr : String} {keepConnected : Bool} {s : Sparsifier W (Val K)}
    (hs : Sparsifier.make ulongMax (some (backboneFactoryN ops alpha attr)) none none keepConnected = .ok s)
    (flag : String) (full : Bool) :
    (∀ e, (s.flagRelevant g flag full).2 = .error e → (s.flagRelevant g flag full).1 = g) ∧
    (∀ e, (s.flagRedundant g flag full).2 = .error e → (s.flagRedundant g flag full).1 = g) := by
  cases hf : s.factory g with
  | error e =>
    obtain ⟨h1, h2⟩ := flag_factory_raises hs hf flag full
    rw [h1, h2]
    exact ⟨fun _ _ => rfl, fun _ _ => rfl⟩
  | ok pred =>
    have hA : ∃ q, FactoryAnswers (backboneFactoryN ops alpha attr) g q ∧
        (keepConnected = true → (unionOfMaximumSpanningTrees ulongMax g "weight").err = none) := by
      rw [(make_factory hs).2.2] at hf
      cases keepConnected with
      | false =>
        obtain ⟨q, hq⟩ := backbone_answers ho h hf
        exact ⟨q, ⟨pred, hf, hq⟩, by simp⟩
      | true =>
        simp only [if_true, decorateWithUmst] at hf
        cases hb : backboneFactoryN ops alpha attr g with
        | error e => rw [hb] at hf; cases hf
        | ok pred' =>
          obtain ⟨q, hq⟩ := backbone_answers ho h hb
          refine ⟨q, ⟨pred', hb, hq⟩, fun _ => ?_⟩
          cases hu : (unionOfMaximumSpanningTrees ulongMax g "weight").err with
          | none => rfl
          | some e => rw [hb] at hf; simp only [hu] at hf; cases hf
    obtain ⟨q, hq, hu⟩ := hA
    obtain ⟨g₁, a1, -⟩ := flagRelevant_exact hs h hq hu flag full
    obtain ⟨g₂, b1, -⟩ := flagRedundant_exact hs h hq hu flag full
    rw [a1, b1]
    constructor <;> intro e he <;> cases he
end

/-! ### Flagging again -/

/-- The two edges only differ by the attribute: same ends, same key, same other attributes. -/
def EqBut (attr : String) (e e' : KeyedEdge V A) : Prop :=
  e.1 = e'.1 ∧ e.2.1 = e'.2.1 ∧ e.2.2.1 = e'.2.2.1 ∧ ∀ k, k ≠ .str attr → e.2.2.2.get? k = e'.2.2.2.get? k

/-- The two edges are the same, up to the order of their attributes. -/
def EqAttrs (e e' : KeyedEdge V A) : Prop :=
  e.1 = e'.1 ∧ e.2.1 = e'.2.1 ∧ e.2.2.1 = e'.2.2.1 ∧ ∀ k, e.2.2.2.get? k = e'.2.2.2.get? k

theorem flagged_again {attr : String} {b : Bool} {e e' : KeyedEdge V (Val K)} (h : EqBut attr e e') :
    EqAttrs (flagged attr b e) (flagged attr b e') := by
  obtain ⟨h1, h2, h3, h4⟩ := h
  refine ⟨h1, h2, h3, fun k => ?_⟩
  unfold flagged
  simp only [Dict.get?_set]
  split
  · rfl
  · rename_i hk
    exact h4 k (fun h => hk h.symm)

/-- C96.  With `full`, the flags do not depend on earlier flags, such as those left by a call that raised: two graphs whose
edges only differ by the attribute get the same edges.  The verdicts must not look at the attribute. -/
theorem flag_full_again {s : Sparsifier V (Val K)} {g₁ g₂ : Graph V (Val K)} (h₁ : g₁.WF) (h₂ : g₂.WF) {attr : String}
    {q : V → V → Attrs (Val K) → Bool} (hq₁ : FactoryAnswers s.factory g₁ q) (hq₂ : FactoryAnswers s.factory g₂ q)
    (hq : ∀ e e' : KeyedEdge V (Val K), EqBut attr e e' → q e.1 e.2.1 e.2.2.2 = q e'.1 e'.2.1 e'.2.2.2)
    (he : List.Forall₂ (EqBut attr) g₁.edgesKeys g₂.edgesKeys) :
    (∃ g₁' g₂', s.flagRelevant g₁ attr true = (g₁', .ok ()) ∧ s.flagRelevant g₂ attr true = (g₂', .ok ()) ∧
      List.Forall₂ EqAttrs g₁'.edgesKeys g₂'.edgesKeys) ∧
    (∃ g₁' g₂', s.flagRedundant g₁ attr true = (g₁', .ok ()) ∧ s.flagRedundant g₂ attr true = (g₂', .ok ()) ∧
      List.Forall₂ EqAttrs g₁'.edgesKeys g₂'.edgesKeys) := by
  obtain ⟨pred₁, p1, a1⟩ := hq₁
  obtain ⟨pred₂, p2, a2⟩ := hq₂
  have key : ∀ want : Bool, ∃ g₁' g₂', Sparsifier.flagFullLoop attr (!want) pred₁ g₁.edgesKeys g₁ = (g₁', .ok ()) ∧
      Sparsifier.flagFullLoop attr (!want) pred₂ g₂.edgesKeys g₂ = (g₂', .ok ()) ∧
      List.Forall₂ EqAttrs g₁'.edgesKeys g₂'.edgesKeys := by
    intro want
    obtain ⟨-, ⟨g₁', b1, -, -, -, -, -, b2⟩⟩ := flag_loops h₁ a1 attr want
    obtain ⟨-, ⟨g₂', c1, -, -, -, -, -, c2⟩⟩ := flag_loops h₂ a2 attr want
    refine ⟨g₁', g₂', b1, c1, ?_⟩
    rw [b2, c2, List.forall₂_map_left_iff, List.forall₂_map_right_iff]
    refine he.imp ?_
    intro e e' hee
    rw [hq e e' hee]
    exact flagged_again hee
  unfold Sparsifier.flagRelevant Sparsifier.flagRedundant
  simp only [if_true, p1, p2]
  exact ⟨key true, key false⟩

/-- C96.  The same for a global threshold, when the flag is not the weight. -/
theorem globalThreshold_flag_again [PyOrd V] (ulongMax : Nat) {g₁ g₂ : Graph V (Val K)} (h₁ : g₁.WF) (h₂ : g₂.WF) (t : K)
    {weight attr : String} (hne : weight ≠ attr) (reverse : Bool) {s : Sparsifier V (Val K)}
    (hs : globalThresholdSparsifier ulongMax t weight reverse false = .ok s)
    (hw : ∀ e ∈ g₁.edgesData, ∃ w, HasNumber weight e.2.2 w)
    (he : List.Forall₂ (EqBut attr) g₁.edgesKeys g₂.edgesKeys) :
    (∃ g₁' g₂', s.flagRelevant g₁ attr true = (g₁', .ok ()) ∧ s.flagRelevant g₂ attr true = (g₂', .ok ()) ∧
      List.Forall₂ EqAttrs g₁'.edgesKeys g₂'.edgesKeys) ∧
    (∃ g₁' g₂', s.flagRedundant g₁ attr true = (g₁', .ok ()) ∧ s.flagRedundant g₂ attr true = (g₂', .ok ()) ∧
      List.Forall₂ EqAttrs g₁'.edgesKeys g₂'.edgesKeys) := by
  classical
  have hk : PyKey.str weight ≠ .str attr := by simpa using hne
  have hw₂ : ∀ e ∈ g₂.edgesData, ∃ w, HasNumber weight e.2.2 w := by
    intro e hmem
    obtain ⟨x, hx, rfl⟩ := List.mem_map.1 hmem
    obtain ⟨y, hy, hyx⟩ : ∃ y ∈ g₁.edgesKeys, EqBut attr y x := by
      obtain ⟨i, hi, rfl⟩ := List.getElem_of_mem hx
      have hl : g₁.edgesKeys.length = g₂.edgesKeys.length := he.length_eq
      exact ⟨g₁.edgesKeys[i], List.getElem_mem (by omega), (List.forall₂_iff_get.1 he).2 i (by omega) hi⟩
    obtain ⟨w, hw'⟩ := hw _ (List.mem_map.2 ⟨y, hy, rfl⟩)
    refine ⟨w, ?_⟩
    unfold HasNumber at hw' ⊢
    rw [← hyx.2.2.2 _ hk]
    exact hw'
  have hf : s.factory = fun _ => .ok (thresholdPredicate t weight reverse) := by
    unfold globalThresholdSparsifier at hs
    exact (make_factory hs).2.2
  have hA₁ := threshold_answers t reverse hw
  have hA₂ := threshold_answers t reverse hw₂
  rw [← hf] at hA₁ hA₂
  refine flag_full_again h₁ h₂ hA₁ hA₂ ?_ he
  intro e e' hee
  have : Reaches t weight reverse e.2.2.2 ↔ Reaches t weight reverse e'.2.2.2 := by
    simp only [Reaches, HasNumber, hee.2.2.2 _ hk]
  exact decide_eq_decide.2 this

/-! ### Samples -/

/-- Two edges, the second without a weight. -/
def gapGraph : Graph Int (Val ℚ) :=
  ⟨false, false, [], [(0, []), (1, []), (2, [])],
    [⟨0, 1, [(.int 0, [(.str "weight", .num 2)])]⟩, ⟨1, 2, [(.int 0, [])]⟩]⟩

/-- What is left of the edges by `flag_relevant_edges` with a global threshold, and whether it raised. -/
def flagThreshold (g : Graph Int (Val ℚ)) (t : ℚ) (full : Bool) : List (KeyedEdge Int (Val ℚ)) × Bool :=
  match globalThresholdSparsifier (2^64 - 1) t "weight" false false with
  | .error _ => ([], true)
  | .ok s => ((s.flagRelevant g "relevant" full).1.edgesKeys,
      match (s.flagRelevant g "relevant" full).2 with | .error _ => true | .ok _ => false)

set_option synthInstance.maxSize 2000 in
/-- C96 is false of flagging with a global threshold: the second edge has no weight, so that the call raises, and the first edge
has been flagged. -/
theorem flag_not_atomic : gapGraph.WF ∧ flagThreshold gapGraph 1 false =
    ([(0, 1, .int 0, [(.str "weight", .num 2), (.str "relevant", .bool true)]), (1, 2, .int 0, [])], true) := by
  refine ⟨by constructor <;> decide, by decide +kernel⟩

/-- The edge was flagged with another threshold. -/
def staleGraph : Graph Int (Val ℚ) :=
  ⟨false, false, [], [(0, []), (1, [])],
    [⟨0, 1, [(.int 0, [(.str "relevant", .bool true), (.str "weight", .num 2)])]⟩]⟩

set_option synthInstance.maxSize 2000 in
/-- `flag_full_again` needs `full`: without it, the flag of an edge below the new threshold stays; with it, it is reset. -/
theorem flag_stale : staleGraph.WF ∧
    flagThreshold staleGraph 3 false =
      ([(0, 1, .int 0, [(.str "relevant", .bool true), (.str "weight", .num 2)])], false) ∧
    flagThreshold staleGraph 3 true =
      ([(0, 1, .int 0, [(.str "relevant", .bool false), (.str "weight", .num 2)])], false) := by
  refine ⟨by constructor <;> decide, by decide +kernel, by decide +kernel⟩

/-- The hypotheses of `flag_raises` are met by this graph. -/
theorem flag_raises_sample : ∃ s : Sparsifier Int (Val ℚ),
    globalThresholdSparsifier (2^64 - 1) 1 "weight" false false = .ok s ∧
    ∃ pred, s.factory gapGraph = .ok pred ∧
      EdgeStops gapGraph pred (fun _ _ _ => true) [(0, 1, .int 0, [(.str "weight", .num 2)])] (1, 2, .int 0, []) []
        .keyError := by
  refine ⟨_, rfl, _, rfl, ?_, ?_, ?_⟩
  · rfl
  · intro y hy
    simp only [List.mem_singleton] at hy
    subst hy
    simp [thresholdPredicate, Dict.getItem, Dict.get?, Val.toNum]
  · rfl

end Pelote
