import Verif.Props.Rename
import Verif.Props.DisparityFloat
import Verif.Props.Triangles
import Verif.Lemmas.MapNodes

/-! Property C78, continued: sparsifiers, triangles, triangular strength, edge disparity. -/
namespace Pelote
variable {V W A : Type}

section
variable [DecidableEq V] [DecidableEq W] {f : V → W} (hf : Function.Injective f)
include hf

/-! ### Sparsifiers -/

/-- Two factories, one for the original graphs and one for the renamed ones, say the same thing. -/
def PredFactory.Agree (f : V → W) (fac : PredFactory V A) (fac' : PredFactory W A) : Prop :=
  ∀ g : Graph V A, fac g = (fac' (g.mapNodes f)).map (EdgePred.on f)

/-- Two generators, one for the original graphs and one for the renamed ones, yield the same edges. -/
def EdgeGen.Agree (f : V → W) (gen : EdgeGen V A) (gen' : EdgeGen W A) : Prop :=
  ∀ g : Graph V A, gen' (g.mapNodes f) = (gen g).map (mapEnds f)

/-- Two sparsifiers, one for the original graphs and one for the renamed ones, do the same thing. -/
structure Sparsifier.Agree (f : V → W) (s : Sparsifier V A) (s' : Sparsifier W A) : Prop where
  factory : PredFactory.Agree f s.factory s'.factory
  relevant : EdgeGen.Agree f s.relevant s'.relevant
  redundant : EdgeGen.Agree f s.redundant s'.redundant

omit hf [DecidableEq V] [DecidableEq W] in
theorem yieldWhen_rename (want : Bool) (p : EdgePred W A) (l : List (KeyedEdge V A)) :
    yieldWhen want p (l.map (mapEnds f)) = (yieldWhen want (p.on f) l).map (mapEnds f) := by
  induction l with
  | nil => rfl
  | cons e l ih =>
    obtain ⟨u, v, k, a⟩ := e
    simp only [List.map_cons, mapEnds, yieldWhen, EdgePred.on_apply]
    cases p (f u) (f v) a with
    | error e => rfl
    | ok b =>
      simp only [ih, Gen.map]
      by_cases h : b = want <;> simp [h, mapEnds]

theorem defaultGenerator_rename (want : Bool) {fac : PredFactory V A} {fac' : PredFactory W A}
    (h : PredFactory.Agree f fac fac') : EdgeGen.Agree f (defaultGenerator want fac) (defaultGenerator want fac') := by
  intro g
  unfold defaultGenerator
  rw [h g]
  cases fac' (g.mapNodes f) with
  | error e => rfl
  | ok p => simp only [Except.map, Graph.edgesKeys_rename hf, yieldWhen_rename]

section numbers
variable {K : Type} [Field K] [LinearOrder K]

theorem decorateWithUmst_rename (ulongMax : Nat) {fac : PredFactory V (Val K)} {fac' : PredFactory W (Val K)}
    (h : PredFactory.Agree f fac fac') :
    PredFactory.Agree f (decorateWithUmst ulongMax fac) (decorateWithUmst ulongMax fac') := by
  intro g
  unfold decorateWithUmst
  rw [h g, unionOfMaximumSpanningTrees_rename hf]
  cases fac' (g.mapNodes f) with
  | error e => rfl
  | ok p =>
    simp only [Except.map, Gen.map]
    cases (unionOfMaximumSpanningTrees ulongMax g "weight").err with
    | some e => rfl
    | none =>
      simp only [Except.ok.injEq]
      funext u v a
      simp only [EdgePred.on_apply, List.map_map]
      cases p (f u) (f v) a with
      | error e => rfl
      | ok b =>
        cases b with
        | true => rfl
        | false =>
          simp only [Except.ok.injEq, decide_eq_decide]
          have := mem_map_inj (f := Prod.map f f) (hf.prodMap hf)
            (l := (unionOfMaximumSpanningTrees ulongMax g "weight").yields.map (fun e => (e.1, e.2.1))) (x := (u, v))
          rw [← this, List.map_map]; rfl

/-- C78.  Every sparsifier made out of a predicate. -/
theorem sparsifierMake_rename [PyOrd V] [PyOrd W] (ulongMax : Nat) {fac : PredFactory V (Val K)}
    {fac' : PredFactory W (Val K)} (h : PredFactory.Agree f fac fac') (keepConnected : Bool) :
    ∃ s s', Sparsifier.make ulongMax (some fac) none none keepConnected = .ok s ∧
      Sparsifier.make ulongMax (some fac') none none keepConnected = .ok s' ∧ Sparsifier.Agree f s s' := by
  refine ⟨_, _, rfl, rfl, ?_⟩
  have : PredFactory.Agree f (if keepConnected = true then decorateWithUmst ulongMax fac else fac)
      (if keepConnected = true then decorateWithUmst ulongMax fac' else fac') := by
    split
    · exact decorateWithUmst_rename hf ulongMax h
    · exact h
  exact ⟨this, defaultGenerator_rename hf true this, defaultGenerator_rename hf false this⟩

end numbers

theorem filterLoop_rename [AttrVal A] (l : List (KeyedEdge V A)) (err : Option PyErr) (c : Graph V A) :
    Sparsifier.filterLoop (l.map (mapEnds f)) err (c.mapNodes f) =
      (Sparsifier.filterLoop l err c).map (Graph.mapNodes f) := by
  induction l generalizing c with
  | nil => cases err <;> rfl
  | cons e l ih =>
    obtain ⟨u, v, k, a⟩ := e
    simp only [List.map_cons, mapEnds, Sparsifier.filterLoop, Graph.addEdge_rename hf]
    cases c.addEdge u v a with
    | error e => rfl
    | ok c => exact ih c

/-- C78.  `Sparsifier.filter` and calling a sparsifier. -/
theorem sparsifierFilter_rename [AttrVal A] {s : Sparsifier V A} {s' : Sparsifier W A} (h : Sparsifier.Agree f s s')
    (g : Graph V A) : s'.filter (g.mapNodes f) = (s.filter g).map (Graph.mapNodes f) := by
  unfold Sparsifier.filter
  rw [h.relevant g]
  exact filterLoop_rename hf _ _ g.createEmptyCopy

/-- C78.  `Sparsifier.remove`. -/
theorem sparsifierRemove_rename {s : Sparsifier V A} {s' : Sparsifier W A} (h : Sparsifier.Agree f s s') (g : Graph V A) :
    s'.remove (g.mapNodes f) = ((s.remove g).1.mapNodes f, (s.remove g).2) := by
  have hm : ∀ l : List (KeyedEdge V A), Sparsifier.removeTriplesMulti (g.mapNodes f) (l.map (mapEnds f)) =
      Sparsifier.removeTriplesMulti g l := by
    intro l
    induction l with
    | nil => rfl
    | cons e l ih =>
      obtain ⟨u, v, k, a⟩ := e
      simp only [List.map_cons, mapEnds, Sparsifier.removeTriplesMulti, Graph.hasEdge_rename hf, ih]
  unfold Sparsifier.remove
  rw [h.redundant g]
  simp only [Gen.map]
  cases (s.redundant g).err with
  | some e => rfl
  | none =>
    have : (g.mapNodes f).multi = g.multi := rfl
    simp only [this, hm]
    split
    · rfl
    · rw [List.map_map]
      have : (((s.redundant g).yields.map ((fun e => (e.1, e.2.1)) ∘ mapEnds f)) : List (W × W)) =
          ((s.redundant g).yields.map (fun e => (e.1, e.2.1))).map (Prod.map f f) := by rw [List.map_map]; rfl
      rw [this, Graph.removeEdgesFrom_rename hf]

theorem setEdgeAttr_rename (g : Graph V A) (u v : V) (k : PyKey) (attr : String) (x : A) :
    (g.mapNodes f).setEdgeAttr (f u) (f v) k attr x = (g.setEdgeAttr u v k attr x).mapNodes f := by
  unfold Graph.setEdgeAttr Graph.mapNodes
  simp only [List.map_map, Graph.mk.injEq, true_and]
  apply List.map_congr_left
  intro l _
  simp only [Function.comp_apply, samePair_inj hf]
  split <;> rfl

section numbers
variable {K : Type} [Field K] [LinearOrder K]

theorem flagLoop_rename (attr : String) (l : List (KeyedEdge V (Val K))) (err : Option PyErr) (g : Graph V (Val K)) :
    Sparsifier.flagLoop attr (l.map (mapEnds f)) err (g.mapNodes f) =
      ((Sparsifier.flagLoop attr l err g).1.mapNodes f, (Sparsifier.flagLoop attr l err g).2) := by
  induction l generalizing g with
  | nil => cases err <;> rfl
  | cons e l ih =>
    obtain ⟨u, v, k, a⟩ := e
    simp only [List.map_cons, mapEnds, Sparsifier.flagLoop, setEdgeAttr_rename hf]
    exact ih _

theorem flagFullLoop_rename (attr : String) (negate : Bool) (p : EdgePred W (Val K)) (l : List (KeyedEdge V (Val K)))
    (g : Graph V (Val K)) :
    Sparsifier.flagFullLoop attr negate p (l.map (mapEnds f)) (g.mapNodes f) =
      ((Sparsifier.flagFullLoop attr negate (p.on f) l g).1.mapNodes f,
        (Sparsifier.flagFullLoop attr negate (p.on f) l g).2) := by
  induction l generalizing g with
  | nil => rfl
  | cons e l ih =>
    obtain ⟨u, v, k, a⟩ := e
    simp only [List.map_cons, mapEnds, Sparsifier.flagFullLoop, setEdgeAttr_rename hf, EdgePred.on_apply]
    cases p (f u) (f v) a with
    | error e => rfl
    | ok b => exact ih _

/-- C78.  `flag_relevant_edges` and `flag_redundant_edges`. -/
theorem sparsifierFlag_rename {s : Sparsifier V (Val K)} {s' : Sparsifier W (Val K)} (h : Sparsifier.Agree f s s')
    (g : Graph V (Val K)) (attr : String) (full : Bool) :
    s'.flagRelevant (g.mapNodes f) attr full =
        ((s.flagRelevant g attr full).1.mapNodes f, (s.flagRelevant g attr full).2) ∧
      s'.flagRedundant (g.mapNodes f) attr full =
        ((s.flagRedundant g attr full).1.mapNodes f, (s.flagRedundant g attr full).2) := by
  unfold Sparsifier.flagRelevant Sparsifier.flagRedundant
  rw [h.factory g, h.relevant g, h.redundant g]
  cases full with
  | false =>
    simp only [Bool.false_eq_true, if_false, Gen.map]
    exact ⟨flagLoop_rename hf _ _ _ _, flagLoop_rename hf _ _ _ _⟩
  | true =>
    simp only [if_true]
    cases s'.factory (g.mapNodes f) with
    | error e => exact ⟨rfl, rfl⟩
    | ok p =>
      simp only [Except.map, Graph.edgesKeys_rename hf]
      exact ⟨flagFullLoop_rename hf _ _ _ _ _, flagFullLoop_rename hf _ _ _ _ _⟩

/-- C78.  `GlobalThresholdSparsifier`. -/
theorem globalThresholdSparsifier_rename [PyOrd V] [PyOrd W] (ulongMax : Nat) (t : K) (attr : String)
    (reverse keepConnected : Bool) :
    ∃ s s', globalThresholdSparsifier ulongMax t attr reverse keepConnected = .ok s ∧
      globalThresholdSparsifier ulongMax t attr reverse keepConnected = .ok s' ∧ Sparsifier.Agree f s s' :=
  sparsifierMake_rename hf ulongMax (fac := fun _ => .ok (thresholdPredicate t attr reverse))
    (fac' := fun _ => .ok (thresholdPredicate t attr reverse)) (fun _ => rfl) keepConnected

/-- C78.  `global_threshold_sparsification`. -/
theorem globalThresholdSparsification_rename [PyOrd V] [PyOrd W] [AttrVal (Val K)] (ulongMax : Nat) (g : Graph V (Val K))
    (t : K) (attr : String) (reverse keepConnected : Bool) :
    globalThresholdSparsification ulongMax (g.mapNodes f) t attr reverse keepConnected =
      (globalThresholdSparsification ulongMax g t attr reverse keepConnected).map (Graph.mapNodes f) := by
  obtain ⟨s, s', h1, h2, h3⟩ := globalThresholdSparsifier_rename (f := f) hf ulongMax t attr reverse keepConnected
  unfold globalThresholdSparsification
  rw [h1, h2]
  exact sparsifierFilter_rename hf h3 g

end numbers

/-! ### Triangles -/

/-- The adjacencies of `triangles`, nodes being renamed. -/
def adjRename (f : V → W) (d : Dict V (List V)) : Dict W (List W) := d.map (fun p => (f p.1, p.2.map f))

theorem adjRename_get? (d : Dict V (List V)) (k : V) : Dict.get? (adjRename f d) (f k) = (d.get? k).map (List.map f) := by
  induction d with
  | nil => rfl
  | cons p d ih =>
    show (if f p.1 = f k then some (p.2.map f) else Dict.get? (adjRename f d) (f k)) =
      (if p.1 = k then some p.2 else Dict.get? d k).map (List.map f)
    simp only [hf.eq_iff, ih]
    split <;> rfl

theorem adjRename_set (d : Dict V (List V)) (k : V) (x : List V) :
    Dict.set (adjRename f d) (f k) (x.map f) = adjRename f (d.set k x) := by
  induction d with
  | nil => rfl
  | cons p d ih =>
    show (if f p.1 = f k then (f p.1, x.map f) :: adjRename f d
        else (f p.1, p.2.map f) :: Dict.set (adjRename f d) (f k) (x.map f)) =
      adjRename f (if p.1 = k then (p.1, x) :: d else (p.1, p.2) :: Dict.set d k x)
    simp only [hf.eq_iff, ih]
    split <;> rfl

theorem adjRename_getItem (d : Dict V (List V)) (k : V) :
    Dict.getItem (adjRename f d) (f k) = (d.getItem k).map (List.map f) := by
  unfold Dict.getItem
  rw [adjRename_get? hf]
  cases d.get? k <;> rfl

/-- A triple of renamed nodes. -/
def mapTriple (f : V → W) (t : V × V × V) : W × W × W := (f t.1, f t.2.1, f t.2.2)

theorem popMarked_rename (node : V) (marked : List V) (adjs : Dict V (List V)) :
    popMarked (f node) (marked.map f) (adjRename f adjs) =
      ((popMarked node marked adjs).1.map (mapTriple f), adjRename f (popMarked node marked adjs).2.1,
        (popMarked node marked adjs).2.2) := by
  induction marked generalizing adjs with
  | nil => rfl
  | cons n marked ih =>
    simp only [List.map_cons, popMarked, adjRename_getItem hf]
    cases adjs.getItem n with
    | error e => rfl
    | ok adj =>
      have hfound : ((adj.map f).filter (fun x => !decide (x = f node) && decide (x ∈ marked.map f))).map
          (fun x => (f node, f n, x)) =
          ((adj.filter (fun x => !decide (x = node) && decide (x ∈ marked))).map (fun x => (node, n, x))).map
            (mapTriple f) := by
        rw [List.filter_map, List.map_map, List.map_map]
        simp only [Function.comp_def, hf.eq_iff, mem_map_inj hf, mapTriple]
      simp only [Except.map, mem_map_inj hf, hfound]
      split
      · have : ((adj.map f).erase (f node)) = (adj.erase node).map f := (List.map_erase hf adj).symm
        rw [this, adjRename_set hf, ih]
        simp
      · rfl

theorem triangleLoop_rename (ns : List V) (adjs : Dict V (List V)) :
    triangleLoop (ns.map f) (adjRename f adjs) = (triangleLoop ns adjs).map (mapTriple f) := by
  induction ns generalizing adjs with
  | nil => rfl
  | cons n ns ih =>
    simp only [List.map_cons, triangleLoop, adjRename_getItem hf]
    cases adjs.getItem n with
    | error e => rfl
    | ok adj =>
      have hmark : ∀ (l : List V) (m : Dict V Unit),
          ((l.map f).foldl (fun (m : Dict W Unit) x => m.set x ()) (m.mapKeys f)) =
            Dict.mapKeys f (l.foldl (fun (m : Dict V Unit) x => m.set x ()) m) := by
        intro l
        induction l with
        | nil => intro m; rfl
        | cons x l ih => intro m; simp only [List.map_cons, List.foldl_cons, Dict.set_mapKeys hf, ih]
      have hkeys : ∀ m : Dict V Unit, Dict.keys (m.mapKeys f) = m.keys.map f := by
        intro m; simp [Dict.keys, Dict.mapKeys]
      have := hmark adj []
      simp only [Except.map]
      rw [show (Dict.mapKeys f ([] : Dict V Unit)) = [] from rfl] at this
      rw [this, hkeys, ← List.map_reverse, popMarked_rename hf]
      rcases popMarked n (Dict.keys (adj.foldl (fun (m : Dict V Unit) x => m.set x ()) [])).reverse adjs with
        ⟨ys, adjs', _ | e⟩
      · simp only [ih, Gen.map, List.map_append]
      · rfl

/-- C78.  `triangles`: the triangles, their order and that of their members. -/
theorem triangles_rename (g : Graph V A) : triangles (g.mapNodes f) = (triangles g).map (mapTriple f) := by
  have hN : ∀ n, (g.mapNodes f).undirectedView.neighbors (f n) = (g.undirectedView.neighbors n).map f := by
    intro n
    unfold Graph.undirectedView
    simp only [Graph.neighbors_rename hf, Graph.predecessors_rename hf]
    have : (g.mapNodes f).directed = g.directed := rfl
    rw [this]
    split
    · rw [List.filter_map, List.map_append]
      simp only [Function.comp_def, mem_map_inj hf]
    · rfl
  have hD : ∀ n, (g.mapNodes f).undirectedView.degree (f n) = g.undirectedView.degree n := Graph.degree_rename hf g
  have hadj : ∀ n, adjacencyOf (g.mapNodes f).undirectedView (f n) = (adjacencyOf g.undirectedView n).map f := by
    intro n
    unfold adjacencyOf
    rw [hN, List.filter_map]
    simp only [Function.comp_def, hf.eq_iff, hD]
  have hs : sortedNodes (g.mapNodes f).undirectedView = (sortedNodes g.undirectedView).map f := by
    unfold sortedNodes pySortedRev
    have : (g.mapNodes f).undirectedView.nodes = g.undirectedView.nodes.map f := Graph.nodes_rename g
    rw [this, List.filter_map]
    simp only [Function.comp_def, hD]
    exact (List.map_insertionSort _ _ f _ (fun a _ b _ => by rw [hD, hD])).symm
  have hA : ∀ (ns : List V) (d : Dict V (List V)),
      (ns.map f).foldl (fun d n => Dict.set d n (adjacencyOf (g.mapNodes f).undirectedView n)) (adjRename f d) =
        adjRename f (ns.foldl (fun d n => Dict.set d n (adjacencyOf g.undirectedView n)) d) := by
    intro ns
    induction ns with
    | nil => intro d; rfl
    | cons n ns ih => intro d; simp only [List.map_cons, List.foldl_cons, hadj, adjRename_set hf, ih]
  unfold triangles trianglesOf
  simp only [hs, List.length_map, ← List.map_take]
  have : adjacenciesOf (g.mapNodes f).undirectedView ((sortedNodes g.undirectedView).map f) =
      adjRename f (adjacenciesOf g.undirectedView (sortedNodes g.undirectedView)) := hA _ []
  rw [this, triangleLoop_rename hf]

omit hf [DecidableEq V] in
theorem hasEdge_rename_range (g : Graph V A) {x y : W} (h : (g.mapNodes f).hasEdge x y = true) :
    ∃ u v, x = f u ∧ y = f v := by
  unfold Graph.hasEdge Graph.keydict? Graph.mapNodes at h
  rw [Option.isSome_map, List.find?_isSome] at h
  obtain ⟨l, hl, hs⟩ := h
  obtain ⟨l, -, rfl⟩ := List.mem_map.1 hl
  unfold samePair at hs
  simp only [Bool.or_eq_true, Bool.and_eq_true, decide_eq_true_eq] at hs
  rcases hs with ⟨rfl, rfl⟩ | ⟨⟨-, rfl⟩, rfl⟩
  · exact ⟨_, _, rfl, rfl⟩
  · exact ⟨_, _, rfl, rfl⟩

theorem adjacent_rename (g : Graph V A) (u v : V) : (g.mapNodes f).Adjacent (f u) (f v) ↔ g.Adjacent u v := by
  unfold Graph.Adjacent
  rw [Graph.hasEdge_rename hf, Graph.hasEdge_rename hf]

omit hf [DecidableEq V] in
theorem adjacent_rename_range (g : Graph V A) {x y : W} (h : (g.mapNodes f).Adjacent x y) : ∃ u v, x = f u ∧ y = f v := by
  rcases h with h | h
  · exact hasEdge_rename_range g h
  · obtain ⟨u, v, h1, h2⟩ := hasEdge_rename_range g h
    exact ⟨v, u, h2, h1⟩

theorem isTriangle_rename (g : Graph V A) (s : Finset W) :
    (g.mapNodes f).IsTriangle s ↔ ∃ t, g.IsTriangle t ∧ s = t.image f := by
  constructor
  · rintro ⟨a, b, c, h1, h2, h3, h4, h5, h6, rfl⟩
    obtain ⟨a, b, rfl, rfl⟩ := adjacent_rename_range g h4
    obtain ⟨-, c, -, rfl⟩ := adjacent_rename_range g h5
    refine ⟨{a, b, c}, ⟨a, b, c, fun h => h1 (h ▸ rfl), fun h => h2 (h ▸ rfl), fun h => h3 (h ▸ rfl),
      (adjacent_rename hf g _ _).1 h4, (adjacent_rename hf g _ _).1 h5, (adjacent_rename hf g _ _).1 h6, rfl⟩, ?_⟩
    simp [Finset.image_insert]
  · rintro ⟨t, ⟨a, b, c, h1, h2, h3, h4, h5, h6, rfl⟩, rfl⟩
    refine ⟨f a, f b, f c, hf.ne h1, hf.ne h2, hf.ne h3, (adjacent_rename hf g _ _).2 h4, (adjacent_rename hf g _ _).2 h5,
      (adjacent_rename hf g _ _).2 h6, ?_⟩
    simp [Finset.image_insert]

theorem strength_rename (g : Graph V A) (u v : V) : (g.mapNodes f).strength (f u) (f v) = g.strength u v := by
  unfold Graph.strength
  rw [← Set.ncard_image_of_injective {s : Finset V | g.IsTriangle s ∧ u ≠ v ∧ u ∈ s ∧ v ∈ s} (Finset.image_injective hf)]
  congr 1
  ext s
  simp only [Set.mem_ofPred_eq, Set.mem_image, isTriangle_rename hf]
  constructor
  · rintro ⟨⟨t, ht, rfl⟩, h1, h2, h3⟩
    exact ⟨t, ⟨ht, fun h => h1 (h ▸ rfl), by simpa [hf.eq_iff] using h2, by simpa [hf.eq_iff] using h3⟩, rfl⟩
  · rintro ⟨t, ⟨ht, h1, h2, h3⟩, rfl⟩
    exact ⟨⟨t, ht, rfl⟩, hf.ne h1, Finset.mem_image_of_mem f h2, Finset.mem_image_of_mem f h3⟩

theorem weighted_rename_iff {K : Type} [Field K] (g : Graph V (Val K)) (attr : String) (w : W → W → K) :
    (g.mapNodes f).Weighted attr w ↔ g.Weighted attr (fun u v => w (f u) (f v)) := by
  unfold Graph.Weighted
  rw [Graph.edgesData_rename hf]
  simp only [List.forall_mem_map, mapEnds]

theorem roundedDisparity_rename {K : Type} [Field K] [LinearOrder K] (rnd : K → K) (pow : K → Nat → K) (reverse : Bool)
    (g : Graph V (Val K)) (w : W → W → K) (u v : V) :
    (g.mapNodes f).roundedDisparity rnd pow reverse w (f u) (f v) =
      g.roundedDisparity rnd pow reverse (fun u v => w (f u) (f v)) u v := by
  have hs : ∀ n, (g.mapNodes f).roundedStrength rnd w (f n) = g.roundedStrength rnd (fun u v => w (f u) (f v)) n := by
    intro n
    unfold Graph.roundedStrength
    rw [Graph.edgesOf_rename hf, List.filter_map, List.foldl_map, List.foldl_map]
    simp only [Function.comp_def, mapEnds, hf.eq_iff]
  unfold Graph.roundedDisparity
  simp only [hs, Graph.degree_rename hf]

omit [DecidableEq V] [DecidableEq W] in
/-- Weights of the original nodes are weights of the renamed ones, symmetric if they are. -/
theorem exists_weights_rename {K : Type} [Field K] (w : V → V → K) :
    ∃ w' : W → W → K, ((∀ u v, w u v = w v u) → ∀ x y, w' x y = w' y x) ∧ (fun u v => w' (f u) (f v)) = w := by
  classical
  refine ⟨fun x y => if h : (∃ u, f u = x) ∧ ∃ v, f v = y then w h.1.choose h.2.choose else 0, ?_, ?_⟩
  · intro hsym x y
    by_cases h : (∃ u, f u = x) ∧ ∃ v, f v = y
    all_goals beta_reduce
    · rw [dif_pos h, dif_pos h.symm, hsym]
    · rw [dif_neg h, dif_neg (fun h' => h h'.symm)]
  · funext u v
    have h : (∃ u', f u' = f u) ∧ ∃ v', f v' = f v := ⟨⟨u, rfl⟩, ⟨v, rfl⟩⟩
    beta_reduce
    rw [dif_pos h, hf h.1.choose_spec, hf h.2.choose_spec]

end

/-- The pair with the smaller first. -/
def orderedEnds [LinearOrder V] (u v : V) : V × V := if v < u then (v, u) else (u, v)

theorem orderedEnds_le [LinearOrder V] {u v : V} (h : u ≤ v) : orderedEnds u v = (u, v) := by
  unfold orderedEnds; rw [if_neg (not_lt.2 h)]

theorem orderedEnds_cases [LinearOrder V] (u v : V) :
    (u ≤ v ∧ orderedEnds u v = (u, v)) ∨ v ≤ u ∧ orderedEnds u v = (v, u) := by
  unfold orderedEnds
  split
  · rename_i h; exact .inr ⟨h.le, rfl⟩
  · rename_i h; exact .inl ⟨not_lt.1 h, rfl⟩

/-- The entries of a dict that has one entry per unordered pair. -/
theorem get?_orderedEnds [LinearOrder V] {B : Type} {d : Dict (V × V) B} {P : V → V → Prop} {x : V → V → B}
    (hP : ∀ u v, P u v ↔ P v u) (hx : ∀ u v, x u v = x v u)
    (hd : ∀ u v n, d.get? (u, v) = some n ↔ u ≤ v ∧ P u v ∧ n = x u v) (u v : V) (n : B) :
    d.get? (orderedEnds u v) = some n ↔ P u v ∧ n = x u v := by
  rcases orderedEnds_cases u v with ⟨h, e⟩ | ⟨h, e⟩
  · rw [e, hd]; simp [h]
  · rw [e, hd, hP, hx]; simp [h]

section ordered
variable [LinearOrder V] [LinearOrder W] [PyOrd V] [PyOrd W] (hv : OrderedKeys V) (hw : OrderedKeys W) {f : V → W}
  (hf : Function.Injective f)
include hv hw hf

/-- C78.  `triangular_strength`: the same entries, each under the ordered pair of the new names. -/
theorem triangularStrength_rename {g : Graph V A} (h : g.WF) (full : Bool) :
    ∃ d d', triangularStrength g full = .ok d ∧ triangularStrength (g.mapNodes f) full = .ok d' ∧
      (∀ u v, d'.get? (orderedEnds (f u) (f v)) = d.get? (orderedEnds u v)) ∧
      ∀ k n, d'.get? k = some n → ∃ u v, k = orderedEnds (f u) (f v) := by
  obtain ⟨d, h1, -, h2⟩ := triangularStrength_exact hv h full
  obtain ⟨d', h1', -, h2'⟩ := triangularStrength_exact hw (h.mapNodes (f := f) (fun a _ b _ hab => hf hab)) full
  have ha : ∀ {U : Type} [DecidableEq U] (g : Graph U A) (u v : U), g.Adjacent u v ↔ g.Adjacent v u :=
    fun g u v => or_comm
  have hs : ∀ {U : Type} [DecidableEq U] (g : Graph U A) (u v : U), g.strength u v = g.strength v u := by
    intro U _ g u v
    unfold Graph.strength
    congr 1
    ext s
    simp only [Set.mem_ofPred_eq]
    exact ⟨fun ⟨a, b, c, d⟩ => ⟨a, b.symm, d, c⟩, fun ⟨a, b, c, d⟩ => ⟨a, b.symm, d, c⟩⟩
  refine ⟨d, d', h1, h1', fun u v => ?_, fun k n hk => ?_⟩
  · apply Option.ext
    intro n
    rw [get?_orderedEnds (fun u v => by rw [ha, hs]) (hs g) h2,
      get?_orderedEnds (fun u v => by rw [ha, hs]) (hs (g.mapNodes f)) h2', adjacent_rename hf, strength_rename hf]
  · obtain ⟨x, y⟩ := k
    obtain ⟨h3, h4, -⟩ := (h2' x y n).1 hk
    have hadj : (g.mapNodes f).Adjacent x y := by
      rcases h4 with h4 | h4
      · exact h4.2
      · exact (strength_pos_adjacent h4).2
    obtain ⟨u, v, rfl, rfl⟩ := adjacent_rename_range g hadj
    exact ⟨u, v, (orderedEnds_le h3).symm⟩

variable {K : Type} [Field K] [LinearOrder K] [IsStrictOrderedRing K]

/-- C78.  `edge_disparity`: the same scores, in any arithmetic, each under the ordered pair of the new names. -/
theorem edgeDisparityA_rename (ar : Arith K) {g : Graph V (Val K)} (h : g.WF) (hd : g.directed = false) (hm : g.multi = false)
    {attr : String} {w : V → V → K} (hsym : ∀ u v, w u v = w v u) (hwt : g.Weighted attr w)
    (hS : ∀ u v, g.hasEdge u v = true → g.roundedStrength ar.rnd w u ≠ 0) (reverse : Bool) :
    ∃ d d', edgeDisparityA ar g attr reverse = .ok d ∧ edgeDisparityA ar (g.mapNodes f) attr reverse = .ok d' ∧
      (∀ u v, d'.get? (orderedEnds (f u) (f v)) = d.get? (orderedEnds u v)) ∧
      ∀ k x, d'.get? k = some x → ∃ u v, k = orderedEnds (f u) (f v) := by
  obtain ⟨w', hsym', rfl⟩ := exists_weights_rename hf w
  have hsym' := hsym' hsym
  have hs : ∀ n, (g.mapNodes f).roundedStrength ar.rnd w' (f n) =
      g.roundedStrength ar.rnd (fun u v => w' (f u) (f v)) n := by
    intro n
    unfold Graph.roundedStrength
    rw [Graph.edgesOf_rename hf, List.filter_map, List.foldl_map, List.foldl_map]
    simp only [Function.comp_def, mapEnds, hf.eq_iff]
  obtain ⟨d, h1, -, h2⟩ := edgeDisparityA_exact ar hv h hd hm hsym hwt hS reverse
  obtain ⟨d', h1', -, h2'⟩ := edgeDisparityA_exact ar hw (h.mapNodes (f := f) (fun a _ b _ hab => hf hab)) hd hm hsym'
    ((weighted_rename_iff hf g attr w').2 hwt) (by
      intro x y hxy
      obtain ⟨u, v, rfl, rfl⟩ := hasEdge_rename_range g hxy
      rw [Graph.hasEdge_rename hf] at hxy
      rw [hs]
      exact hS u v hxy) reverse
  have hcomm : ∀ {U : Type} [DecidableEq U] (w : U → U → K) (_ : ∀ u v, w u v = w v u) (g : Graph U (Val K)) (u v : U),
      g.roundedDisparity ar.rnd ar.pow reverse w u v = g.roundedDisparity ar.rnd ar.pow reverse w v u := by
    intro U _ w hw g u v
    unfold Graph.roundedDisparity
    rw [hw u v, min_comm, max_comm]
  refine ⟨d, d', h1, h1', fun u v => ?_, fun k x hk => ?_⟩
  · apply Option.ext
    intro n
    rw [get?_orderedEnds (P := fun u v => g.hasEdge u v = true) (fun u v => by rw [Graph.hasEdge_comm hd])
        (hcomm _ hsym g) h2,
      get?_orderedEnds (P := fun u v => (g.mapNodes f).hasEdge u v = true)
        (fun u v => by rw [Graph.hasEdge_comm (g := g.mapNodes f) hd]) (hcomm _ hsym' (g.mapNodes f)) h2',
      Graph.hasEdge_rename hf, roundedDisparity_rename hf]
  · obtain ⟨a, b⟩ := k
    obtain ⟨h3, h4, -⟩ := (h2' a b x).1 hk
    obtain ⟨u, v, rfl, rfl⟩ := hasEdge_rename_range g h4
    exact ⟨u, v, (orderedEnds_le h3).symm⟩

/-- C78.  `multiscale_backbone`, in any arithmetic: the backbone of the renamed graph is the renamed backbone. -/
theorem multiscaleBackboneA_rename [AttrVal (Val K)] {ar : Arith K} (hr : Rounding ar.rnd) (hp : UnitPow ar.pow)
    (ulongMax : Nat) {g : Graph V (Val K)} (h : g.WF) (hd : g.directed = false) (hm : g.multi = false)
    {attr : String} {w : V → V → K} (hsym : ∀ u v, w u v = w v u) (hwt : g.Weighted attr w)
    (hpos : ∀ u v, g.hasEdge u v = true → 0 < w u v ∧ ar.rnd (w u v) = w u v) (alpha : K) (keepConnected : Bool)
    (hu : keepConnected = true → (unionOfMaximumSpanningTrees ulongMax g "weight").err = none)
    (hkw : ∀ e ∈ g.edgesData, Graph.EdgeKwSafe g.multi e.2.2) :
    ∃ b b', multiscaleBackboneA ar ulongMax g alpha attr keepConnected = .ok b ∧
      multiscaleBackboneA ar ulongMax (g.mapNodes f) alpha attr keepConnected = .ok b' ∧
      b'.node = b.node.mapKeys f ∧ b'.attrs = b.attrs ∧ b'.directed = b.directed ∧ b'.multi = b.multi ∧
      b'.edgesData = b.edgesData.map (mapEnds f) := by
  obtain ⟨w', hsym', rfl⟩ := exists_weights_rename hf w
  have hsym' := hsym' hsym
  obtain ⟨b, h1, -, h2, h3, h4, h5, h6⟩ := multiscaleBackboneA_exact hr hp ulongMax hv h hd hm hsym hwt hpos alpha
    keepConnected hu hkw
  obtain ⟨b', h1', -, h2', h3', h4', h5', h6'⟩ := multiscaleBackboneA_exact hr hp ulongMax hw
    (h.mapNodes (f := f) (fun a _ b _ hab => hf hab)) hd hm hsym' ((weighted_rename_iff hf g attr w').2 hwt) (by
      intro x y hxy
      obtain ⟨u, v, rfl, rfl⟩ := hasEdge_rename_range g hxy
      rw [Graph.hasEdge_rename hf] at hxy
      exact hpos u v hxy) alpha keepConnected
    (fun hk => by rw [unionOfMaximumSpanningTrees_rename hf]; exact hu hk) (by
      rw [Graph.edgesData_rename hf]
      intro e he
      obtain ⟨e', he', rfl⟩ := List.mem_map.1 he
      exact hkw e' he')
  refine ⟨b, b', h1, h1', h5'.trans ?_, h4'.trans h4.symm, h2'.trans h2.symm, h3'.trans h3.symm, ?_⟩
  · rw [h5]; rfl
  · rw [h6, h6', Graph.edgesData_rename hf, List.filter_map]
    congr 1
    apply List.filter_congr
    rintro ⟨u, v, a⟩ -
    simp only [Function.comp_apply]
    rw [decide_eq_decide]
    simp only [mapEnds, roundedDisparity_rename hf, unionOfMaximumSpanningTrees_rename hf, Gen.map, List.mem_map]
    have : (∃ c, ∃ e ∈ (unionOfMaximumSpanningTrees ulongMax g "weight").yields, (f e.1, f e.2.1, e.2.2) = (f u, f v, c)) ↔
        ∃ c, (u, v, c) ∈ (unionOfMaximumSpanningTrees ulongMax g "weight").yields := by
      constructor
      · rintro ⟨c, ⟨x, y, z⟩, he, heq⟩
        simp only [Prod.mk.injEq, hf.eq_iff] at heq
        obtain ⟨rfl, rfl, rfl⟩ := heq
        exact ⟨_, he⟩
      · rintro ⟨c, hc⟩
        exact ⟨c, _, hc, rfl⟩
    rw [this]

end ordered

/-! ### A concrete case -/

/-- A square with a diagonal and a separate edge. -/
def kiteRename : Graph Int (Val ℚ) :=
  ⟨false, false, [], [(0, []), (1, []), (2, []), (3, []), (4, []), (5, [])],
    [⟨0, 1, [(.int 0, [(.str "weight", .num 3)])]⟩, ⟨1, 2, [(.int 0, [(.str "weight", .num 1)])]⟩,
     ⟨2, 3, [(.int 0, [(.str "weight", .num 2)])]⟩, ⟨3, 0, [(.int 0, [(.str "weight", .num 1)])]⟩,
     ⟨0, 2, [(.int 0, [(.str "weight", .num 2)])]⟩, ⟨4, 5, [(.int 0, [(.str "weight", .num 1)])]⟩]⟩

/-- C78 on a concrete graph: the names are reversed, the triangles, the components and the trees follow. -/
theorem rename_sample :
    kiteRename.WF ∧ Function.Injective (fun n : Int => -n) ∧
      (triangles kiteRename).yields.length = 2 ∧
      (triangles (kiteRename.mapNodes (fun n => -n))).yields =
        (triangles kiteRename).yields.map (mapTriple (fun n => -n)) ∧
      connectedComponentOrders (kiteRename.mapNodes (fun n => -n)) none = connectedComponentOrders kiteRename none ∧
      (connectedComponentOrders kiteRename none).yields = [4, 2] ∧
      (unionOfMaximumSpanningTrees (2 ^ 64 - 1) kiteRename "weight").yields.length = 4 := by
  have hi : Function.Injective (fun n : Int => -n) := fun a b h => neg_injective h
  refine ⟨by constructor <;> decide, hi, by decide +kernel, ?_, ?_, by decide +kernel, by decide +kernel⟩
  · rw [triangles_rename hi]; rfl
  · exact connectedComponentOrders_rename hi kiteRename none

end Pelote
