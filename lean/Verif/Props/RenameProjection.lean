import Verif.Props.RenameMetrics
import Verif.Props.ReorderProjection

/-! Property C78, continued: `filter_nodes` and the projections. -/
namespace Pelote
variable {V W A K : Type}

section
variable [DecidableEq V] [DecidableEq W] {f : V → W} (hf : Function.Injective f)
include hf

/-! ### `filter_nodes` -/

theorem filterNodesEdges_rename [AttrVal A] [PyOrd V] [PyOrd W] (ho : ∀ u v : V, PyOrd.gt (f u) (f v) = PyOrd.gt u v)
    (g : Graph V A) (p : NodePred W A) (l : List (V × V × PyKey × Attrs A)) (c : Graph V A) :
    filterNodesEdges (g.mapNodes f) p (l.map (mapEnds f)) (c.mapNodes f) =
      (filterNodesEdges g (p.on f) l c).map (Graph.mapNodes f) := by
  induction l generalizing c with
  | nil => rfl
  | cons e l ih =>
    obtain ⟨u, v, k, a⟩ := e
    have hd : (g.mapNodes f).directed = g.directed := rfl
    have hm : (g.mapNodes f).multi = g.multi := rfl
    simp only [List.map_cons, mapEnds, filterNodesEdges, hd, hm, ho, Graph.nodeData_rename hf, NodePred.on_apply,
      Graph.addEdgeKey_rename hf, Graph.addEdge_rename hf]
    cases (if g.directed = true then Except.ok true else PyOrd.gt u v) with
    | error e => rfl
    | ok b =>
      cases b with
      | false => exact ih c
      | true =>
        cases g.nodeData v with
        | error e => rfl
        | ok av =>
          simp only
          cases p (f v) av with
          | error e => rfl
          | ok b =>
            cases b with
            | false => exact ih c
            | true =>
              have hif : (if g.multi = true then (c.addEdgeKey u v k a).map (Graph.mapNodes f)
                  else (c.addEdge u v a).map (Graph.mapNodes f)) =
                  (if g.multi = true then c.addEdgeKey u v k a else c.addEdge u v a).map (Graph.mapNodes f) := by
                split <;> rfl
              simp only [hif]
              cases (if g.multi = true then c.addEdgeKey u v k a else c.addEdge u v a) with
              | error e => rfl
              | ok c => exact ih c

/-- C78.  `filter_nodes`, when the new names compare like the old ones. -/
theorem filterNodes_rename [AttrVal A] [PyOrd V] [PyOrd W] (ho : ∀ u v : V, PyOrd.gt (f u) (f v) = PyOrd.gt u v)
    (g : Graph V A) (p : NodePred W A) :
    filterNodes (g.mapNodes f) p = (filterNodes g (p.on f)).map (Graph.mapNodes f) := by
  have hl : ∀ (l : Dict V (Attrs A)) (c : Graph V A), filterNodesLoop (g.mapNodes f) p (l.mapKeys f) (c.mapNodes f) =
      (filterNodesLoop g (p.on f) l c).map (Graph.mapNodes f) := by
    intro l
    induction l with
    | nil => intro c; rfl
    | cons e l ih =>
      intro c
      obtain ⟨n, a⟩ := e
      have : Dict.mapKeys f ((n, a) :: l) = (f n, a) :: Dict.mapKeys f l := rfl
      simp only [this, filterNodesLoop, NodePred.on_apply, Graph.addNode_rename hf, Graph.edgesOf_rename hf]
      cases p (f n) a with
      | error e => rfl
      | ok b =>
        cases b with
        | false => exact ih c
        | true =>
          simp only
          cases c.addNode n a with
          | error e => rfl
          | ok c =>
            simp only [Except.map, filterNodesEdges_rename hf ho]
            cases filterNodesEdges g (p.on f) (g.edgesOf n) c with
            | error e => rfl
            | ok c => exact ih c
  unfold filterNodes createNullCopy
  have ha : (g.mapNodes f).attrs = g.attrs := rfl
  rw [ha]
  cases Graph.checkKwargs ["self", "incoming_graph_data"] g.attrs with
  | error e => rfl
  | ok u => exact hl g.node (Graph.empty g.directed g.multi g.attrs)

/-- C78.  `filter_leaves`, when the new names compare like the old ones. -/
theorem filterLeaves_rename [AttrVal A] [PyOrd V] [PyOrd W] (ho : ∀ u v : V, PyOrd.gt (f u) (f v) = PyOrd.gt u v)
    (g : Graph V A) : filterLeaves (g.mapNodes f) = (filterLeaves g).map (Graph.mapNodes f) := by
  unfold filterLeaves
  rw [filterNodes_rename hf ho]
  have : (NodePred.on f fun n (_ : Attrs A) => Except.ok (decide ((g.mapNodes f).degree n ≠ 1))) =
      (fun n _ => Except.ok (decide (g.degree n ≠ 1)) : NodePred V A) := by
    funext n a
    simp only [NodePred.on, Graph.degree_rename hf]
  rw [this]

/-! ### Self similarity -/

/-- The queue of a breadth first search, nodes being renamed. -/
def Traversal.renameQueue (f : V → W) (t : Traversal V (V × Nat)) : Traversal W (W × Nat) :=
  ⟨t.graph.map f, t.items.map (Prod.map f id), t.seen.map f⟩

theorem Traversal.append_renameQueue (t : Traversal V (V × Nat)) (n : V) (d : Nat) :
    ((t.renameQueue f).append (fun n => (n, 0)) (f n) (some (f n, d))).1 =
      (t.append (fun n => (n, 0)) n (some (n, d))).1.renameQueue f := by
  unfold Traversal.append Traversal.renameQueue
  simp only [mem_map_inj hf]
  by_cases h : n ∈ t.seen <;> simp [h]

theorem bfsPush_rename (d : Nat) (l : List V) (t : Traversal V (V × Nat)) :
    bfsPush d (l.map f) (t.renameQueue f) = (bfsPush d l t).renameQueue f := by
  induction l generalizing t with
  | nil => rfl
  | cons n l ih =>
    simp only [List.map_cons, bfsPush, Traversal.append_renameQueue hf, ih]

theorem bfsNeighbors_rename (g : Graph V A) (reverse : Bool) (n : V) :
    bfsNeighbors (g.mapNodes f) reverse (f n) = (bfsNeighbors g reverse n).map (List.map f) := by
  unfold bfsNeighbors
  have hd : (g.mapNodes f).directed = g.directed := rfl
  rw [hd, Graph.hasNode_rename hf, Graph.predecessors_rename hf, Graph.neighbors_rename hf]
  cases g.directed <;> cases g.hasNode n <;> cases reverse <;> rfl

theorem searchLoop_rename (g : Graph V A) (reverse : Bool) (limit : Int) (fuel : Nat) (t : Traversal V (V × Nat)) :
    searchLoop (g.mapNodes f) reverse limit fuel (t.renameQueue f) =
      (searchLoop g reverse limit fuel t).map (Prod.map f id) := by
  induction fuel generalizing t with
  | zero =>
    unfold searchLoop
    have : (t.renameQueue f).len = t.len := List.length_map _
    rw [this]
    split <;> rfl
  | succ fuel ih =>
    unfold searchLoop
    have : (t.renameQueue f).len = t.len := List.length_map _
    rw [this]
    split
    · rfl
    · have hp : (t.renameQueue f).popleft = t.popleft.map (fun r => (r.1.renameQueue f, Prod.map f id r.2)) := by
        unfold Traversal.popleft Traversal.renameQueue
        cases t.items <;> rfl
      simp only [hp]
      cases t.popleft with
      | error e => rfl
      | ok r =>
        obtain ⟨t, n, d⟩ := r
        simp only [Except.map, Prod.map, id]
        have hout : (if d > 0 then [(f n, d)] else []) = (if d > 0 then [(n, d)] else []).map (Prod.map f id) := by
          split <;> rfl
        rw [hout, ih, bfsNeighbors_rename hf]
        split
        · simp [Gen.map]
        · cases bfsNeighbors g reverse n with
          | error e => rfl
          | ok ns =>
            simp only [Except.map]
            rw [bfsPush_rename hf, ih]
            simp [Gen.map]

theorem bfsFromNode_rename (g : Graph V A) (source : V) (reverse : Bool) (limit : Int) :
    bfsFromNode (g.mapNodes f) (f source) reverse limit = (bfsFromNode g source reverse limit).map (Prod.map f id) := by
  unfold bfsFromNode
  rw [Graph.order_rename, Graph.nodes_rename]
  have := Traversal.append_renameQueue hf (Traversal.init g.nodes) source 0
  rw [← searchLoop_rename hf, ← this]; rfl

/-- The inverted index, nodes being renamed. -/
def indexRename (f : V → W) (d : Dict (Bool × Nat × V) (List V)) : Dict (Bool × Nat × W) (List W) :=
  d.map (fun p => ((p.1.1, p.1.2.1, f p.1.2.2), p.2.map f))

theorem indexRename_get? (d : Dict (Bool × Nat × V) (List V)) (k : Bool × Nat × V) :
    Dict.get? (indexRename f d) (k.1, k.2.1, f k.2.2) = (d.get? k).map (List.map f) := by
  induction d with
  | nil => rfl
  | cons p d ih =>
    show (if (p.1.1, p.1.2.1, f p.1.2.2) = (k.1, k.2.1, f k.2.2) then some (p.2.map f)
        else Dict.get? (indexRename f d) (k.1, k.2.1, f k.2.2)) =
      (if p.1 = k then some p.2 else Dict.get? d k).map (List.map f)
    obtain ⟨⟨a, b, c⟩, x⟩ := p
    obtain ⟨a', b', c'⟩ := k
    simp only [Prod.mk.injEq, hf.eq_iff] at ih ⊢
    rw [ih]
    split <;> rfl

theorem indexRename_set (d : Dict (Bool × Nat × V) (List V)) (k : Bool × Nat × V) (x : List V) :
    Dict.set (indexRename f d) (k.1, k.2.1, f k.2.2) (x.map f) = indexRename f (d.set k x) := by
  induction d with
  | nil => rfl
  | cons p d ih =>
    show (if (p.1.1, p.1.2.1, f p.1.2.2) = (k.1, k.2.1, f k.2.2) then
          ((p.1.1, p.1.2.1, f p.1.2.2), x.map f) :: indexRename f d
        else ((p.1.1, p.1.2.1, f p.1.2.2), p.2.map f) :: Dict.set (indexRename f d) (k.1, k.2.1, f k.2.2) (x.map f)) =
      indexRename f (if p.1 = k then (p.1, x) :: d else (p.1, p.2) :: Dict.set d k x)
    obtain ⟨⟨a, b, c⟩, y⟩ := p
    obtain ⟨a', b', c'⟩ := k
    simp only [Prod.mk.injEq, hf.eq_iff] at ih ⊢
    rw [ih]
    split <;> rfl

theorem countCandidates_rename (l : List V) (d : Dict V Nat) :
    countCandidates (l.map f) (d.mapKeys f) = (countCandidates l d).mapKeys f := by
  induction l generalizing d with
  | nil => rfl
  | cons c l ih =>
    simp only [List.map_cons, countCandidates, Dict.get?_mapKeys hf, Dict.set_mapKeys hf, ih]

/-- The state of the inner loops, nodes being renamed. -/
def TagState.rename (f : V → W) (s : TagState V) : TagState W :=
  ⟨s.depth, s.norm, s.candidates.mapKeys f, indexRename f s.index⟩

theorem tagLoop_rename (node : V) (out : Bool) (l : List (V × Nat)) (s : TagState V) :
    tagLoop (f node) out (l.map (Prod.map f id)) (s.rename f) = (tagLoop node out l s).rename f := by
  induction l generalizing s with
  | nil => rfl
  | cons p l ih =>
    obtain ⟨x, d⟩ := p
    simp only [List.map_cons, Prod.map, id, tagLoop, TagState.rename]
    have hg := indexRename_get? hf s.index (out, d, x)
    simp only at hg
    have hc : ((s.index.get? (out, d, x)).map (List.map f)).getD [] = ((s.index.get? (out, d, x)).getD []).map f := by
      cases s.index.get? (out, d, x) <;> rfl
    rw [hg, hc, countCandidates_rename hf]
    have hs := indexRename_set hf s.index (out, d, x) ((s.index.get? (out, d, x)).getD [] ++ [node])
    rw [List.map_append] at hs
    simp only [List.map_cons, List.map_nil] at hs
    rw [hs]
    exact ih ⟨d, s.norm + 1, countCandidates ((s.index.get? (out, d, x)).getD []) s.candidates,
      s.index.set (out, d, x) ((s.index.get? (out, d, x)).getD [] ++ [node])⟩

variable [Field K] [LinearOrder K]

theorem similarityLoop_rename [AttrVal (Val K)] (rnd : K → K) (g : Graph V A) (norms : Dict V Nat) (node : V) (norm : Nat) (l : Dict V Nat)
    (m : Graph V (Val K)) :
    similarityLoop rnd (g.mapNodes f) (norms.mapKeys f) (f node) norm (l.mapKeys f) (m.mapNodes f) =
      (similarityLoop rnd g norms node norm l m).map (Graph.mapNodes f) := by
  induction l generalizing m with
  | nil => rfl
  | cons p l ih =>
    obtain ⟨c, i⟩ := p
    have : Dict.mapKeys f ((c, i) :: l) = (f c, i) :: Dict.mapKeys f l := rfl
    simp only [this, similarityLoop, Dict.getItem_mapKeys hf, Graph.hasEdge_rename hf, Graph.addEdge_rename hf]
    cases norms.getItem c with
    | error e => rfl
    | ok cn =>
      simp only
      cases pyDiv ((i : Int) : K) (((norm : Int) + (if g.hasEdge c node = true then
          (if g.hasEdge node c = true then (cn : Int) - 2 else cn) - 2 else
          if g.hasEdge node c = true then (cn : Int) - 2 else cn) - i : Int) : K) with
      | error e => rfl
      | ok x =>
        simp only
        cases m.addEdge node c [(.str "weight", .num (rnd x))] with
        | error e => rfl
        | ok m => exact ih m

/-- C78.  `self_similarity_projection`, at any depth, whatever the rounding of the scores. -/
theorem selfSimilarityProjectionR_rename [AttrVal (Val K)] (rnd : K → K) (g : Graph V (Val K)) (depth : Int) :
    selfSimilarityProjectionR rnd (g.mapNodes f) depth = (selfSimilarityProjectionR rnd g depth).map (Graph.mapNodes f) := by
  have hl : ∀ (l : Dict V (Attrs (Val K))) (depth : Int) (norms : Dict V Nat) (index : Dict (Bool × Nat × V) (List V))
      (m : Graph V (Val K)), selfSimilarityLoop rnd (g.mapNodes f) (l.mapKeys f) depth (norms.mapKeys f) (indexRename f index)
        (m.mapNodes f) = (selfSimilarityLoop rnd g l depth norms index m).map (Graph.mapNodes f) := by
    intro l
    induction l with
    | nil => intros; rfl
    | cons p l ih =>
      intro depth norms index m
      obtain ⟨n, a⟩ := p
      have : Dict.mapKeys f ((n, a) :: l) = (f n, a) :: Dict.mapKeys f l := rfl
      simp only [this, selfSimilarityLoop, Graph.addNode_rename hf, bfsFromNode_rename hf, Gen.map]
      cases m.addNode n a with
      | error e => rfl
      | ok m =>
        simp only [Except.map]
        cases (bfsFromNode g n false depth).err with
        | some e => rfl
        | none =>
          have h1 : (⟨depth, 0, [], indexRename f index⟩ : TagState W) = TagState.rename f ⟨depth, 0, [], index⟩ := rfl
          simp only [h1, tagLoop_rename hf]
          generalize tagLoop n true (bfsFromNode g n false depth).yields ⟨depth, 0, [], index⟩ = s
          have h2 : (s.rename f).depth = s.depth := rfl
          simp only [h2]
          cases (bfsFromNode g n true s.depth).err with
          | some e => rfl
          | none =>
            simp only [tagLoop_rename hf]
            generalize tagLoop n false (bfsFromNode g n true s.depth).yields s = s
            have h3 : (s.rename f).norm = s.norm ∧ (s.rename f).depth = s.depth ∧
              (s.rename f).candidates = s.candidates.mapKeys f ∧ (s.rename f).index = indexRename f s.index := ⟨rfl, rfl, rfl, rfl⟩
            simp only [h3, Dict.set_mapKeys hf, similarityLoop_rename hf]
            cases similarityLoop rnd g (norms.set n s.norm) n s.norm s.candidates m with
            | error e => rfl
            | ok m => exact ih _ _ _ m
  unfold selfSimilarityProjectionR
  have hd : (g.mapNodes f).directed = g.directed := rfl
  rw [hd, Graph.order_rename]
  split
  · rfl
  · split
    · rfl
    · exact hl g.node depth [] [] (Graph.empty false false [])

/-- C78.  `self_similarity_projection`, at any depth. -/
theorem selfSimilarityProjection_rename [AttrVal (Val K)] (g : Graph V (Val K)) (depth : Int) :
    selfSimilarityProjection (g.mapNodes f) depth = (selfSimilarityProjection g depth).map (Graph.mapNodes f) :=
  selfSimilarityProjectionR_rename hf id g depth

end

/-! ### Monopartite projection -/

/-- The part, nodes being renamed. -/
def Part.rename (f : V → W) : Part V K → Part W K
  | .value x => .value x
  | .frozen ns r => .frozen (ns.map f) r
  | .collection ns => .collection (ns.map f)

section
variable [DecidableEq V] [DecidableEq W] {f : V → W} (hf : Function.Injective f)
include hf

theorem edge?_rename (g : Graph V A) (u v : V) (k : PyKey) : (g.mapNodes f).edge? (f u) (f v) k = g.edge? u v k := by
  unfold Graph.edge?
  rw [Graph.keydict?_rename hf]

omit hf [DecidableEq V] in
theorem edge?_rename_range (g : Graph V A) {x y : W} {k : PyKey} {a : Attrs A} (h : (g.mapNodes f).edge? x y k = some a) :
    ∃ u v, x = f u ∧ y = f v := by
  apply hasEdge_rename_range g
  unfold Graph.hasEdge
  unfold Graph.edge? at h
  cases hk : (g.mapNodes f).keydict? x y with
  | none => rw [hk] at h; cases h
  | some d => rfl

omit hf [DecidableEq V] in
theorem node_rename_range (g : Graph V A) {x : W} {a : Attrs A} (h : (g.mapNodes f).node.get? x = some a) :
    ∃ n, x = f n := by
  have : x ∈ (g.mapNodes f).nodes := by
    by_contra hn
    rw [(Dict.get?_eq_none_iff (d := (g.mapNodes f).node) (k := x)).2 hn] at h
    cases h
  rw [Graph.nodes_rename] at this
  obtain ⟨n, -, rfl⟩ := List.mem_map.1 this
  exact ⟨n, rfl⟩

theorem node_rename (g : Graph V A) (n : V) : (g.mapNodes f).node.get? (f n) = g.node.get? n := Dict.get?_mapKeys hf g.node n

/-- A graph that has the renamed nodes and edges of another one is that one renamed. -/
theorem same_rename {m : Graph V A} {m' : Graph W A} (hd : m'.directed = m.directed) (hm : m'.multi = m.multi)
    (ha : m'.attrs = m.attrs) (hn : ∀ n, m'.node.get? (f n) = m.node.get? n)
    (hn' : ∀ x a, m'.node.get? x = some a → ∃ n, x = f n)
    (he : ∀ u v k, m'.edge? (f u) (f v) k = m.edge? u v k)
    (he' : ∀ x y k a, m'.edge? x y k = some a → ∃ u v, x = f u ∧ y = f v) : m'.Same (m.mapNodes f) := by
  refine ⟨hd, hm, ha, fun x => ?_, fun x y k => ?_⟩
  · apply Option.ext
    intro a
    constructor
    · intro h
      obtain ⟨n, rfl⟩ := hn' x a h
      rw [node_rename hf, ← hn]; exact h
    · intro h
      obtain ⟨n, rfl⟩ := node_rename_range m h
      rw [hn, ← node_rename hf]; exact h
  · apply Option.ext
    intro a
    constructor
    · intro h
      obtain ⟨u, v, rfl, rfl⟩ := he' x y k a h
      rw [edge?_rename hf, ← he]; exact h
    · intro h
      obtain ⟨u, v, rfl, rfl⟩ := edge?_rename_range m h
      rw [he, ← edge?_rename hf]; exact h

theorem nbhd_rename (g : Graph V A) (n : V) : (g.mapNodes f).nbhd (f n) = (g.nbhd n).image f := by
  ext x
  simp only [Graph.nbhd, List.mem_toFinset, List.mem_filter, Finset.mem_image, Graph.nodes_rename, List.mem_map]
  constructor
  · rintro ⟨⟨u, hu, rfl⟩, he⟩
    rw [Graph.hasEdge_rename hf] at he
    exact ⟨u, ⟨hu, he⟩, rfl⟩
  · rintro ⟨u, ⟨hu, he⟩, rfl⟩
    exact ⟨⟨u, hu, rfl⟩, by rw [Graph.hasEdge_rename hf]; exact he⟩

variable [Field K] [LinearOrder K]

omit hf [LinearOrder K] in
theorem inPart_rename (hf : Function.Injective f) (g : Graph V (Val K)) (partAttr : String) (part : Part V K) (n : V) :
    InPart (g.mapNodes f) partAttr (part.rename f) (f n) ↔ InPart g partAttr part n := by
  cases part <;> simp only [InPart, Part.rename, node_rename hf, Graph.nodes_rename, mem_map_inj hf]

omit hf [DecidableEq V] [LinearOrder K] in
theorem inPart_rename_range (g : Graph V (Val K)) {partAttr : String} {part : Part V K} {x : W}
    (h : InPart (g.mapNodes f) partAttr (part.rename f) x) : ∃ n, x = f n := by
  cases part with
  | value v => obtain ⟨a, h, -⟩ := h; exact node_rename_range g h
  | frozen ns r =>
    obtain ⟨-, h⟩ := h
    obtain ⟨n, -, rfl⟩ := List.mem_map.1 h
    exact ⟨n, rfl⟩
  | collection ns =>
    obtain ⟨-, h⟩ := h
    obtain ⟨n, -, rfl⟩ := List.mem_map.1 h
    exact ⟨n, rfl⟩

omit [LinearOrder K] in
theorem similarity_rename [PyMath K] (kind : Metric) (A B : Finset V) (a b : W → K) :
    similarity kind (A.image f) (B.image f) a b = similarity kind A B (fun t => a (f t)) (fun t => b (f t)) := by
  have hi : A.image f ∩ B.image f = (A ∩ B).image f := (Finset.image_inter A B hf).symm
  have hu : A.image f ∪ B.image f = (A ∪ B).image f := (Finset.image_union A B).symm
  have hc : ∀ S : Finset V, (S.image f).card = S.card := fun S => Finset.card_image_of_injective S hf
  have hsum : ∀ (S : Finset V) (F : W → K), ∑ t ∈ S.image f, F t = ∑ t ∈ S, F (f t) :=
    fun S F => Finset.sum_image (fun x _ y _ h => hf h)
  cases kind <;> simp only [similarity, hi, hu, hc, hsum]

theorem noUnderflow_rename [PyMath K] (kind : Metric) (A B : Finset V) (a b : W → K) :
    NoUnderflow kind (A.image f) (B.image f) a b ↔ NoUnderflow kind A B (fun t => a (f t)) (fun t => b (f t)) := by
  have hi : A.image f ∩ B.image f = (A ∩ B).image f := (Finset.image_inter A B hf).symm
  have hc : ∀ S : Finset V, (S.image f).card = S.card := fun S => Finset.card_image_of_injective S hf
  have hsum : ∀ (S : Finset V) (F : W → K), ∑ t ∈ S.image f, F t = ∑ t ∈ S, F (f t) :=
    fun S F => Finset.sum_image (fun x _ y _ h => hf h)
  cases kind <;> simp only [NoUnderflow, hi, hc, hsum]

end

section
variable [LinearOrder V] [LinearOrder W] [PyOrd V] [PyOrd W] {f : V → W} (hf : Function.Injective f)
  [Field K] [LinearOrder K] [IsStrictOrderedRing K]
include hf

omit [IsStrictOrderedRing K] in
theorem projectable_rename (ho : OrderedKeys W) {g : Graph V (Val K)} {part : Part V K} {partAttr weightAttr : String}
    {kind : Metric} {check : Bool} {w : W → W → K}
    (h : Projectable g part partAttr weightAttr kind check (fun u v => w (f u) (f v))) :
    Projectable (g.mapNodes f) (part.rename f) partAttr weightAttr kind check w := by
  have hp := inPart_rename hf g partAttr part
  refine ⟨h.wf.mapNodes (fun a _ b _ hab => hf hab), h.undirected, h.simple, ?_, ?_, ?_, ?_, ?_, ?_, ?_, ?_⟩
  · intro ns r hfr
    cases part with
    | frozen ns r => exact h.notFrozen _ _ rfl
    | value x => cases hfr
    | collection ns => cases hfr
  · obtain ⟨n, hn⟩ := h.nonempty
    exact ⟨f n, (hp n).2 hn⟩
  · intro x y he
    obtain ⟨u, v, rfl, rfl⟩ := hasEdge_rename_range g he
    rw [hp, hp]
    exact h.bipartite u v (by rw [← Graph.hasEdge_rename hf]; exact he)
  · intro x y _ _
    exact ho x y
  · intro x a hna hin
    obtain ⟨n, rfl⟩ := node_rename_range g hna
    exact h.names n a (by rw [← node_rename hf]; exact hna) ((hp n).1 hin)
  · intro hc x hx y z a he
    obtain ⟨u, v, rfl, rfl⟩ := edge?_rename_range g he
    have hx' : part = .value x := by
      cases part with
      | value y => simpa [Part.rename] using hx
      | frozen ns r => cases hx
      | collection ns => cases hx
    exact h.edgeAttr hc x hx' u v a (by rw [← edge?_rename hf]; exact he)
  · intro hk x y a he
    obtain ⟨u, v, rfl, rfl⟩ := edge?_rename_range g he
    exact h.weights hk u v a (by rw [← edge?_rename hf]; exact he)
  · intro hk x hin hne
    obtain ⟨n, rfl⟩ := inPart_rename_range g hin
    rw [nbhd_rename hf] at hne ⊢
    obtain ⟨t, ht, hne'⟩ := h.cosine hk n ((hp n).1 hin) (Finset.image_nonempty.1 hne)
    exact ⟨f t, Finset.mem_image_of_mem f ht, hne'⟩

/-- C78.  `monopartite_projection`, whatever the metric and the rounding: the projection of the renamed graph is the renamed
projection. -/
theorem projection_rename [PyMath K] [AttrVal (Val K)] (ho : OrderedKeys W)
    {g : Graph V (Val K)} {part : Part V K} {partAttr weightAttr : String} {kind : Metric} {check : Bool} {w : V → V → K}
    (h : Projectable g part partAttr weightAttr kind check w)
    (hno : ∀ u v, InPart g partAttr part u → InPart g partAttr part v → (g.nbhd u ∩ g.nbhd v).Nonempty →
      NoUnderflow kind (g.nbhd u) (g.nbhd v) (w u) (w v))
    {metric : Option String} (hk : (metric, kind) ∈ metricNames)
    {threshold : Option (Val K)} (ht : ∀ v, threshold = some v → ∃ t, v.toNum = .ok t ∧ 0 < t) :
    ∃ m m', monopartiteProjection g part partAttr weightAttr metric check threshold = .ok m ∧
      monopartiteProjection (g.mapNodes f) (part.rename f) partAttr weightAttr metric check threshold = .ok m' ∧
      m'.Same (m.mapNodes f) := by
  obtain ⟨w', -, rfl⟩ := exists_weights_rename hf w
  have hp := inPart_rename hf g partAttr part
  have hpr := projectable_rename hf ho h
  have hin : ∀ u v, ((g.nbhd u).image f ∩ (g.nbhd v).image f).Nonempty ↔ (g.nbhd u ∩ g.nbhd v).Nonempty := by
    intro u v
    rw [← Finset.image_inter _ _ hf, Finset.image_nonempty]
  obtain ⟨m, h1, h2, h3⟩ := projection_rounded h hno hk ht
  obtain ⟨m', h1', h2', h3'⟩ := projection_rounded hpr (fun x y hx hy hne => by
    obtain ⟨u, rfl⟩ := inPart_rename_range g hx
    obtain ⟨v, rfl⟩ := inPart_rename_range g hy
    rw [nbhd_rename hf, nbhd_rename hf] at hne ⊢
    rw [noUnderflow_rename hf]
    exact hno u v ((hp u).1 hx) ((hp v).1 hy) ((hin u v).1 hne)) hk ht
  obtain ⟨a1, a2, a3, a4, _⟩ := projection_nodes_partial (h := h.wf) (hf := h.notFrozen) (hm := h1)
  obtain ⟨b1, b2, b3, b4, _⟩ := projection_nodes_partial (h := hpr.wf) (hf := hpr.notFrozen) (hm := h1')
  refine ⟨m, m', h1, h1', same_rename hf (b1.trans a1.symm) (b2.trans a2.symm) (b3.trans a3.symm) ?_ ?_ ?_ ?_⟩
  · intro n
    apply Option.ext
    intro a
    rw [a4, b4, hp, node_rename hf]
  · intro x a hx
    rw [b4] at hx
    exact inPart_rename_range g hx.1
  · intro u v k
    by_cases hk0 : k = .int 0
    · subst hk0
      apply Option.ext
      intro a
      rw [h3, h3']
      simp only [hp, hf.ne_iff, nbhd_rename hf, hin, similarity_rename hf]
    · rw [edge?_simple h2 a2 hk0, edge?_simple h2' b2 hk0]
  · intro x y k a hx
    by_cases hk0 : k = .int 0
    · subst hk0
      rw [h3'] at hx
      obtain ⟨u, rfl⟩ := inPart_rename_range g hx.2.1
      obtain ⟨v, rfl⟩ := inPart_rename_range g hx.2.2.1
      exact ⟨u, v, rfl, rfl⟩
    · rw [edge?_simple h2' b2 hk0] at hx; cases hx

end
end Pelote
