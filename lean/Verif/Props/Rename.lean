import Verif.Lemmas.Rename
import Verif.Model.Learn
import Verif.Model.SpanningTrees
import Mathlib.Data.List.Sort

/-! Property C78: the names of nodes do not matter. -/
namespace Pelote
variable {V W A : Type} [DecidableEq V] [DecidableEq W] {f : V → W} (hf : Function.Injective f)

/-- The predicate on the original graph, given the one on the renamed graph. -/
def EdgePred.on (f : V → W) (p : EdgePred W A) : EdgePred V A := fun u v a => p (f u) (f v) a

@[inherit_doc EdgePred.on]
def NodePred.on (f : V → W) (p : NodePred W A) : NodePred V A := fun n a => p (f n) a

theorem EdgePred.on_apply (p : EdgePred W A) (u v : V) (a : Attrs A) : p.on f u v a = p (f u) (f v) a := rfl

theorem NodePred.on_apply (p : NodePred W A) (n : V) (a : Attrs A) : p.on f n a = p (f n) a := rfl

include hf

/-! ### Removing and filtering -/

omit hf [DecidableEq V] [DecidableEq W] in
theorem edgesToDrop_rename (p : EdgePred W A) (l : List (V × V × Attrs A)) :
    edgesToDrop p (l.map (mapEnds f)) = (edgesToDrop (p.on f) l).map (List.map (Prod.map f f)) := by
  induction l with
  | nil => rfl
  | cons e l ih =>
    obtain ⟨u, v, a⟩ := e
    simp only [List.map_cons, mapEnds, edgesToDrop, ih, EdgePred.on_apply]
    cases p (f u) (f v) a with
    | error e => rfl
    | ok b =>
      cases edgesToDrop (p.on f) l with
      | error e => rfl
      | ok es => cases b <;> rfl

/-- C78.  `remove_edges`. -/
theorem removeEdges_rename (g : Graph V A) (p : EdgePred W A) :
    removeEdges (g.mapNodes f) p = ((removeEdges g (p.on f)).1.mapNodes f, (removeEdges g (p.on f)).2) := by
  unfold removeEdges
  rw [Graph.edgesData_rename hf, edgesToDrop_rename]
  cases edgesToDrop (p.on f) g.edgesData with
  | error e => rfl
  | ok es => simp only [Except.map, Graph.removeEdgesFrom_rename hf]

omit hf [DecidableEq V] [DecidableEq W] in
theorem nodesToDrop_rename (p : NodePred W A) (l : Dict V (Attrs A)) :
    nodesToDrop p (l.mapKeys f) = (nodesToDrop (p.on f) l).map (List.map f) := by
  induction l with
  | nil => rfl
  | cons e l ih =>
    obtain ⟨n, a⟩ := e
    have : Dict.mapKeys f ((n, a) :: l) = (f n, a) :: Dict.mapKeys f l := rfl
    simp only [this, nodesToDrop, ih, NodePred.on_apply]
    cases p (f n) a with
    | error e => rfl
    | ok b =>
      cases nodesToDrop (p.on f) l with
      | error e => rfl
      | ok es => cases b <;> rfl

/-- C78.  `remove_nodes`. -/
theorem removeNodes_rename (g : Graph V A) (p : NodePred W A) :
    removeNodes (g.mapNodes f) p = ((removeNodes g (p.on f)).1.mapNodes f, (removeNodes g (p.on f)).2) := by
  unfold removeNodes
  have : nodesToDrop p (g.mapNodes f).node = (nodesToDrop (p.on f) g.node).map (List.map f) := nodesToDrop_rename p g.node
  rw [this]
  cases nodesToDrop (p.on f) g.node with
  | error e => rfl
  | ok es => simp only [Except.map, Graph.removeNodesFrom_rename hf]

/-- C78.  `remove_leaves`. -/
theorem removeLeaves_rename (g : Graph V A) :
    removeLeaves (g.mapNodes f) = ((removeLeaves g).1.mapNodes f, (removeLeaves g).2) := by
  unfold removeLeaves
  rw [removeNodes_rename hf]
  have : (NodePred.on f fun n (_ : Attrs A) => Except.ok (decide ((g.mapNodes f).degree n ≠ 1))) =
      (fun n _ => Except.ok (decide (g.degree n ≠ 1)) : NodePred V A) := by
    funext n a
    simp only [NodePred.on, Graph.degree_rename hf]
  rw [this]

theorem filterEdgesLoop_rename [AttrVal A] (p : EdgePred W A) (l : List (V × V × Attrs A)) (c : Graph V A) :
    filterEdgesLoop p (l.map (mapEnds f)) (c.mapNodes f) = (filterEdgesLoop (p.on f) l c).map (Graph.mapNodes f) := by
  induction l generalizing c with
  | nil => rfl
  | cons e l ih =>
    obtain ⟨u, v, a⟩ := e
    simp only [List.map_cons, mapEnds, filterEdgesLoop, Graph.addEdge_rename hf, EdgePred.on_apply]
    cases p (f u) (f v) a with
    | error e => rfl
    | ok b =>
      cases b with
      | false => exact ih c
      | true =>
        cases c.addEdge u v a with
        | error e => rfl
        | ok c => exact ih c

/-- C78.  `filter_edges`. -/
theorem filterEdges_rename [AttrVal A] (g : Graph V A) (p : EdgePred W A) :
    filterEdges (g.mapNodes f) p = (filterEdges g (p.on f)).map (Graph.mapNodes f) := by
  unfold filterEdges
  rw [Graph.edgesData_rename hf]
  exact filterEdgesLoop_rename hf p _ g.createEmptyCopy

/-! ### Comparing -/

/-- C78.  `are_same_graphs`. -/
theorem areSameGraphs_rename [DecidableEq A] (a b : Graph V A) (check : Bool) :
    areSameGraphs (a.mapNodes f) (b.mapNodes f) check = areSameGraphs a b check := by
  have hn : ∀ l : Dict V (Attrs A), haveSameNodesLoop (b.mapNodes f) check (l.mapKeys f) = haveSameNodesLoop b check l := by
    intro l
    induction l with
    | nil => rfl
    | cons e l ih =>
      obtain ⟨n, x⟩ := e
      have : Dict.mapKeys f ((n, x) :: l) = (f n, x) :: Dict.mapKeys f l := rfl
      simp only [this, haveSameNodesLoop, Graph.hasNode_rename hf, Graph.nodeData_rename hf, ih]
  have he : ∀ l : List (V × V × Attrs A), haveSameEdgesLoop (b.mapNodes f) check (l.map (mapEnds f)) =
      haveSameEdgesLoop b check l := by
    intro l
    induction l with
    | nil => rfl
    | cons e l ih =>
      obtain ⟨u, v, x⟩ := e
      have hx : edgeDataEq (b.mapNodes f) x (f u) (f v) = edgeDataEq b x u v := by
        unfold edgeDataEq
        rw [Graph.keydict?_rename hf]; rfl
      simp only [List.map_cons, mapEnds, haveSameEdgesLoop, Graph.hasEdge_rename hf, hx, ih]
  unfold areSameGraphs haveSameNodes haveSameEdges
  have h1 : haveSameNodesLoop (b.mapNodes f) check (a.mapNodes f).node = haveSameNodesLoop b check a.node := hn a.node
  rw [Graph.order_rename, Graph.order_rename, Graph.size_rename hf, Graph.size_rename hf, h1, Graph.edgesData_rename hf, he]

/-! ### Components -/

theorem setUpdate_rename (s xs : List V) : setUpdate (s.map f) (xs.map f) = (setUpdate s xs).map f := by
  unfold setUpdate
  induction xs generalizing s with
  | nil => rfl
  | cons x xs ih =>
    simp only [List.map_cons, List.foldl_cons, mem_map_inj hf]
    rw [← ih]
    congr 1
    split <;> simp

theorem bfsLevel_rename {nb : V → List V} {nb' : W → List W} (hnb : ∀ n, nb' (f n) = (nb n).map f) (l : List V)
    (s : List V × List V) :
    bfsLevel nb' (l.map f) (s.1.map f, s.2.map f) = ((bfsLevel nb l s).1.map f, (bfsLevel nb l s).2.map f) := by
  induction l generalizing s with
  | nil => rfl
  | cons v l ih =>
    simp only [List.map_cons, bfsLevel, mem_map_inj hf]
    split
    · exact ih s
    · rw [hnb, setUpdate_rename hf, ← ih (s.1 ++ [v], setUpdate s.2 (nb v))]
      simp

theorem bfsLoop_rename {nb : V → List V} {nb' : W → List W} (hnb : ∀ n, nb' (f n) = (nb n).map f) (fuel : Nat)
    (seen l : List V) : bfsLoop nb' fuel (seen.map f) (l.map f) = (bfsLoop nb fuel seen l).map (List.map f) := by
  induction fuel generalizing seen l with
  | zero => cases l <;> rfl
  | succ fuel ih =>
    cases l with
    | nil => rfl
    | cons v vs =>
      have := bfsLevel_rename hf hnb (v :: vs) (seen, [])
      simp only [List.map_cons, List.map_nil] at this
      simp only [List.map_cons, bfsLoop, this]
      exact ih _ _

theorem componentsLoop_rename {nb : V → List V} {nb' : W → List W} (hnb : ∀ n, nb' (f n) = (nb n).map f) (order : Nat)
    (l seen : List V) :
    componentsLoop nb' order (l.map f) (seen.map f) = (componentsLoop nb order l seen).map (List.map (List.map f)) := by
  induction l generalizing seen with
  | nil => rfl
  | cons v l ih =>
    simp only [List.map_cons, componentsLoop, mem_map_inj hf]
    split
    · exact ih seen
    · have : plainBfs nb' order (f v) = (plainBfs nb order v).map (List.map f) := bfsLoop_rename hf hnb (order + 1) [] [v]
      rw [this]
      cases plainBfs nb order v with
      | error e => rfl
      | ok c =>
        simp only [Except.map]
        rw [setUpdate_rename hf, ih]
        cases componentsLoop nb order l (setUpdate seen c) <;> rfl

theorem nxComponents_rename (g : Graph V A) : (g.mapNodes f).nxComponents = g.nxComponents.map (List.map (List.map f)) := by
  unfold Graph.nxComponents
  rw [Graph.order_rename, Graph.nodes_rename]
  refine componentsLoop_rename hf ?_ g.order g.nodes []
  intro n
  unfold Graph.anyNeighbors
  rw [Graph.neighbors_rename hf, Graph.predecessors_rename hf]
  have : (g.mapNodes f).directed = g.directed := rfl
  rw [this]
  split <;> simp

omit hf [DecidableEq V] [DecidableEq W] in
theorem largestLoop_rename (cs : List (List V)) (best : Option (List V)) (r : Int) :
    largestLoop (cs.map (List.map f)) (best.map (List.map f)) r = (largestLoop cs best r).map (List.map f) := by
  induction cs generalizing best r with
  | nil => rfl
  | cons c cs ih =>
    have step : ∀ x : List V, (if ((x.map f).length : Int) > r - (x.map f).length then some (x.map f)
        else largestLoop (cs.map (List.map f)) (some (x.map f)) (r - (x.map f).length)) =
        (if (x.length : Int) > r - x.length then some x else largestLoop cs (some x) (r - x.length)).map (List.map f) := by
      intro x
      rw [List.length_map]
      split
      · rfl
      · exact ih (some x) _
    cases best with
    | none => exact step c
    | some l =>
      simp only [List.map_cons, Option.map_some, largestLoop, List.length_map]
      by_cases h : l.length < c.length
      · simp only [h, if_true]; exact step c
      · simp only [h, if_false]; exact step l

/-- C78.  `largest_connected_component`. -/
theorem largestConnectedComponent_rename (g : Graph V A) :
    largestConnectedComponent (g.mapNodes f) = (largestConnectedComponent g).map (Option.map (List.map f)) := by
  unfold largestConnectedComponent
  rw [nxComponents_rename hf, Graph.order_rename]
  cases g.nxComponents with
  | error e => rfl
  | ok cs =>
    simp only [Except.map]
    rw [← largestLoop_rename]; rfl

/-- C78.  `crop_to_largest_connected_component`. -/
theorem cropToLargest_rename (g : Graph V A) :
    cropToLargest (g.mapNodes f) = ((cropToLargest g).1.mapNodes f, (cropToLargest g).2) := by
  unfold cropToLargest
  rw [largestConnectedComponent_rename hf]
  cases largestConnectedComponent g with
  | error e => rfl
  | ok c =>
    cases c with
    | none => rfl
    | some c =>
      simp only [Except.map, Option.map_some]
      rw [Graph.nodes_rename, List.filter_map]
      simp only [Function.comp_def, mem_map_inj hf, Graph.removeNodesFrom_rename hf]

theorem addNodes_rename (l : Dict V (Attrs A)) (s : Graph V A) :
    addNodes (l.mapKeys f) (s.mapNodes f) = (addNodes l s).map (Graph.mapNodes f) := by
  induction l generalizing s with
  | nil => rfl
  | cons e l ih =>
    obtain ⟨n, a⟩ := e
    have : Dict.mapKeys f ((n, a) :: l) = (f n, a) :: Dict.mapKeys f l := rfl
    simp only [this, addNodes, Graph.addNode_rename hf]
    cases s.addNode n a with
    | error e => rfl
    | ok s => exact ih s

theorem addComponentEdges_rename [AttrVal A] (c : List V) (l : List (V × V × Attrs A)) (s : Graph V A) :
    addComponentEdges (c.map f) (l.map (mapEnds f)) (s.mapNodes f) = (addComponentEdges c l s).map (Graph.mapNodes f) := by
  induction l generalizing s with
  | nil => rfl
  | cons e l ih =>
    obtain ⟨u, v, a⟩ := e
    simp only [List.map_cons, mapEnds, addComponentEdges, mem_map_inj hf, Graph.addEdge_rename hf]
    split
    · exact ih s
    · cases s.addEdge u v a with
      | error e => rfl
      | ok s => exact ih s

/-- C78.  `largest_connected_component_subgraph`. -/
theorem largestComponentSubgraph_rename [AttrVal A] (g : Graph V A) (asView : Bool) :
    largestComponentSubgraph (g.mapNodes f) asView = (largestComponentSubgraph g asView).map (Graph.mapNodes f) := by
  unfold largestComponentSubgraph
  rw [largestConnectedComponent_rename hf]
  cases largestConnectedComponent g with
  | error e => rfl
  | ok c =>
    have hc : (c.map (List.map f)).getD [] = (c.getD []).map f := by cases c <;> rfl
    have h1 : addNodes (g.mapNodes f).node (g.mapNodes f).createEmptyCopy =
        (addNodes g.node g.createEmptyCopy).map (Graph.mapNodes f) := addNodes_rename hf g.node g.createEmptyCopy
    simp only [Except.map, hc, h1, Graph.subgraph_rename hf, Graph.edgesData_rename hf]
    cases asView with
    | true => rfl
    | false =>
      cases addNodes g.node g.createEmptyCopy with
      | error e => rfl
      | ok s =>
        simp only [Bool.false_eq_true, if_false, Except.map, List.isEmpty_map]
        split
        · rfl
        · exact addComponentEdges_rename hf _ _ s

/-- The traversal whose nodes are renamed. -/
def Traversal.rename (f : V → W) (t : Traversal V V) : Traversal W W := ⟨t.graph.map f, t.items.map f, t.seen.map f⟩

theorem Traversal.append_rename (t : Traversal V V) (n : V) :
    ((t.rename f).append id (f n) none).1 = (t.append id n none).1.rename f := by
  unfold Traversal.append Traversal.rename
  simp only [mem_map_inj hf, id]
  by_cases h : n ∈ t.seen <;> simp [h]

theorem pushNeighbors_rename (p : Option (EdgePred W A)) (n : V) (l : List (V × V × PyKey × Attrs A)) (t : Traversal V V) :
    pushNeighbors p (f n) (l.map (mapEnds f)) (t.rename f) =
      (pushNeighbors (p.map (EdgePred.on f)) n l t).map (Traversal.rename f) := by
  induction l generalizing t with
  | nil => rfl
  | cons e l ih =>
    obtain ⟨u, v, k, a⟩ := e
    simp only [List.map_cons, mapEnds, pushNeighbors]
    have : follows p (f n) (f v) a = follows (p.map (EdgePred.on f)) n v a := by cases p <;> rfl
    rw [this]
    cases follows (p.map (EdgePred.on f)) n v a with
    | error e => rfl
    | ok b =>
      cases b with
      | false => exact ih t
      | true =>
        simp only [if_true]
        rw [Traversal.append_rename hf]
        exact ih _

theorem drainStack_rename (g : Graph V A) (p : Option (EdgePred W A)) (fuel : Nat) (t : Traversal V V) (size : Nat) :
    drainStack (g.mapNodes f) p fuel (t.rename f) size =
      (drainStack g (p.map (EdgePred.on f)) fuel t size).map (fun r => (r.1, r.2.rename f)) := by
  induction fuel generalizing t size with
  | zero =>
    unfold drainStack
    have : (t.rename f).len = t.len := List.length_map _
    rw [this]
    split <;> rfl
  | succ fuel ih =>
    unfold drainStack
    have : (t.rename f).len = t.len := List.length_map _
    rw [this]
    split
    · rfl
    · have hp : (t.rename f).pop = t.pop.map (fun r => (r.1.rename f, f r.2)) := by
        unfold Traversal.pop Traversal.rename
        simp only [List.getLast?_map]
        cases t.items.getLast? with
        | none => rfl
        | some i => simp only [Option.map_some, Except.map, List.map_dropLast]
      simp only [hp]
      cases t.pop with
      | error e => rfl
      | ok r =>
        obtain ⟨t, n⟩ := r
        simp only [Except.map]
        rw [Graph.edgesOf_rename hf, pushNeighbors_rename hf]
        cases pushNeighbors (p.map (EdgePred.on f)) n (g.edgesOf n) t with
        | error e => rfl
        | ok t => exact ih t _

theorem componentOrdersLoop_rename (g : Graph V A) (p : Option (EdgePred W A)) (l : List V) (t : Traversal V V) :
    componentOrdersLoop (g.mapNodes f) p (l.map f) (t.rename f) =
      componentOrdersLoop g (p.map (EdgePred.on f)) l t := by
  induction l generalizing t with
  | nil => rfl
  | cons n l ih =>
    simp only [List.map_cons, componentOrdersLoop]
    have h1 : (t.rename f).seenAll = t.seenAll := by
      unfold Traversal.seenAll Traversal.rename
      simp only [List.length_map]
    have h2 : (t.rename f).contains (f n) = t.contains n := by
      unfold Traversal.contains Traversal.rename
      simp only [mem_map_inj hf]
    rw [h1, h2, Traversal.append_rename hf, drainStack_rename hf, Graph.order_rename]
    split
    · rfl
    · split
      · exact ih t
      · cases drainStack g (p.map (EdgePred.on f)) g.order (t.append id n none).1 0 with
        | error e => rfl
        | ok r =>
          obtain ⟨size, t⟩ := r
          simp only [Except.map]
          rw [ih]

/-- C78.  `connected_component_orders`: the sizes, their order and the errors. -/
theorem connectedComponentOrders_rename (g : Graph V A) (p : Option (EdgePred W A)) :
    connectedComponentOrders (g.mapNodes f) p = connectedComponentOrders g (p.map (EdgePred.on f)) := by
  unfold connectedComponentOrders
  rw [Graph.nodes_rename]
  exact componentOrdersLoop_rename hf g p g.nodes (Traversal.init g.nodes)

/-- C78.  `largest_connected_component_order`. -/
theorem largestComponentOrder_rename (g : Graph V A) : largestComponentOrder (g.mapNodes f) = largestComponentOrder g := by
  unfold largestComponentOrder
  rw [connectedComponentOrders_rename hf, Graph.order_rename]
  rfl

/-- C78.  `second_largest_connected_component_order`. -/
theorem secondLargestComponentOrder_rename (g : Graph V A) (p : Option (EdgePred W A)) :
    secondLargestComponentOrder (g.mapNodes f) p = secondLargestComponentOrder g (p.map (EdgePred.on f)) := by
  unfold secondLargestComponentOrder
  rw [connectedComponentOrders_rename hf]

section numbers
variable {K : Type} [Field K] [LinearOrder K]

/-- C78.  `floatsam_threshold_learner`, whatever the rounding. -/
theorem floatsam_rename (rnd : K → K) (g : Graph V (Val K)) (start rate : K) (given : Option K) (attr : String)
    (o : OnEpoch K) (fuel : Nat) :
    floatsamR rnd (g.mapNodes f) start rate given attr o fuel = floatsamR rnd g start rate given attr o fuel := by
  have hl : ∀ (m : K) (fuel n : Nat) (t : K), floatsamLoopR rnd (g.mapNodes f) rate m attr o fuel n t =
      floatsamLoopR rnd g rate m attr o fuel n t := by
    intro m fuel
    induction fuel with
    | zero => intros; rfl
    | succ fuel ih =>
      intro n t
      simp only [floatsamLoopR]
      rw [secondLargestComponentOrder_rename hf]
      have : Option.map (EdgePred.on f) (some (floatsamFilter attr (rnd (t + rate)))) =
          some (floatsamFilter (V := V) attr (rnd (t + rate))) := rfl
      rw [this]
      simp only [ih]
  unfold floatsamR maxDrifterOrder
  rw [Graph.size_rename hf, largestComponentOrder_rename hf]
  cases o <;> cases given <;> simp only [hl]

/-! ### Spanning trees -/

/-- The disjoint set whose elements are renamed. -/
def DisjointSet.rename (f : V → W) (s : DisjointSet V) : DisjointSet W := ⟨s.uf, ⟨s.register.counter, s.register.index.mapKeys f⟩⟩

theorem IdRegister.lookup_rename (r : IdRegister V) (x : V) :
    IdRegister.lookup ⟨r.counter, r.index.mapKeys f⟩ (f x) =
      ((r.lookup x).1, ⟨(r.lookup x).2.counter, (r.lookup x).2.index.mapKeys f⟩) := by
  unfold IdRegister.lookup
  simp only [Dict.get?_mapKeys hf]
  cases r.index.get? x with
  | some i => rfl
  | none => simp only [Dict.set_mapKeys hf]

theorem DisjointSet.union_rename (s : DisjointSet V) (x y : V) :
    (s.rename f).union (f x) (f y) = ((s.union x y).1.rename f, (s.union x y).2) := by
  unfold DisjointSet.union DisjointSet.rename
  simp only [IdRegister.lookup_rename hf]

theorem DisjointSet.find_rename (s : DisjointSet V) (x : V) :
    (s.rename f).find (f x) = ((s.find x).1.rename f, (s.find x).2) := by
  unfold DisjointSet.find DisjointSet.rename
  simp only [IdRegister.lookup_rename hf]

theorem DisjointSet.areInSameSet_rename (s : DisjointSet V) (x y : V) :
    (s.rename f).areInSameSet (f x) (f y) = ((s.areInSameSet x y).1.rename f, (s.areInSameSet x y).2) := by
  unfold DisjointSet.areInSameSet
  rw [DisjointSet.find_rename hf]
  rcases h1 : s.find x with ⟨s1, _ | a⟩
  · rfl
  · simp only [DisjointSet.find_rename hf]
    rcases h2 : s1.find y with ⟨s2, _ | b⟩ <;> rfl

omit [Field K] [LinearOrder K] in
theorem flushBucket_rename {B : Type} (ds : DisjointSet V) (l : List (V × V × B)) :
    flushBucket (ds.rename f) (l.map (mapEnds f)) =
      ((flushBucket ds l).1.rename f, (flushBucket ds l).2.map (mapEnds f)) := by
  induction l generalizing ds with
  | nil => rfl
  | cons e l ih =>
    simp only [List.map_cons, flushBucket]
    have : (ds.rename f).union (mapEnds f e).1 (mapEnds f e).2.1 = ((ds.union e.1 e.2.1).1.rename f, (ds.union e.1 e.2.1).2) :=
      DisjointSet.union_rename hf ds e.1 e.2.1
    rw [this]
    rcases ds.union e.1 e.2.1 with ⟨ds', _ | b⟩
    · rfl
    · simp only [ih]
      rcases flushBucket ds' l with ⟨_, ⟨_, _⟩⟩
      rfl

theorem bucketLoop_rename {B : Type} (ds : DisjointSet V) (cur : Option K) (bucket : List (V × V × B))
    (l : List ((V × V × B) × K)) :
    bucketLoop (ds.rename f) cur (bucket.map (mapEnds f)) (l.map (fun p => (mapEnds f p.1, p.2))) =
      (bucketLoop ds cur bucket l).map (mapEnds f) := by
  induction l generalizing ds cur bucket with
  | nil => rfl
  | cons p l ih =>
    obtain ⟨e, w⟩ := p
    have hs : ∀ ds : DisjointSet V, (ds.rename f).areInSameSet (mapEnds f e).1 (mapEnds f e).2.1 =
        ((ds.areInSameSet e.1 e.2.1).1.rename f, (ds.areInSameSet e.1 e.2.1).2) :=
      fun ds => DisjointSet.areInSameSet_rename hf ds e.1 e.2.1
    have hnew : (match flushBucket (ds.rename f) (bucket.map (mapEnds f)) with
        | (_, ⟨ys, some x⟩) => ⟨ys, some x⟩
        | (ds, ⟨ys, none⟩) =>
          match ds.areInSameSet (mapEnds f e).1 (mapEnds f e).2.1 with
          | (_, .error x) => ⟨ys, some x⟩
          | (ds, .ok b) =>
            match bucketLoop ds (some w) (if b then [] else [mapEnds f e]) (l.map (fun p => (mapEnds f p.1, p.2))) with
            | ⟨zs, err⟩ => ⟨ys ++ zs, err⟩ : Gen (W × W × B)) =
        Gen.map (mapEnds f) (match flushBucket ds bucket with
        | (_, ⟨ys, some x⟩) => ⟨ys, some x⟩
        | (ds, ⟨ys, none⟩) =>
          match ds.areInSameSet e.1 e.2.1 with
          | (_, .error x) => ⟨ys, some x⟩
          | (ds, .ok b) =>
            match bucketLoop ds (some w) (if b then [] else [e]) l with
            | ⟨zs, err⟩ => ⟨ys ++ zs, err⟩) := by
      rw [flushBucket_rename hf]
      rcases flushBucket ds bucket with ⟨ds', ⟨ys, _ | x⟩⟩
      · simp only [Gen.map, hs]
        rcases ds'.areInSameSet e.1 e.2.1 with ⟨ds'', _ | b⟩
        · rfl
        · have := ih ds'' (some w) (if b = true then [] else [e])
          rw [show (if b = true then [] else [e]).map (mapEnds f) = if b = true then [] else [mapEnds f e] by
            cases b <;> rfl] at this
          simp only [this, Gen.map, List.map_append]
      · rfl
    have hsame : (match (ds.rename f).areInSameSet (mapEnds f e).1 (mapEnds f e).2.1 with
        | (_, .error x) => ⟨[], some x⟩
        | (ds, .ok b) => bucketLoop ds cur (if b then bucket.map (mapEnds f) else bucket.map (mapEnds f) ++ [mapEnds f e])
            (l.map (fun p => (mapEnds f p.1, p.2))) : Gen (W × W × B)) =
        Gen.map (mapEnds f) (match ds.areInSameSet e.1 e.2.1 with
        | (_, .error x) => ⟨[], some x⟩
        | (ds, .ok b) => bucketLoop ds cur (if b then bucket else bucket ++ [e]) l) := by
      rw [hs]
      rcases ds.areInSameSet e.1 e.2.1 with ⟨ds', _ | b⟩
      · rfl
      · have := ih ds' cur (if b = true then bucket else bucket ++ [e])
        rw [show (if b = true then bucket else bucket ++ [e]).map (mapEnds f) =
          if b = true then bucket.map (mapEnds f) else bucket.map (mapEnds f) ++ [mapEnds f e] by
            cases b <;> simp] at this
        simp only [this]
    cases cur with
    | none => exact hnew
    | some c =>
      simp only [List.map_cons, bucketLoop]
      by_cases hcw : c - w > weightEpsilon
      · simp only [hcw, decide_true]; exact hnew
      · simp only [hcw, decide_false]; exact hsame

omit hf [DecidableEq V] [DecidableEq W] [LinearOrder K] in
theorem weighted_rename (attr : String) (l : List (V × V × Attrs (Val K))) :
    weighted attr (l.map (mapEnds f)) = (weighted attr l).map (List.map (fun p => (mapEnds f p.1, p.2))) := by
  induction l with
  | nil => rfl
  | cons e l ih =>
    simp only [List.map_cons, weighted, ih]
    have : weightOf attr (mapEnds f e).2.2 = weightOf attr e.2.2 := rfl
    rw [this]
    cases weightOf attr e.2.2 with
    | error e => rfl
    | ok w => cases weighted attr l <;> rfl

omit hf [DecidableEq V] [DecidableEq W] [LinearOrder K] in
theorem sortKeys_rename (attr : String) (l : List (V × V × Attrs (Val K))) :
    sortKeys attr (l.map (mapEnds f)) = (sortKeys attr l).map (List.map (fun p => (mapEnds f p.1, p.2))) := by
  match l with
  | [] => rfl
  | [_] => rfl
  | a :: b :: l => exact weighted_rename attr (a :: b :: l)

/-- C78.  `union_of_maximum_spanning_trees`: the edges, their order and the errors. -/
theorem unionOfMaximumSpanningTrees_rename (ulongMax : Nat) (g : Graph V (Val K)) (attr : String) :
    unionOfMaximumSpanningTrees ulongMax (g.mapNodes f) attr =
      (unionOfMaximumSpanningTrees ulongMax g attr).map (mapEnds f) := by
  unfold unionOfMaximumSpanningTrees
  rw [Graph.size_rename hf, Graph.edgesData_rename hf, sortKeys_rename, Graph.order_rename]
  split
  · rfl
  · cases sortKeys attr g.edgesData with
    | error e => rfl
    | ok es =>
      simp only [Except.map]
      unfold DisjointSet.init
      cases UnionFind.init ulongMax g.order with
      | error e => rfl
      | ok uf =>
        simp only
        have : sortByWeight (es.map (fun p => (mapEnds f p.1, p.2))) =
            (sortByWeight es).map (fun p => (mapEnds f p.1, p.2)) := by
          unfold sortByWeight pySortedRev
          exact (List.map_insertionSort _ _ (fun p : (V × V × Attrs (Val K)) × K => (mapEnds f p.1, p.2)) es
            (fun a _ b _ => Iff.rfl)).symm
        rw [this]
        exact bucketLoop_rename hf ⟨uf, IdRegister.init⟩ none [] _

end numbers
end Pelote
