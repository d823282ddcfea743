import Verif.Spec.MapNodes
import Verif.Nx.Components
import Verif.Model.Components
import Verif.Model.Sparsification
import Mathlib.Logic.Function.Basic

/-! Renaming the nodes of a graph by an injective function commutes with every operation on graphs. -/
namespace Pelote
variable {V W A : Type} [DecidableEq V] [DecidableEq W]

/-- The dict whose keys are renamed by `f`. -/
def Dict.mapKeys {ν : Type} (f : V → W) (d : Dict V ν) : Dict W ν := d.map (fun p => (f p.1, p.2))

/-- The outcome of a generator, its items being translated. -/
def Gen.map {α β : Type} (t : α → β) (x : Gen α) : Gen β := ⟨x.yields.map t, x.err⟩

/-- An edge whose ends are renamed by `f`. -/
def mapEnds {B : Type} (f : V → W) (e : V × V × B) : W × W × B := (f e.1, f e.2.1, e.2.2)

section
variable {f : V → W} (hf : Function.Injective f)
include hf

theorem mem_map_inj {l : List V} {x : V} : f x ∈ l.map f ↔ x ∈ l := List.mem_map_of_injective hf

namespace Dict
variable {ν : Type}

theorem get?_mapKeys (d : Dict V ν) (k : V) : Dict.get? (d.mapKeys f) (f k) = d.get? k := by
  induction d with
  | nil => rfl
  | cons p d ih =>
    show (if f p.1 = f k then some p.2 else Dict.get? (mapKeys f d) (f k)) = if p.1 = k then some p.2 else Dict.get? d k
    simp only [hf.eq_iff, ih]

theorem set_mapKeys (d : Dict V ν) (k : V) (x : ν) : Dict.set (d.mapKeys f) (f k) x = mapKeys f (d.set k x) := by
  induction d with
  | nil => rfl
  | cons p d ih =>
    show (if f p.1 = f k then (f p.1, x) :: mapKeys f d else (f p.1, p.2) :: Dict.set (mapKeys f d) (f k) x) =
      mapKeys f (if p.1 = k then (p.1, x) :: d else (p.1, p.2) :: Dict.set d k x)
    simp only [hf.eq_iff, ih]
    split <;> rfl

theorem has_mapKeys (d : Dict V ν) (k : V) : Dict.has (d.mapKeys f) (f k) = d.has k := by
  unfold Dict.has; rw [get?_mapKeys hf]

theorem getItem_mapKeys (d : Dict V ν) (k : V) : Dict.getItem (d.mapKeys f) (f k) = d.getItem k := by
  unfold Dict.getItem; rw [get?_mapKeys hf]

theorem erase_mapKeys (d : Dict V ν) (k : V) : Dict.erase (d.mapKeys f) (f k) = mapKeys f (d.erase k) := by
  unfold Dict.erase mapKeys
  rw [List.filter_map]
  simp only [Function.comp_def, hf.eq_iff]

end Dict

theorem samePair_inj (d : Bool) (u v x y : V) : samePair d (f u) (f v) (f x) (f y) = samePair d u v x y := by
  unfold samePair
  simp only [hf.eq_iff]

namespace Graph
omit hf [DecidableEq V] [DecidableEq W] in
theorem nodes_rename (g : Graph V A) : (g.mapNodes f).nodes = g.nodes.map f := by
  unfold Graph.nodes Graph.mapNodes Dict.keys
  simp only [List.map_map]; rfl

omit hf [DecidableEq V] [DecidableEq W] in
theorem order_rename (g : Graph V A) : (g.mapNodes f).order = g.order := List.length_map _

theorem hasNode_rename (g : Graph V A) (n : V) : (g.mapNodes f).hasNode (f n) = g.hasNode n := Dict.has_mapKeys hf _ _

theorem nodeData_rename (g : Graph V A) (n : V) : (g.mapNodes f).nodeData (f n) = g.nodeData n :=
  Dict.getItem_mapKeys hf _ _

theorem adj_rename (g : Graph V A) (n : V) : (g.mapNodes f).adj (f n) = Dict.mapKeys f (g.adj n) := by
  unfold Graph.adj Graph.mapNodes Dict.mapKeys
  rw [List.filterMap_map, List.map_filterMap]
  congr 1
  funext l
  simp only [Function.comp, Link.from?, hf.eq_iff]
  split
  · rfl
  · split <;> rfl

theorem pred_rename (g : Graph V A) (n : V) : (g.mapNodes f).pred (f n) = Dict.mapKeys f (g.pred n) := by
  unfold Graph.pred Graph.mapNodes Dict.mapKeys
  rw [List.filterMap_map, List.map_filterMap]
  congr 1
  funext l
  simp only [Function.comp, Link.to?, Link.from?, hf.eq_iff]
  cases g.directed
  · by_cases h1 : l.u = n <;> by_cases h2 : l.v = n <;> simp [h1, h2]
  · by_cases h2 : l.v = n <;> simp [h2]

theorem neighbors_rename (g : Graph V A) (n : V) : (g.mapNodes f).neighbors (f n) = (g.neighbors n).map f := by
  unfold Graph.neighbors
  rw [adj_rename hf]
  unfold Dict.mapKeys
  rw [List.map_map, List.map_map]; rfl

theorem predecessors_rename (g : Graph V A) (n : V) : (g.mapNodes f).predecessors (f n) = (g.predecessors n).map f := by
  unfold Graph.predecessors
  rw [pred_rename hf]
  unfold Dict.mapKeys
  rw [List.map_map, List.map_map]; rfl

theorem keydict?_rename (g : Graph V A) (u v : V) : (g.mapNodes f).keydict? (f u) (f v) = g.keydict? u v := by
  unfold Graph.keydict? Graph.mapNodes
  rw [List.find?_map]
  simp only [Function.comp_def, samePair_inj hf, Option.map_map]

theorem hasEdge_rename (g : Graph V A) (u v : V) : (g.mapNodes f).hasEdge (f u) (f v) = g.hasEdge u v := by
  unfold Graph.hasEdge; rw [keydict?_rename hf]

theorem edgesFrom_rename (g : Graph V A) (seen ns : List V) :
    (g.mapNodes f).edgesFrom (seen.map f) (ns.map f) = (g.edgesFrom seen ns).map (mapEnds f) := by
  induction ns generalizing seen with
  | nil => rfl
  | cons n ns ih =>
    simp only [List.map_cons, Graph.edgesFrom, List.map_append]
    have := ih (n :: seen)
    rw [List.map_cons] at this
    rw [this, adj_rename hf]
    congr 1
    unfold Dict.mapKeys
    rw [List.filter_map, List.flatMap_map, List.map_flatMap]
    simp only [Function.comp_def, mem_map_inj hf, List.map_map]
    rfl

theorem edgesKeys_rename (g : Graph V A) : (g.mapNodes f).edgesKeys = g.edgesKeys.map (mapEnds f) := by
  unfold Graph.edgesKeys
  rw [nodes_rename]
  exact edgesFrom_rename hf g [] g.nodes

theorem edgesData_rename (g : Graph V A) : (g.mapNodes f).edgesData = g.edgesData.map (mapEnds f) := by
  unfold Graph.edgesData
  rw [edgesKeys_rename hf, List.map_map, List.map_map]; rfl

theorem edges_rename (g : Graph V A) : (g.mapNodes f).edges = g.edges.map (Prod.map f f) := by
  unfold Graph.edges
  rw [edgesKeys_rename hf, List.map_map, List.map_map]; rfl

theorem edgesOf_rename (g : Graph V A) (n : V) : (g.mapNodes f).edgesOf (f n) = (g.edgesOf n).map (mapEnds f) := by
  unfold Graph.edgesOf
  rw [adj_rename hf]
  unfold Dict.mapKeys
  rw [List.flatMap_map, List.map_flatMap]
  simp only [List.map_map]; rfl

theorem degree_rename (g : Graph V A) (n : V) : (g.mapNodes f).degree (f n) = g.degree n := by
  unfold Graph.degree
  rw [adj_rename hf, pred_rename hf]
  unfold Dict.mapKeys
  rw [List.filter_map]
  simp only [List.map_map, Function.comp_def, hf.eq_iff]
  rfl

theorem size_rename (g : Graph V A) : (g.mapNodes f).size = g.size := by
  unfold Graph.size
  rw [nodes_rename, List.map_map]
  simp only [Function.comp_def, degree_rename hf]

theorem addNodeCore_rename (g : Graph V A) (n : V) (a : Attrs A) :
    (g.mapNodes f).addNodeCore (f n) a = (g.addNodeCore n a).mapNodes f := by
  unfold Graph.addNodeCore
  have h1 : Dict.get? (g.mapNodes f).node (f n) = g.node.get? n := Dict.get?_mapKeys hf _ _
  rw [h1]
  have h2 : Dict.set (g.mapNodes f).node (f n) (((g.node.get? n).getD []).update a) =
      Dict.mapKeys f (g.node.set n (((g.node.get? n).getD []).update a)) := Dict.set_mapKeys hf _ _ _
  rw [h2]; rfl

theorem addNode_rename (g : Graph V A) (n : V) (a : Attrs A) :
    (g.mapNodes f).addNode (f n) a = (g.addNode n a).map (mapNodes f) := by
  unfold Graph.addNode
  cases checkKwargs ["self", "node_for_adding"] a with
  | error e => rfl
  | ok _ => simp only [addNodeCore_rename hf]; rfl

theorem ensureNode_rename (g : Graph V A) (n : V) : (g.mapNodes f).ensureNode (f n) = (g.ensureNode n).mapNodes f := by
  unfold Graph.ensureNode
  rw [hasNode_rename hf]
  split
  · rfl
  · simp only [mapNodes, List.map_append, List.map_cons, List.map_nil]

theorem addLink_rename (d m : Bool) (u v : V) (key : Option PyKey) (a : Attrs A) (ls : List (Link V A)) :
    addLink d m (f u) (f v) key a (ls.map (fun l => ⟨f l.u, f l.v, l.data⟩)) =
      (addLink d m u v key a ls).map (fun l => ⟨f l.u, f l.v, l.data⟩) := by
  induction ls with
  | nil => rfl
  | cons l ls ih =>
    simp only [List.map_cons, addLink, samePair_inj hf, ih]
    split <;> rfl

theorem addEdgeCore_rename (g : Graph V A) (u v : V) (key : Option PyKey) (a : Attrs A) :
    (g.mapNodes f).addEdgeCore (f u) (f v) key a = (g.addEdgeCore u v key a).mapNodes f := by
  unfold Graph.addEdgeCore
  simp only [ensureNode_rename hf]
  have := addLink_rename hf ((g.ensureNode u).ensureNode v).directed ((g.ensureNode u).ensureNode v).multi u v key a
    ((g.ensureNode u).ensureNode v).links
  simp only [mapNodes] at this ⊢
  rw [this]

theorem addEdge_rename [AttrVal A] (g : Graph V A) (u v : V) (a : Attrs A) :
    (g.mapNodes f).addEdge (f u) (f v) a = (g.addEdge u v a).map (mapNodes f) := by
  unfold Graph.addEdge
  have hm : (g.mapNodes f).multi = g.multi := rfl
  simp only [hm, addEdgeCore_rename hf]
  split
  · cases checkKwargs ["self", "u_for_edge", "v_for_edge"] a with
    | error e => rfl
    | ok _ =>
      cases a.get? (.str "key") with
      | none => rfl
      | some k => simp only; cases AttrVal.asKey k <;> rfl
  · cases checkKwargs ["self", "u_of_edge", "v_of_edge"] a <;> rfl

theorem addEdgeKey_rename (g : Graph V A) (u v : V) (k : PyKey) (a : Attrs A) :
    (g.mapNodes f).addEdgeKey (f u) (f v) k a = (g.addEdgeKey u v k a).map (mapNodes f) := by
  unfold Graph.addEdgeKey
  simp only [addEdgeCore_rename hf]
  cases checkKwargs ["self", "u_for_edge", "v_for_edge", "key"] a <;> rfl

theorem removeEdge_rename (g : Graph V A) (u v : V) :
    (g.mapNodes f).removeEdge (f u) (f v) = (g.removeEdge u v).mapNodes f := by
  unfold Graph.removeEdge
  simp only [mapNodes, List.filterMap_map, List.map_filterMap, Function.comp_def, samePair_inj hf]
  congr 2
  funext l
  by_cases h1 : samePair g.directed u v l.u l.v = true
  · by_cases h2 : (g.multi && decide (1 < List.length l.data)) = true <;> simp [h1, h2]
  · simp [h1]

theorem removeEdgesFrom_rename (g : Graph V A) (es : List (V × V)) :
    (g.mapNodes f).removeEdgesFrom (es.map (Prod.map f f)) = (g.removeEdgesFrom es).mapNodes f := by
  unfold Graph.removeEdgesFrom
  induction es generalizing g with
  | nil => rfl
  | cons e es ih =>
    simp only [List.map_cons, List.foldl_cons, Prod.map]
    rw [removeEdge_rename hf]
    exact ih _

theorem removeNodesFrom_rename (g : Graph V A) (ns : List V) :
    (g.mapNodes f).removeNodesFrom (ns.map f) = (g.removeNodesFrom ns).mapNodes f := by
  unfold Graph.removeNodesFrom
  induction ns generalizing g with
  | nil => rfl
  | cons n ns ih =>
    simp only [List.map_cons, List.foldl_cons]
    rw [← ih]
    congr 1
    have h1 : Dict.erase (g.mapNodes f).node (f n) = Dict.mapKeys f (g.node.erase n) := Dict.erase_mapKeys hf _ _
    rw [h1]
    simp only [mapNodes, List.filter_map, Function.comp_def, hf.eq_iff]
    rfl

theorem subgraph_rename (g : Graph V A) (ns : List V) :
    (g.mapNodes f).subgraph (ns.map f) = (g.subgraph ns).mapNodes f := by
  unfold Graph.subgraph
  simp only [mapNodes, List.filter_map, Function.comp_def, mem_map_inj hf]

end Graph
end
end Pelote
