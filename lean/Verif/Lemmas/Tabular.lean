import Verif.Model.Tabular
import Verif.Lemmas.Insert

/-! Lemmas about counting rows as edge weights. -/
namespace Pelote

theorem Dict.set_set {κ ν : Type} [DecidableEq κ] (d : Dict κ ν) (k : κ) (v w : ν) :
    (d.set k v).set k w = d.set k w := by
  induction d with
  | nil => simp [Dict.set]
  | cons p d ih =>
    obtain ⟨k', v'⟩ := p
    by_cases h : k' = k
    · simp [Dict.set, h]
    · simp [Dict.set, h, ih]

theorem map_links_eq_addLink {V A : Type} [DecidableEq V] {d : Bool} {u v : V} {b : Attrs A} {x : Dict PyKey (Attrs A)}
    {L : List (Link V A)} (hu : L.Pairwise (fun l m => samePair d l.u l.v m.u m.v = false))
    (hx : ∃ l ∈ L, samePair d u v l.u l.v = true)
    (hb : ∀ l ∈ L, samePair d u v l.u l.v = true → Graph.addToData false l.data none b = x) :
    L.map (fun l => if samePair d l.u l.v u v then { l with data := x } else l) =
      Graph.addLink d false u v none b L := by
  induction L with
  | nil => obtain ⟨l, hl, _⟩ := hx; cases hl
  | cons l L ih =>
    rw [List.pairwise_cons] at hu
    rw [List.map_cons]
    unfold Graph.addLink
    by_cases hs : samePair d u v l.u l.v = true
    · rw [if_pos hs, samePair_comm, if_pos hs, hb l List.mem_cons_self hs]
      congr 1
      conv => rhs; rw [← List.map_id L]
      apply List.map_congr_left
      intro m hm
      have h1 := hu.1 m hm
      have h2 : samePair d m.u m.v u v = false := by
        rw [samePair_comm, samePair_trans hs]
        exact h1
      rw [h2]; simp
    · rw [if_neg hs, samePair_comm, if_neg hs]
      congr 1
      refine ih hu.2 ?_ (fun m hm => hb m (List.mem_cons_of_mem _ hm))
      obtain ⟨m, hm, h⟩ := hx
      rcases List.mem_cons.1 hm with rfl | hm
      · exact absurd h hs
      · exact ⟨m, hm, h⟩

/-- `graph[u][v][attr] += 1` is adding the edge again with the incremented attribute. -/
theorem incrementEdge_eq {g : Graph PyKey Data} (hwf : g.WF) (hm : g.multi = false) {u v : PyKey} {w : String}
    {a : Attrs Data} {i : Int} (hk : g.keydict? u v = some [(.int 0, a)]) (ha : a.get? (.str w) = some (.int i)) :
    incrementEdge g u v w = .ok (g.addEdgeCore u v none [(.str w, .int (i + 1))]) := by
  unfold incrementEdge
  have h0 : (g.keydict? u v).bind (fun d => d.get? (.int 0)) = some a := by rw [hk]; rfl
  rw [h0]
  simp only [Dict.getItem, ha, Data.plusOne]
  congr 1
  obtain ⟨l, hl, hs, hd⟩ := (Graph.keydict?_eq_some hwf).1 hk
  have hends := hwf.ends l hl
  have hu : u ∈ g.nodes ∧ v ∈ g.nodes := by
    rcases samePair_iff.1 hs with ⟨rfl, rfl⟩ | ⟨_, rfl, rfl⟩
    · exact hends
    · exact hends.symm
  have hx : g.addEdgeCore u v none [(.str w, .int (i + 1))] =
      { g with links := Graph.addLink g.directed g.multi u v none [(.str w, .int (i + 1))] g.links } := by
    unfold Graph.addEdgeCore
    rw [Graph.ensureNode_of_mem hu.1, Graph.ensureNode_of_mem hu.2]
  rw [hx, hm]
  have hdat : ∀ m ∈ g.links, samePair g.directed u v m.u m.v = true → m.data = [(.int 0, a)] := by
    intro m hm hs
    have := (Graph.keydict?_eq_some hwf).2 ⟨m, hm, hs, rfl⟩
    rw [hk] at this
    exact (Option.some.inj this).symm
  have hmap : g.links.map (fun l =>
      if samePair g.directed l.u l.v u v then { l with data := l.data.set (.int 0) (a.set (.str w) (.int (i + 1))) } else l) =
      g.links.map (fun l =>
      if samePair g.directed l.u l.v u v then { l with data := [(.int 0, a.set (.str w) (.int (i + 1)))] } else l) := by
    apply List.map_congr_left
    intro m hm
    split
    · rename_i hs
      rw [samePair_comm] at hs
      rw [hdat m hm hs]
      simp [Dict.set]
    · rfl
  rw [hmap, map_links_eq_addLink hwf.uniq ⟨l, hl, hs⟩]
  intro m hm hs
  rw [hdat m hm hs]
  simp [Graph.addToData, Dict.set, Dict.get?, Dict.update]

/-- Lines 168-172 and 197-202 of pelote/tabular_to_graph.py. -/
def countRow (g : Graph PyKey Data) (n1 n2 : PyKey) (d : Attrs Data) (w : String) : Py (Graph PyKey Data) :=
  if g.hasEdge n1 n2 then incrementEdge g n1 n2 w else g.addEdge n1 n2 (d.set (.str w) (.int 1))

theorem countEdge_eq (g : Graph PyKey Data) (n1 n2 : PyKey) (w : String) :
    countEdge g n1 n2 w = countRow g n1 n2 [] w := rfl

/-- The rows between two given nodes. -/
def pairRows (directed : Bool) (x y : PyKey) (S : List (PyKey × PyKey × Attrs Data)) :
    List (PyKey × PyKey × Attrs Data) := S.filter (fun e => samePair directed e.1 e.2.1 x y)

/-- The key dict expected between two nodes: the data of the first row, and the number of rows as weight. -/
def expectedCount (directed : Bool) (w : String) (S : List (PyKey × PyKey × Attrs Data)) (x y : PyKey) :
    Option (Dict PyKey (Attrs Data)) :=
  match pairRows directed x y S with
  | [] => none
  | e :: L => some [(.int 0, e.2.2.set (.str w) (.int ((L.length + 1 : Nat) : Int)))]

/-- The rows counted so far. -/
structure Counted (g : Graph PyKey Data) (w : String) (S : List (PyKey × PyKey × Attrs Data)) : Prop where
  wf : g.WF
  multi : g.multi = false
  edges : ∀ x y, g.keydict? x y = expectedCount g.directed w S x y
  nodup : ∀ e ∈ S, e.2.2.keys.Nodup

theorem pairRows_append (d : Bool) (x y : PyKey) (S T : List (PyKey × PyKey × Attrs Data)) :
    pairRows d x y (S ++ T) = pairRows d x y S ++ pairRows d x y T := by
  unfold pairRows; rw [List.filter_append]

theorem pairRows_samePair {d : Bool} {u v x y : PyKey} (h : samePair d u v x y = true)
    (S : List (PyKey × PyKey × Attrs Data)) : pairRows d u v S = pairRows d x y S := by
  unfold pairRows
  apply List.filter_congr
  intro e _
  rw [samePair_comm, samePair_trans h, samePair_comm]

/-- What `countRow` gives: the edge added with some attributes. -/
def countAttrs (g : Graph PyKey Data) (n1 n2 : PyKey) (d : Attrs Data) (w : String)
    (S : List (PyKey × PyKey × Attrs Data)) : Attrs Data :=
  if g.hasEdge n1 n2 then [(.str w, .int (((pairRows g.directed n1 n2 S).length + 1 : Nat) : Int))]
  else d.set (.str w) (.int 1)

theorem countRow_eq {g : Graph PyKey Data} {w : String} {S : List (PyKey × PyKey × Attrs Data)} (h : Counted g w S)
    (n1 n2 : PyKey) (d : Attrs Data) :
    countRow g n1 n2 d w =
      if g.hasEdge n1 n2 then .ok (g.addEdgeCore n1 n2 none (countAttrs g n1 n2 d w S))
      else g.addEdge n1 n2 (countAttrs g n1 n2 d w S) := by
  unfold countRow countAttrs
  split
  · rename_i he
    have hk := h.edges n1 n2
    unfold expectedCount at hk
    rcases hp : pairRows g.directed n1 n2 S with _ | ⟨e, L⟩
    · rw [hp] at hk
      unfold Graph.hasEdge at he
      rw [hk] at he; cases he
    · rw [hp] at hk
      rw [incrementEdge_eq h.wf h.multi hk (Dict.get?_set_self _ _ _)]
      simp
  · rfl

theorem Counted.step {g : Graph PyKey Data} {w : String} {S : List (PyKey × PyKey × Attrs Data)} (h : Counted g w S)
    {n1 n2 : PyKey} {d : Attrs Data} (hd : d.keys.Nodup) :
    Counted (g.addEdgeCore n1 n2 none (countAttrs g n1 n2 d w S)) w (S ++ [(n1, n2, d)]) := by
  refine ⟨h.wf.addEdgeCore _ _ _ _, by rw [Graph.addEdgeCore_multi, h.multi], ?_, ?_⟩
  · intro x y
    rw [Graph.keydict?_addEdgeCore, Graph.addEdgeCore_directed]
    unfold expectedCount
    rw [pairRows_append]
    by_cases hs : samePair g.directed n1 n2 x y = true
    · rw [if_pos hs, h.multi]
      have e1 : pairRows g.directed x y [(n1, n2, d)] = [(n1, n2, d)] := by
        simp [pairRows, hs]
      rw [e1, ← pairRows_samePair hs]
      have hk := h.edges n1 n2
      unfold expectedCount at hk
      unfold countAttrs Graph.hasEdge
      rcases hp : pairRows g.directed n1 n2 S with _ | ⟨e, L⟩
      · rw [hp] at hk
        rw [hk]
        simp only [Option.isSome_none, Bool.false_eq_true, if_false, List.nil_append, Option.getD_none,
          List.length_nil]
        simp only [Graph.addToData, Bool.false_eq_true, if_false, Dict.get?_nil, Option.getD_none, Dict.set]
        rw [Dict.update_nil_left (Dict.nodup_set _ _ hd)]
        simp
      · rw [hp] at hk
        rw [hk]
        simp only [Option.isSome_some, if_true, List.cons_append, Option.getD_some]
        simp only [Graph.addToData, Bool.false_eq_true, if_false, Dict.get?_cons, if_true, Option.getD_some, Dict.set,
          Dict.update_cons, Dict.update_nil]
        rw [Dict.set_set]
        simp
    · rw [if_neg hs, h.edges x y]
      have e1 : pairRows g.directed x y [(n1, n2, d)] = [] := by
        simp [pairRows, hs]
      rw [e1, List.append_nil]
      rfl
  · intro e he
    rcases List.mem_append.1 he with he | he
    · exact h.nodup e he
    · rw [List.mem_singleton] at he; rw [he]; exact hd

end Pelote
