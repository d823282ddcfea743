import Verif.Lemmas.Graphology
import Verif.Lemmas.Insert

/-! Reading any graphology document. -/
namespace Pelote

theorem asNode_ofKey (k : PyKey) : (Data.ofKey k).asNode = .ok k := by
  cases k <;> rfl

theorem asHashable_ofKey (k : PyKey) : (Data.ofKey k).asHashable = .ok k := by
  cases k <;> rfl

theorem getD_describesAttrs {f : Dict PyKey Data} {a : Attrs Data} (h : DescribesAttrs f a) :
    (f.get? (.str "attributes")).getD (.dict []) = .dict a := by
  rcases h with ⟨h1, rfl⟩ | h1 <;> rw [h1] <;> rfl

theorem readNodes_described {l : List Data} {N : List SNode} (h : List.Forall₂ DescribesNode l N)
    (hkw : ∀ n ∈ N, Graph.NodeKwSafe n.attrs) (g : Graph PyKey Data) :
    readNodes l g = .ok (g.addNodes (N.map (fun n => (n.key, n.attrs)))) := by
  induction h generalizing g with
  | nil => rfl
  | cons hd _ ih =>
    rename_i d n l N _h
    obtain ⟨f, rfl, h1, h2⟩ := hd
    unfold readNodes
    simp only [Data.getD, Data.item, Dict.getItem, getD_describesAttrs h2, h1, Data.asKwargs, asNode_ofKey,
      Graph.addNode_ok (hkw n List.mem_cons_self)]
    rw [ih (fun n hn => hkw n (List.mem_cons_of_mem _ hn))]
    rfl

theorem mixedValid_described {f : Dict PyKey Data} {e : SEdge} {directed : Bool}
    (h : (e.undirected = false ∧ f.get? (.str "undirected") = none) ∨
      f.get? (.str "undirected") = some (.bool e.undirected)) :
    mixedValid directed (.dict f) = .ok (decide (e.undirected = !directed)) := by
  unfold mixedValid
  simp only [Data.getD]
  rcases h with ⟨h1, h2⟩ | h2 <;> rw [h2]
  · simp [Data.eqBool, h1]
  · simp [Data.eqBool]

theorem readAddEdge_described {f : Dict PyKey Data} {e : SEdge} {g : Graph PyKey Data}
    (hk : (e.key = none ∧ (f.get? (.str "key") = none ∨ f.get? (.str "key") = some .none)) ∨
      ∃ k, e.key = some k ∧ f.get? (.str "key") = some (Data.ofKey k))
    (hkw : Graph.EdgeKwSafe g.multi e.attrs) :
    readAddEdge g g.multi (Data.ofKey e.source) (Data.ofKey e.target) ((f.get? (.str "key")).getD .none) e.attrs =
      .ok (g.addEdgeCore e.source e.target (if g.multi then e.key else none) e.attrs) := by
  unfold readAddEdge
  simp only [asNode_ofKey]
  rcases hk with ⟨hk, h1 | h1⟩ | ⟨k, hk, h1⟩
  · rw [h1, hk]
    simp only [Option.getD_none, Graph.addEdge_ok hkw, ite_self]
  · rw [h1, hk]
    simp only [Option.getD_some, Graph.addEdge_ok hkw, ite_self]
  · rw [h1, hk]
    suffices hs : (if g.multi = true then g.addEdgeKey e.source e.target k e.attrs
        else g.addEdge e.source e.target e.attrs) =
        .ok (g.addEdgeCore e.source e.target (if g.multi = true then some k else none) e.attrs) by
      cases k <;> exact hs
    by_cases hm : g.multi = true
    · rw [if_pos hm, if_pos hm]
      unfold Graph.addEdgeKey
      rw [Graph.checkKwargs_ok]
      have := hkw
      rw [hm] at this
      simpa [Graph.EdgeKwSafe] using this
    · rw [if_neg hm, if_neg hm, Graph.addEdge_ok hkw]

theorem readEdges_described {l : List Data} {E : List SEdge} (h : List.Forall₂ DescribesEdge l E)
    {mixed directed : Bool} (g : Graph PyKey Data) (hkw : ∀ e ∈ E, Graph.EdgeKwSafe g.multi e.attrs)
    (hm : mixed = true → ∀ e ∈ E, e.undirected = !directed) :
    readEdges mixed directed g.multi l g = .ok (g.addKeyed (E.map (SEdge.entry g.multi))) := by
  induction h generalizing g with
  | nil => rfl
  | cons hd _ ih =>
    rename_i d e l E _h
    obtain ⟨f, rfl, h1, h2, h3, h4, h5⟩ := hd
    unfold readEdges
    have hv : (if mixed = true then mixedValid directed (.dict f) else .ok true) = (.ok true : Py Bool) := by
      by_cases hx : mixed = true
      · rw [if_pos hx, mixedValid_described h4, hm hx e List.mem_cons_self]; simp
      · rw [if_neg hx]
    simp only [Data.getD, Data.item, Dict.getItem, getD_describesAttrs h5, h1, h2, hv, Data.asKwargs]
    rw [readAddEdge_described h3 (hkw e List.mem_cons_self)]
    simp only
    have hmulti : (g.addEdgeCore e.source e.target (if g.multi then e.key else none) e.attrs).multi = g.multi :=
      Graph.addEdgeCore_multi ..
    have := ih (g.addEdgeCore e.source e.target (if g.multi then e.key else none) e.attrs)
      (by intro e he; rw [hmulti]; exact hkw e (List.mem_cons_of_mem _ he))
      (fun hx e he => hm hx e (List.mem_cons_of_mem _ he))
    rw [hmulti] at this
    rw [this]
    rfl

theorem readEdges_mixed {l : List Data} {E : List SEdge} (h : List.Forall₂ DescribesEdge l E)
    {directed : Bool} (g : Graph PyKey Data) (hkw : ∀ e ∈ E, Graph.EdgeKwSafe g.multi e.attrs)
    (hm : ∃ e ∈ E, e.undirected = directed) :
    readEdges true directed g.multi l g = .error (.typeError "cannot parse true mixed graphs") := by
  induction h generalizing g with
  | nil => obtain ⟨e, he, _⟩ := hm; cases he
  | cons hd _ ih =>
    rename_i d e l E _h
    obtain ⟨f, rfl, h1, h2, h3, h4, h5⟩ := hd
    unfold readEdges
    simp only [Data.getD, Data.item, Dict.getItem, getD_describesAttrs h5, h1, h2, if_true,
      mixedValid_described h4, Data.asKwargs]
    by_cases hu : e.undirected = !directed
    · simp only [hu, decide_true]
      rw [readAddEdge_described h3 (hkw e List.mem_cons_self)]
      simp only
      have hmulti : (g.addEdgeCore e.source e.target (if g.multi then e.key else none) e.attrs).multi = g.multi :=
        Graph.addEdgeCore_multi ..
      have := ih (g.addEdgeCore e.source e.target (if g.multi then e.key else none) e.attrs)
        (by intro e he; rw [hmulti]; exact hkw e (List.mem_cons_of_mem _ he))
        (by
          obtain ⟨x, hx, hxu⟩ := hm
          rcases List.mem_cons.1 hx with rfl | hx
          · rw [hu] at hxu; cases directed <;> cases hxu
          · exact ⟨x, hx, hxu⟩)
      rw [hmulti] at this
      exact this
    · simp only [hu, decide_false]

theorem mixedDirected_described {o : Option Data} {E : List SEdge} (h : DescribesList DescribesEdge o E) :
    mixedDirected (o.getD .none) = .ok (match E with | [] => true | e :: _ => !e.undirected) := by
  rcases h with ⟨rfl, rfl | rfl⟩ | ⟨d, rfl, h⟩
  · rfl
  · rfl
  · cases h with
    | nil => rfl
    | cons hd _ =>
      obtain ⟨f, rfl, _, _, _, h4, _⟩ := hd
      unfold mixedDirected
      simp only [Option.getD_some, Data.truthy, List.isEmpty_cons, Bool.not_false, if_true, Data.first, Data.getD]
      rcases h4 with ⟨h1, h2⟩ | h2 <;> rw [h2]
      · simp [h1, Data.truthy]
      · simp [Data.truthy]

/-- The kind of graph a document asks for. -/
def docDirected (type : String) (E : List SEdge) : Bool :=
  if type = "mixed" then (match E with | [] => true | e :: _ => !e.undirected) else decide (type = "directed")

theorem parse_described {data : Dict PyKey Data} {type : String} {multi : Bool} {attrs : Attrs Data}
    {N : List SNode} {E : List SEdge} (h : DescribesGraph data type multi attrs N E)
    (hl : Loadable multi attrs N E) :
    parseGraphologyJson data =
      if type = "mixed" ∧ ∃ e ∈ E, e.undirected = docDirected type E then
        .error (.typeError "cannot parse true mixed graphs")
      else
        .ok (((Graph.empty (docDirected type E) multi attrs).addNodes (N.map (fun n => (n.key, n.attrs)))).addKeyed
          (E.map (SEdge.entry multi))) := by
  obtain ⟨o, o1, o2, o3⟩ := h.options
  unfold parseGraphologyJson
  have hdir : (if (Data.str type).eqStr "mixed" = true then mixedDirected ((data.get? (.str "edges")).getD .none)
      else .ok ((Data.str type).eqStr "directed")) = (.ok (docDirected type E) : Py Bool) := by
    unfold docDirected
    simp only [Data.eqStr, decide_eq_true_eq]
    split
    · rw [mixedDirected_described h.edges]
      cases E <;> rfl
    · rfl
  simp only [o1, Data.item, Dict.getItem, o2, o3, hdir, getD_describesAttrs h.attributes, Data.truthy,
    newGraph_written h.nodup.1 hl.graph]
  have hN : readSome readNodes ((data.get? (.str "nodes")).getD .none) (Graph.empty (docDirected type E) multi attrs) =
      .ok ((Graph.empty (docDirected type E) multi attrs).addNodes (N.map (fun n => (n.key, n.attrs)))) := by
    rcases h.nodes with ⟨rfl, h1 | h1⟩ | ⟨d, h1, h2⟩
    · rw [h1]; rfl
    · rw [h1]; rfl
    · rw [h1]
      simp only [Option.getD_some, readSome, Data.iter]
      exact readNodes_described h2 hl.nodes _
  rw [hN]
  simp only
  have hmulti : ((Graph.empty (docDirected type E) multi attrs).addNodes (N.map (fun n => (n.key, n.attrs)))).multi = multi :=
    (Graph.addNodes_frame _ _).2.1
  have hkw : ∀ e ∈ E, Graph.EdgeKwSafe ((Graph.empty (docDirected type E) multi attrs).addNodes
      (N.map (fun n => (n.key, n.attrs)))).multi e.attrs := by
    rw [hmulti]; exact hl.edges
  rcases h.edges with ⟨rfl, h1⟩ | ⟨d, h1, h2⟩
  · rw [if_neg (by simp)]
    rcases h1 with h1 | h1 <;> rw [h1] <;> rfl
  · rw [h1]
    simp only [Option.getD_some, readSome, Data.iter]
    by_cases hb : type = "mixed" ∧ ∃ e ∈ E, e.undirected = docDirected type E
    · rw [if_pos hb]
      have hm : (Data.str type).eqStr "mixed" = true := by simp [Data.eqStr, hb.1]
      rw [hm]
      have := readEdges_mixed h2 _ hkw hb.2
      rw [hmulti] at this
      exact this
    · rw [if_neg hb]
      have := readEdges_described h2 (mixed := (Data.str type).eqStr "mixed") (directed := docDirected type E) _ hkw (by
        intro hm e he
        have hm : type = "mixed" := by simpa [Data.eqStr] using hm
        by_contra hc
        refine hb ⟨hm, e, he, ?_⟩
        cases h1 : e.undirected <;> cases h2 : docDirected type E <;> simp_all)
      rw [hmulti] at this
      exact this

end Pelote
