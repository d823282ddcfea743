import Verif.Props.ProjectionRange

/-! C38 - C42: cases where the projection departs from its documentation, and cases meeting the hypotheses
of the theorems. -/
set_option linter.unusedSectionVars false
namespace Pelote

section
variable {V K : Type} [LinearOrder V] [Field K] [LinearOrder K]

theorem normLoop_frozen (g : Graph V (Val K)) (ns : List V) (r partAttr weightAttr : String) (check : Bool)
    (L : List (V × Dict PyKey (Attrs (Val K)))) (m : OnlineMetric V K) :
    normLoop g (.frozen ns r) partAttr weightAttr check L m =
      normLoop g (.value (.obj "frozenset" r)) partAttr weightAttr check L m := by
  induction L generalizing m with
  | nil => rfl
  | cons p L ih =>
    obtain ⟨t, d⟩ := p
    unfold normLoop
    have : (Part.frozen ns r : Part V K).clashes g partAttr t d =
      (Part.value (.obj "frozenset" r)).clashes g partAttr t d := rfl
    rw [this]
    split
    · rfl
    · split
      · rfl
      · exact ih _

theorem partLoop_frozen [PyMath K] (g : Graph V (Val K)) (ns : List V) (r partAttr weightAttr : String)
    (check : Bool) (L : Dict V (Attrs (Val K))) (m : OnlineMetric V K) (mono : Graph V (Val K)) (b : Bool) :
    partLoop g (.frozen ns r) partAttr weightAttr check L m mono b =
      partLoop g (.value (.obj "frozenset" r)) partAttr weightAttr check L m mono b := by
  induction L generalizing m mono b with
  | nil => rfl
  | cons p L ih =>
    obtain ⟨n, a⟩ := p
    unfold partLoop
    have : (Part.frozen ns r : Part V K).keeps partAttr n a =
      (Part.value (.obj "frozenset" r)).keeps partAttr n a := rfl
    rw [this, normLoop_frozen]
    split
    · exact ih _ _ _
    · split
      · rfl
      · split
        · rfl
        · split
          · rfl
          · exact ih _ _ _

/-- A frozenset or a tuple is hashable, hence taken as the value of the part attribute. -/
theorem projection_frozenset [PyOrd V] [PyMath K] [AttrVal (Val K)] (g : Graph V (Val K)) (ns : List V)
    (r partAttr weightAttr : String) (metric : Option String) (check : Bool) (threshold : Option (Val K)) :
    monopartiteProjection g (.frozen ns r) partAttr weightAttr metric check threshold =
      monopartiteProjection g (.value (.obj "frozenset" r)) partAttr weightAttr metric check threshold := by
  unfold monopartiteProjection
  simp only [partLoop_frozen]

/-- C38 is false of a part given as a frozenset or a tuple of nodes: whatever the graph, the call raises
`TypeError`, unless the frozenset happens to be the part attribute of a node. -/
theorem projection_frozenset_raises [PyOrd V] [PyMath K] [AttrVal (Val K)] {g : Graph V (Val K)} (h : g.WF)
    (hg : g.order ≠ 0) (ns : List V) (r partAttr weightAttr : String) (metric : Option String) (check : Bool)
    (threshold : Option (Val K))
    (hr : ∀ n a, g.node.get? n = some a → a.get? (.str partAttr) ≠ some (.obj "frozenset" r)) :
    ∃ s, monopartiteProjection g (.frozen ns r) partAttr weightAttr metric check threshold =
      .error (.typeError s) := by
  rw [projection_frozenset]
  apply projection_empty_part _ _ _ _ _ _ _ h hg (by simp)
  rintro n ⟨a, ha, hs⟩
  have := hr n a ha
  cases hc : a.get? (.str partAttr) with
  | none => rw [hc] at hs; rcases hs with hs | ⟨k, hs, _⟩ <;> simp [Val.toNum] at hs
  | some x =>
    rw [hc] at hs this
    rcases hs with hs | ⟨k, hs, hs'⟩
    · exact this (congrArg some hs)
    · simp [Val.toNum] at hs'

end

/-- Stand-ins for the square root and the logarithm in the examples below, exact on 0 and 1. -/
local instance : PyMath ℚ := ⟨fun x => x, fun x => x - 1, fun x => x⟩

/-- An attribute dict with the part attribute. -/
def partIs (s : String) : Attrs (Val ℚ) := [(.str "part", .str s)]

/-- A bipartite graph: account 1 shares pages 10 and 11, account 2 page 10, account 3 page 12. -/
def accounts : Graph Int (Val ℚ) :=
  ⟨false, false, [],
    [(1, (.str "label", .str "one") :: partIs "account"), (10, partIs "page"), (2, partIs "account"),
      (11, partIs "page"), (3, partIs "account"), (12, partIs "page")],
    [⟨1, 10, [(.int 0, [(.str "weight", .num 3)])]⟩, ⟨1, 11, [(.int 0, [])]⟩,
      ⟨10, 2, [(.int 0, [(.str "weight", .num 2)])]⟩, ⟨12, 3, [(.int 0, [])]⟩]⟩

/-- Its weights. -/
def accountsWeights (u v : Int) : ℚ := if u + v = 11 then 3 else if u + v = 12 ∧ u ≠ 11 ∧ v ≠ 11 then 2 else 1

theorem accounts_edge? {u v : Int} {k : PyKey} {a : Attrs (Val ℚ)} (h : accounts.edge? u v k = some a) :
    (((u = 1 ∧ v = 10) ∨ (u = 10 ∧ v = 1)) ∧ a = [(.str "weight", .num 3)]) ∨
    (((u = 1 ∧ v = 11) ∨ (u = 11 ∧ v = 1)) ∧ a = []) ∨
    (((u = 10 ∧ v = 2) ∨ (u = 2 ∧ v = 10)) ∧ a = [(.str "weight", .num 2)]) ∨
    (((u = 12 ∧ v = 3) ∨ (u = 3 ∧ v = 12)) ∧ a = []) := by
  have hwf : accounts.WF := by constructor <;> decide
  unfold Graph.edge? at h
  obtain ⟨d, hd, ha⟩ := Option.bind_eq_some_iff.1 h
  obtain ⟨l, hl, hs, rfl⟩ := (Graph.keydict?_eq_some hwf).1 hd
  have hs := samePair_iff.1 hs
  simp only [accounts, List.mem_cons, List.not_mem_nil, or_false] at hl
  rcases hl with rfl | rfl | rfl | rfl <;>
    · simp only [Dict.get?_cons, Dict.get?_nil] at ha
      split at ha
      · cases ha
        rcases hs with ⟨rfl, rfl⟩ | ⟨_, rfl, rfl⟩ <;> simp
      · cases ha

/-- Non-triviality of `projection_nodes_partial`, `projection_exact` and the range theorems: their hypotheses
hold of the projection of this graph onto the accounts, by cosine similarity. -/
theorem accounts_projectable (part : Part Int ℚ) (hp : part = .value (.str "account") ∨ part = .collection [3, 2, 1])
    (kind : Metric) (check : Bool) : Projectable accounts part "part" "weight" kind check accountsWeights := by
  have hin : ∀ n, InPart accounts "part" part n ↔ n = 1 ∨ n = 2 ∨ n = 3 := by
    intro n
    rcases hp with rfl | rfl
    · constructor
      · rintro ⟨a, ha, hs⟩
        have := Dict.mem_of_get? ha
        simp only [accounts, List.mem_cons, Prod.mk.injEq, List.not_mem_nil, or_false] at this
        rcases this with ⟨rfl, rfl⟩ | ⟨rfl, rfl⟩ | ⟨rfl, rfl⟩ | ⟨rfl, rfl⟩ | ⟨rfl, rfl⟩ | ⟨rfl, rfl⟩ <;>
          simp [partIs, SameValue, Val.toNum, Dict.get?_cons] at hs ⊢
      · rintro (rfl | rfl | rfl)
        · exact ⟨_, rfl, Or.inl rfl⟩
        · exact ⟨_, rfl, Or.inl rfl⟩
        · exact ⟨_, rfl, Or.inl rfl⟩
    · simp only [InPart, accounts, Graph.nodes, Dict.keys, List.map_cons, List.map_nil, List.mem_cons,
        List.not_mem_nil, or_false]
      omega
  have hwf : accounts.WF := by constructor <;> decide
  have hedge : ∀ {u v}, accounts.hasEdge u v = true → ∃ a, accounts.edge? u v (.int 0) = some a := by
    intro u v he
    obtain ⟨d, hd⟩ := Option.isSome_iff_exists.1 he
    obtain ⟨l, hl, _, rfl⟩ := (Graph.keydict?_eq_some hwf).1 hd
    obtain ⟨a, ha⟩ := Dict.exists_get?_of_mem_keys (d := l.data) (k := .int 0)
      (by rw [hwf.simple rfl l hl]; simp)
    exact ⟨a, by unfold Graph.edge?; rw [hd]; exact ha⟩
  refine ⟨hwf, rfl, rfl, ?_, ⟨1, (hin 1).2 (by simp)⟩, ?_, ?_, ?_, ?_, ?_, ?_⟩
  · rcases hp with rfl | rfl <;> simp
  · intro u v he
    rw [hin, hin]
    obtain ⟨a, ha⟩ := hedge he
    rcases accounts_edge? ha with ⟨h, _⟩ | ⟨h, _⟩ | ⟨h, _⟩ | ⟨h, _⟩ <;> omega
  · intro u v _ _; rfl
  · intro n a ha _
    have := Dict.mem_of_get? ha
    simp only [accounts, List.mem_cons, Prod.mk.injEq, List.not_mem_nil, or_false] at this
    rcases this with ⟨rfl, rfl⟩ | ⟨rfl, rfl⟩ | ⟨rfl, rfl⟩ | ⟨rfl, rfl⟩ | ⟨rfl, rfl⟩ | ⟨rfl, rfl⟩ <;>
      (intro k hk; simp [partIs, Dict.erase, Dict.keys] at hk)
    exact ⟨_, hk, by decide⟩
  · intro _ x hx u v a ha
    have hx : x = .str "account" := by rcases hp with rfl | rfl <;> cases hx; rfl
    subst hx
    rcases accounts_edge? ha with ⟨_, rfl⟩ | ⟨_, rfl⟩ | ⟨_, rfl⟩ | ⟨_, rfl⟩ <;>
      simp [SameValue, Val.toNum, Dict.get?_cons]
  · intro _ u v a ha
    rcases accounts_edge? ha with ⟨h, rfl⟩ | ⟨h, rfl⟩ | ⟨h, rfl⟩ | ⟨h, rfl⟩ <;>
      rcases h with ⟨rfl, rfl⟩ | ⟨rfl, rfl⟩ <;> simp [HasWeight, accountsWeights, Dict.get?_cons]
  · intro _ n _ hne
    obtain ⟨t, ht⟩ := hne
    refine ⟨t, ht, ?_⟩
    unfold accountsWeights
    split
    · norm_num
    · split <;> norm_num

set_option synthInstance.maxSize 2000 in
/-- The projection of this graph, by dot product and by Jaccard similarity. -/
example : (monopartiteProjection accounts (.value (.str "account")) "part" "weight" (some "dot_product") true none).map
      (fun m => (m.node, m.edgesData)) = .ok ([(1, [(.str "label", .str "one")]), (2, []), (3, [])],
        [(1, 2, [(.str "weight", .num 6)])]) ∧
    (monopartiteProjection accounts (.collection [3, 2, 1]) "part" "weight" (some "jaccard") true none).map
      (fun m => m.edgesData) = .ok [(1, 2, [(.str "weight", .num (1 / 2))])] ∧
    (monopartiteProjection accounts (.collection [3, 2, 1]) "part" "weight" (some "jaccard") true
      (some (.num (3 / 4)))).map (fun m => m.edgesData) = .ok [] := by decide +kernel

/-- C41 is false of a part given as an attribute value: two accounts are linked to each other, the graph is
projected although the check is asked for. -/
theorem projection_rejects_wrong :
    ∃ g : Graph Int (Val ℚ), g.WF ∧ g.directed = false ∧ g.multi = false ∧ g.hasEdge 1 2 = true ∧
      InPart g "part" (.value (.str "account")) 1 ∧ InPart g "part" (.value (.str "account")) 2 ∧
      (monopartiteProjection g (.value (.str "account")) "part" "weight" none true none).map
        (fun m => m.nodes) = .ok [1, 2] :=
  ⟨⟨false, false, [], [(1, partIs "account"), (2, partIs "account")], [⟨1, 2, [(.int 0, [])]⟩]⟩,
    by constructor <;> decide, rfl, rfl, rfl, ⟨_, rfl, Or.inl rfl⟩, ⟨_, rfl, Or.inl rfl⟩, by decide +kernel⟩

/-- C41: nor does the check see an edge between two nodes out of the part, which makes the projection raise
`KeyError`, or link an account to a page... -/
theorem projection_other_part_edge :
    ∃ g : Graph Int (Val ℚ), g.WF ∧ g.directed = false ∧ g.multi = false ∧ g.hasEdge 10 11 = true ∧
      (∀ n, n = 10 ∨ n = 11 → ¬ InPart g "part" (.collection [1]) n) ∧
      (monopartiteProjection g (.collection [1]) "part" "weight" none true none).map (fun m => m.nodes) =
        .error .keyError :=
  ⟨⟨false, false, [], [(1, partIs "account"), (10, partIs "page"), (11, partIs "page")],
      [⟨1, 10, [(.int 0, [])]⟩, ⟨10, 11, [(.int 0, [])]⟩]⟩,
    by constructor <;> decide, rfl, rfl, rfl, by rintro n (rfl | rfl) ⟨_, h⟩ <;> simp at h, by decide +kernel⟩

/-- The check also rejects a bipartite graph when the part is `None`, the missing attribute: the edges have no
part attribute either. -/
theorem projection_none_part :
    ∃ g : Graph Int (Val ℚ), g.WF ∧ g.directed = false ∧ g.multi = false ∧
      Bipartite g (InPart g "part" (.value .none)) ∧
      (monopartiteProjection g (.value .none) "part" "weight" none true none).map (fun m => m.nodes) =
        .error (.typeError "given graph is not truly bipartite") := by
  refine ⟨⟨false, false, [], [(1, []), (10, partIs "page")], [⟨1, 10, [(.int 0, [])]⟩]⟩,
    by constructor <;> decide, rfl, rfl, ?_, by decide +kernel⟩
  intro u v he
  simp only [Graph.hasEdge, Graph.keydict?, Option.isSome_map, List.find?_cons, List.find?_nil] at he
  split at he
  · rename_i hs
    have h1 : InPart (⟨false, false, [], [(1, []), (10, partIs "page")], [⟨1, 10, [(.int 0, [])]⟩]⟩ :
        Graph Int (Val ℚ)) "part" (.value .none) 1 := ⟨_, rfl, Or.inl rfl⟩
    have h2 : ¬ InPart (⟨false, false, [], [(1, []), (10, partIs "page")], [⟨1, 10, [(.int 0, [])]⟩]⟩ :
        Graph Int (Val ℚ)) "part" (.value .none) 10 := by
      rintro ⟨a, ha, hs⟩
      cases ha
      simp [partIs, SameValue, Val.toNum, Dict.get?_cons] at hs
    rcases samePair_iff.1 hs with ⟨rfl, rfl⟩ | ⟨_, rfl, rfl⟩
    · exact ⟨fun _ => h2, fun _ => h1⟩
    · exact ⟨fun h => absurd h h2, fun h => absurd h1 h⟩
  · cases he

/-- C42 is false of cosine similarity when all the edges of a node of the part have weight 0: `KeyError`.  (The
only square root taken is that of 1.) -/
theorem projection_cosine_zero_wrong :
    ∃ g : Graph Int (Val ℚ), g.WF ∧ g.directed = false ∧ g.multi = false ∧
      Bipartite g (InPart g "part" (.collection [1, 2])) ∧
      EdgeWeights g "weight" (fun u v => if u + v = 11 then 1 else 0) ∧
      (monopartiteProjection g (.collection [1, 2]) "part" "weight" (some "cosine") true none).map
        (fun m => m.nodes) = .error .keyError := by
  have hwf : (⟨false, false, [], [(1, []), (2, []), (10, [])], [⟨1, 10, [(.int 0, [(.str "weight", .num 1)])]⟩,
    ⟨2, 10, [(.int 0, [(.str "weight", .num 0)])]⟩]⟩ : Graph Int (Val ℚ)).WF := by constructor <;> decide
  refine ⟨_, hwf, rfl, rfl, ?_, ?_, by decide +kernel⟩
  · intro u v he
    obtain ⟨d, hd⟩ := Option.isSome_iff_exists.1 he
    obtain ⟨l, hl, hs, _⟩ := (Graph.keydict?_eq_some hwf).1 hd
    simp only [List.mem_cons, List.not_mem_nil, or_false] at hl
    simp only [InPart, Graph.nodes, Dict.keys, List.map_cons, List.map_nil, List.mem_cons, List.not_mem_nil,
      or_false]
    have hs := samePair_iff.1 hs
    rcases hl with rfl | rfl <;> simp at hs <;> omega
  · intro u v a ha
    unfold Graph.edge? at ha
    obtain ⟨d, hd, ha⟩ := Option.bind_eq_some_iff.1 ha
    obtain ⟨l, hl, hs, rfl⟩ := (Graph.keydict?_eq_some hwf).1 hd
    have hs := samePair_iff.1 hs
    simp only [List.mem_cons, List.not_mem_nil, or_false] at hl
    rcases hl with rfl | rfl <;>
      · cases ha
        rcases hs with ⟨rfl, rfl⟩ | ⟨_, rfl, rfl⟩ <;> simp [HasWeight, Dict.get?_cons]

/-- In a directed graph the successors are followed, also from the shared node: accounts 1 and 2 both lead to
page 10 and are not linked. -/
theorem projection_directed_no_link :
    ∃ g : Graph Int (Val ℚ), g.WF ∧ g.directed = true ∧ g.hasEdge 1 10 = true ∧ g.hasEdge 2 10 = true ∧
      (monopartiteProjection g (.collection [1, 2]) "part" "weight" none true none).map
        (fun m => (m.nodes, m.edges)) = .ok ([1, 2], []) :=
  ⟨⟨true, false, [], [(1, []), (2, []), (10, [])], [⟨1, 10, [(.int 0, [])]⟩, ⟨2, 10, [(.int 0, [])]⟩]⟩,
    by constructor <;> decide, rfl, rfl, rfl, by decide +kernel⟩

end Pelote
