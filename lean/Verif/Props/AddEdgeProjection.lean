import Verif.Props.AddEdge
import Verif.Props.LearnUse
import Verif.Props.ProjectionMeaning
import Mathlib.Tactic.FieldSimp
import Mathlib.Tactic.Positivity

/-! C106: what adding one edge to a bipartite graph changes in its projection. -/
set_option linter.unusedSectionVars false
namespace Pelote
open Graph

/-- An edge `(a, t)` added to a bipartite graph, from a node of the part to a node out of it.  The edge does not have the
value of the part as an attribute; for the metrics using weights its weight is the number `w a t`, not 0 for cosine. -/
structure Tie {V K : Type} [DecidableEq V] [Field K] [LinearOrder K] [AttrVal (Val K)] (g g' : Graph V (Val K)) (part : Part V K)
    (partAttr weightAttr : String) (kind : Metric) (check : Bool) (w : V → V → K) (a t : V) (c : Attrs (Val K)) : Prop where
  added : Added g g' a t c
  inside : InPart g partAttr part a
  outside : ¬ InPart g partAttr part t
  edgeAttr : check = true → ∀ x, part = .value x → ¬ SameValue (((Dict.update [] c).get? (.str partAttr)).getD .none) x
  weight : kind = .cosine ∨ kind = .dotProduct →
    HasWeight weightAttr (Dict.update [] c) (w a t) ∧ HasWeight weightAttr (Dict.update [] c) (w t a)
  nonzero : kind = .cosine → w a t ≠ 0

/-- No denominator, and no argument of a logarithm, is rounded to 0 in the similarities of nodes of the part. -/
def SafeIn {V K : Type} [DecidableEq V] [Field K] [LinearOrder K] [PyMath K] (g : Graph V (Val K)) (part : Part V K)
    (partAttr : String) (kind : Metric) (w : V → V → K) : Prop :=
  ∀ u v, InPart g partAttr part u → InPart g partAttr part v → (g.nbhd u ∩ g.nbhd v).Nonempty →
    NoUnderflow kind (g.nbhd u) (g.nbhd v) (w u) (w v)

section
variable {V A : Type} [DecidableEq V] [AttrVal A] {g g' : Graph V A} {u v : V} {c : Attrs A}

theorem Added.edge? (s : Added g g' u v c) (hm : g.multi = false) (x y : V) :
    g'.edge? x y (.int 0) = if samePair g.directed x y u v = true then some (Dict.update [] c) else g.edge? x y (.int 0) := by
  have hn : samePair g.directed x y u v = true → g.hasEdge x y = false := by
    intro hp
    rw [Bool.eq_false_iff]
    intro he
    rcases samePair_iff.1 hp with ⟨rfl, rfl⟩ | ⟨-, rfl, rfl⟩
    · exact s.new (.inl he)
    · exact s.new (.inr he)
  unfold Graph.edge? Graph.keydict?
  rw [s.directed]
  conv_lhs => rw [s.eq]
  simp only [List.find?_append]
  by_cases hp : samePair g.directed x y u v = true
  · have := hn hp
    unfold Graph.hasEdge Graph.keydict? at this
    rw [Option.isSome_eq_false_iff, Option.isNone_iff_eq_none, Option.map_eq_none_iff] at this
    rw [this, if_pos hp]
    simp [List.find?_cons, hp, addToData, hm, Dict.set, Dict.get?]
  · rw [if_neg hp]
    cases g.links.find? (fun l => samePair g.directed x y l.u l.v) with
    | some l => simp
    | none => simp [hp]

end

section
variable {V K : Type} [LinearOrder V] [PyOrd V] [Field K] [LinearOrder K] [IsStrictOrderedRing K] [AttrVal (Val K)]
  {g g' : Graph V (Val K)} {part : Part V K} {partAttr weightAttr : String} {kind : Metric} {check : Bool} {w : V → V → K}
  {a t : V} {c : Attrs (Val K)}

theorem Tie.inPart (s : Tie g g' part partAttr weightAttr kind check w a t c) (n : V) :
    InPart g' partAttr part n ↔ InPart g partAttr part n := by
  cases part <;> simp only [InPart, s.added.node, s.added.nodes]

theorem Tie.ne (s : Tie g g' part partAttr weightAttr kind check w a t c) : a ≠ t := by
  rintro rfl
  exact s.outside s.inside

/-- The neighbors of the nodes of the part: `a` gains `t`, the others keep theirs. -/
theorem Tie.nbhd (s : Tie g g' part partAttr weightAttr kind check w a t c) (hd : g.directed = false) {n : V}
    (hn : InPart g partAttr part n) : g'.nbhd n = if n = a then insert t (g.nbhd n) else g.nbhd n := by
  ext y
  rw [mem_nbhd s.added.wf', s.added.hasEdge, samePair_iff]
  have hnt : n ≠ t := by rintro rfl; exact s.outside hn
  split
  · rename_i e
    subst e
    rw [Finset.mem_insert, mem_nbhd s.added.wf]
    constructor
    · rintro (h | ⟨-, h⟩ | ⟨-, h, -⟩)
      · exact .inr h
      · exact .inl h
      · exact absurd h hnt
    · rintro (h | h)
      · exact .inr (.inl ⟨rfl, h⟩)
      · exact .inl h
  · rename_i e
    rw [mem_nbhd s.added.wf]
    constructor
    · rintro (h | ⟨h, -⟩ | ⟨-, h, -⟩)
      · exact h
      · exact absurd h e
      · exact absurd h hnt
    · exact .inl

theorem Tie.fresh (s : Tie g g' part partAttr weightAttr kind check w a t c) : t ∉ g.nbhd a := by
  rw [mem_nbhd s.added.wf]
  exact fun h => s.added.new (.inl h)

/-- The graph with the edge can be projected as well. -/
theorem Tie.projectable (s : Tie g g' part partAttr weightAttr kind check w a t c)
    (h : Projectable g part partAttr weightAttr kind check w) : Projectable g' part partAttr weightAttr kind check w where
  wf := s.added.wf'
  undirected := by rw [s.added.directed, h.undirected]
  simple := by rw [s.added.multi, h.simple]
  notFrozen := h.notFrozen
  nonempty := ⟨a, (s.inPart a).2 s.inside⟩
  bipartite := by
    intro x y he
    rw [s.inPart, s.inPart]
    rw [s.added.hasEdge, samePair_iff] at he
    rcases he with he | ⟨rfl, rfl⟩ | ⟨-, rfl, rfl⟩
    · exact h.bipartite x y he
    · exact iff_of_true s.inside s.outside
    · exact iff_of_false s.outside (not_not.2 s.inside)
  comparable := by
    intro x y hx hy
    exact h.comparable x y ((s.inPart x).1 hx) ((s.inPart y).1 hy)
  names := by
    intro n b hb hn
    rw [s.added.node] at hb
    exact h.names n b hb ((s.inPart n).1 hn)
  edgeAttr := by
    intro hc x hx u v b hb
    rw [s.added.edge? h.simple] at hb
    split at hb
    · cases hb
      exact s.edgeAttr hc x hx
    · exact h.edgeAttr hc x hx u v b hb
  weights := by
    intro hk u v b hb
    rw [s.added.edge? h.simple] at hb
    split at hb
    · rename_i hp
      cases hb
      rcases samePair_iff.1 hp with ⟨rfl, rfl⟩ | ⟨-, rfl, rfl⟩
      · exact (s.weight hk).1
      · exact (s.weight hk).2
    · exact h.weights hk u v b hb
  cosine := by
    intro hk n hn hne
    have hn := (s.inPart n).1 hn
    rw [s.nbhd h.undirected hn] at hne ⊢
    split
    · rename_i e
      subst e
      exact ⟨t, Finset.mem_insert_self _ _, s.nonzero hk⟩
    · rename_i e
      rw [if_neg e] at hne
      exact h.cosine hk n hn hne

variable [PyMath K]

/-- Nothing is rounded to 0 when positive numbers never are. -/
theorem Projectable.safe (h : Projectable g part partAttr weightAttr kind check w)
    (hsqrt : ∀ x : K, 0 < x → 0 < PyMath.sqrt x) (hrnd : ∀ x : K, 0 < x → 0 < PyMath.rnd x) :
    SafeIn g part partAttr kind w := by
  intro u v hu hv hne
  have hn1 : (g.nbhd u).Nonempty := hne.mono Finset.inter_subset_left
  have hn2 : (g.nbhd v).Nonempty := hne.mono Finset.inter_subset_right
  have k1 : (0 : K) < (g.nbhd u).card := by exact_mod_cast Finset.card_pos.2 hn1
  have k2 : (0 : K) < (g.nbhd v).card := by exact_mod_cast Finset.card_pos.2 hn2
  have k3 : (0 : K) < (g.nbhd u ∩ g.nbhd v).card := by exact_mod_cast Finset.card_pos.2 hne
  have hpos : ∀ (S : Finset V) (f : V → K), (∃ t ∈ S, f t ≠ 0) → 0 < ∑ t ∈ S, f t * f t := by
    rintro S f ⟨t, ht, hne⟩
    exact Finset.sum_pos' (fun i _ => mul_self_nonneg _) ⟨t, ht, mul_self_pos.2 hne⟩
  cases kind with
  | binaryCosine => exact (hrnd _ (mul_pos (hsqrt _ k1) (hsqrt _ k2))).ne'
  | cosine =>
    exact (hrnd _ (mul_pos (hsqrt _ (hpos _ _ (h.cosine rfl u hu hn1))) (hsqrt _ (hpos _ _ (h.cosine rfl v hv hn2))))).ne'
  | pmi => exact hrnd _ (div_pos k3 (mul_pos k1 k2))
  | _ => trivial

/-- The weights of a projection without threshold. -/
theorem safe_linkWeight (hno : SafeIn g part partAttr kind w)
    (h : Projectable g part partAttr weightAttr kind check w) {metric : Option String} (hk : (metric, kind) ∈ metricNames) :
    ∃ m, monopartiteProjection g part partAttr weightAttr metric check none = .ok m ∧ m.WF ∧
      (∀ u v, m.hasEdge u v = true ↔ u ≠ v ∧ InPart g partAttr part u ∧ InPart g partAttr part v ∧
        (g.nbhd u ∩ g.nbhd v).Nonempty) ∧
      ∀ u v, m.hasEdge u v = true → m.linkWeight u v = similarity kind (g.nbhd u) (g.nbhd v) (w u) (w v) := by
  obtain ⟨m, h1, h2, h3⟩ := projection_rounded h hno hk (threshold := none) (by simp)
  have hm : m.multi = false := (projection_nodes_partial _ _ _ _ _ _ _ h.wf h.notFrozen h1).2.1
  have hE : ∀ u v, m.hasEdge u v = true ↔ u ≠ v ∧ InPart g partAttr part u ∧ InPart g partAttr part v ∧
      (g.nbhd u ∩ g.nbhd v).Nonempty := by
    intro u v
    constructor
    · intro he
      obtain ⟨a, ha⟩ := edge_exists h2 hm he
      obtain ⟨c1, c2, c3, c4, -⟩ := (h3 u v a).1 ha
      exact ⟨c1, c2, c3, c4⟩
    · rintro ⟨c1, c2, c3, c4⟩
      exact hasEdge_of_edge? ((h3 u v _).2 ⟨c1, c2, c3, c4, reaches_none _, rfl⟩)
  refine ⟨m, h1, h2, hE, ?_⟩
  intro u v he
  obtain ⟨c1, c2, c3, c4⟩ := (hE u v).1 he
  unfold Graph.linkWeight
  rw [(h3 u v _).2 ⟨c1, c2, c3, c4, reaches_none _, rfl⟩]
  rfl

/-- C106.  Adding an edge `(a, t)` changes the links of `a` only: the projection has the same nodes with the same attributes, and
the links between other nodes stay, with the same weights, whatever the metric and the threshold. -/
theorem projection_addEdge (hno : SafeIn g part partAttr kind w) (hno' : SafeIn g' part partAttr kind w)
    (h : Projectable g part partAttr weightAttr kind check w) (s : Tie g g' part partAttr weightAttr kind check w a t c)
    {metric : Option String} (hk : (metric, kind) ∈ metricNames)
    {threshold : Option (Val K)} (ht : ∀ v, threshold = some v → ∃ x, v.toNum = .ok x ∧ 0 < x) :
    ∃ m m', monopartiteProjection g part partAttr weightAttr metric check threshold = .ok m ∧
      monopartiteProjection g' part partAttr weightAttr metric check threshold = .ok m' ∧
      (∀ n, m'.node.get? n = m.node.get? n) ∧
      ∀ x y, x ≠ a → y ≠ a → m'.edge? x y (.int 0) = m.edge? x y (.int 0) := by
  obtain ⟨m, h1, -, h3⟩ := projection_rounded h hno hk ht
  obtain ⟨m', h1', -, h3'⟩ := projection_rounded (s.projectable h) hno' hk ht
  refine ⟨m, m', h1, h1', fun n => ?_, fun x y hx hy => ?_⟩
  · ext b
    rw [(projection_nodes_partial _ _ _ _ _ _ _ h.wf h.notFrozen h1).2.2.2.1,
      (projection_nodes_partial _ _ _ _ _ _ _ s.added.wf' h.notFrozen h1').2.2.2.1, s.inPart, s.added.node]
  · ext b
    rw [h3, h3', s.inPart, s.inPart]
    refine and_congr_right fun _ => and_congr_right fun hX => and_congr_right fun hY => ?_
    rw [s.nbhd h.undirected hX, s.nbhd h.undirected hY, if_neg hx, if_neg hy]

/-- The links of `a` before and after, for a projection without threshold. -/
theorem projection_tie (hno : SafeIn g part partAttr kind w) (hno' : SafeIn g' part partAttr kind w)
    (h : Projectable g part partAttr weightAttr kind check w) (s : Tie g g' part partAttr weightAttr kind check w a t c)
    {metric : Option String} (hk : (metric, kind) ∈ metricNames) :
    ∃ m m', monopartiteProjection g part partAttr weightAttr metric check none = .ok m ∧
      monopartiteProjection g' part partAttr weightAttr metric check none = .ok m' ∧
      ∀ y ∈ m.nodes, y ≠ a →
        (m.hasEdge a y = true ↔ (g.nbhd a ∩ g.nbhd y).Nonempty) ∧
        (m'.hasEdge a y = true ↔ m.hasEdge a y = true ∨ g.hasEdge y t = true) ∧
        (m.hasEdge a y = true → m.linkWeight a y = similarity kind (g.nbhd a) (g.nbhd y) (w a) (w y)) ∧
        (m'.hasEdge a y = true → m'.linkWeight a y = similarity kind (insert t (g.nbhd a)) (g.nbhd y) (w a) (w y)) := by
  obtain ⟨m, h1, -, h3, h4⟩ := safe_linkWeight hno h hk
  obtain ⟨m', h1', -, h3', h4'⟩ := safe_linkWeight hno' (s.projectable h) hk
  refine ⟨m, m', h1, h1', fun y hy hne => ?_⟩
  have hy := (projection_part h.wf h.notFrozen h1 y).1 hy
  have e1 : g'.nbhd a = insert t (g.nbhd a) := by rw [s.nbhd h.undirected s.inside, if_pos rfl]
  have e2 : g'.nbhd y = g.nbhd y := by rw [s.nbhd h.undirected hy, if_neg hne]
  have k1 : m.hasEdge a y = true ↔ (g.nbhd a ∩ g.nbhd y).Nonempty := by
    rw [h3]
    exact ⟨fun h => h.2.2.2, fun h => ⟨hne.symm, s.inside, hy, h⟩⟩
  refine ⟨k1, ?_, h4 a y, ?_⟩
  · rw [h3', k1, e1, e2, s.inPart, s.inPart, ← mem_nbhd h.wf]
    constructor
    · rintro ⟨-, -, -, z, hz⟩
      rw [Finset.mem_inter, Finset.mem_insert] at hz
      rcases hz with ⟨rfl | hz, hz'⟩
      · exact .inr hz'
      · exact .inl ⟨z, Finset.mem_inter.2 ⟨hz, hz'⟩⟩
    · rintro (⟨z, hz⟩ | hz)
      · rw [Finset.mem_inter] at hz
        exact ⟨hne.symm, s.inside, hy, z, Finset.mem_inter.2 ⟨Finset.mem_insert_of_mem hz.1, hz.2⟩⟩
      · exact ⟨hne.symm, s.inside, hy, t, Finset.mem_inter.2 ⟨Finset.mem_insert_self _ _, hz⟩⟩
  · intro he
    rw [h4' a y he, e1, e2]

/-- C106.  Without a metric, the links between `a` and the other neighbors of `t` appear or gain 1, and the other links of `a`
stay. -/
theorem projection_addEdge_count (h : Projectable g part partAttr weightAttr .intersection check w)
    (s : Tie g g' part partAttr weightAttr .intersection check w a t c) :
    ∃ m m', monopartiteProjection g part partAttr weightAttr none check none = .ok m ∧
      monopartiteProjection g' part partAttr weightAttr none check none = .ok m' ∧
      ∀ y ∈ m.nodes, y ≠ a → (m'.hasEdge a y = true ↔ m.hasEdge a y = true ∨ g.hasEdge y t = true) ∧
        m'.linkWeight a y = m.linkWeight a y + if g.hasEdge y t = true then 1 else 0 := by
  obtain ⟨m, m', h1, h1', hE⟩ := projection_tie (by intro _ _ _ _ _; trivial) (by intro _ _ _ _ _; trivial) h s (metric := none) (by simp [metricNames])
  refine ⟨m, m', h1, h1', fun y hy hne => ⟨(hE y hy hne).2.1, ?_⟩⟩
  obtain ⟨k1, k2, k3, k4⟩ := hE y hy hne
  have e0 : m.linkWeight a y = ((g.nbhd a ∩ g.nbhd y).card : K) := by
    cases he : m.hasEdge a y with
    | true => exact k3 he
    | false =>
      have hn : ¬ (g.nbhd a ∩ g.nbhd y).Nonempty := fun hc => by rw [k1.2 hc] at he; cases he
      rw [linkWeight_none he, Finset.not_nonempty_iff_eq_empty.1 hn]
      simp
  have e1 : m'.linkWeight a y = ((insert t (g.nbhd a) ∩ g.nbhd y).card : K) := by
    cases he : m'.hasEdge a y with
    | true => exact k4 he
    | false =>
      have hn : ¬ (m.hasEdge a y = true ∨ g.hasEdge y t = true) := fun hc => by rw [k2.2 hc] at he; cases he
      push Not at hn
      rw [linkWeight_none he, Finset.insert_inter_of_notMem (fun hc => hn.2 ((mem_nbhd h.wf).1 hc)),
        Finset.not_nonempty_iff_eq_empty.1 (fun hc => hn.1 (k1.2 hc))]
      simp
  rw [e0, e1]
  split
  · rename_i hm
    rw [← mem_nbhd h.wf] at hm
    rw [Finset.insert_inter_of_mem hm, Finset.card_insert_of_notMem (fun hc => s.fresh (Finset.mem_inter.1 hc).1)]
    push_cast
    rfl
  · rename_i hm
    rw [← mem_nbhd h.wf] at hm
    rw [Finset.insert_inter_of_notMem hm, add_zero]

/-- C106.  By dot product, the links between `a` and the other neighbors of `t` gain the product of the weights. -/
theorem projection_addEdge_dot (h : Projectable g part partAttr weightAttr .dotProduct check w)
    (s : Tie g g' part partAttr weightAttr .dotProduct check w a t c) :
    ∃ m m', monopartiteProjection g part partAttr weightAttr (some "dot_product") check none = .ok m ∧
      monopartiteProjection g' part partAttr weightAttr (some "dot_product") check none = .ok m' ∧
      ∀ y ∈ m.nodes, y ≠ a → (m'.hasEdge a y = true ↔ m.hasEdge a y = true ∨ g.hasEdge y t = true) ∧
        m'.linkWeight a y = m.linkWeight a y + if g.hasEdge y t = true then w a t * w y t else 0 := by
  obtain ⟨m, m', h1, h1', hE⟩ := projection_tie (by intro _ _ _ _ _; trivial) (by intro _ _ _ _ _; trivial) h s (metric := some "dot_product") (by simp [metricNames])
  refine ⟨m, m', h1, h1', fun y hy hne => ⟨(hE y hy hne).2.1, ?_⟩⟩
  obtain ⟨k1, k2, k3, k4⟩ := hE y hy hne
  have e0 : m.linkWeight a y = ∑ z ∈ g.nbhd a ∩ g.nbhd y, w a z * w y z := by
    cases he : m.hasEdge a y with
    | true => exact k3 he
    | false =>
      have hn : ¬ (g.nbhd a ∩ g.nbhd y).Nonempty := fun hc => by rw [k1.2 hc] at he; cases he
      rw [linkWeight_none he, Finset.not_nonempty_iff_eq_empty.1 hn]
      simp
  have e1 : m'.linkWeight a y = ∑ z ∈ insert t (g.nbhd a) ∩ g.nbhd y, w a z * w y z := by
    cases he : m'.hasEdge a y with
    | true => exact k4 he
    | false =>
      have hn : ¬ (m.hasEdge a y = true ∨ g.hasEdge y t = true) := fun hc => by rw [k2.2 hc] at he; cases he
      push Not at hn
      rw [linkWeight_none he, Finset.insert_inter_of_notMem (fun hc => hn.2 ((mem_nbhd h.wf).1 hc)),
        Finset.not_nonempty_iff_eq_empty.1 (fun hc => hn.1 (k1.2 hc))]
      simp
  rw [e0, e1]
  split
  · rename_i hm
    rw [← mem_nbhd h.wf] at hm
    rw [Finset.insert_inter_of_mem hm, Finset.sum_insert (fun hc => s.fresh (Finset.mem_inter.1 hc).1), add_comm]
  · rename_i hm
    rw [← mem_nbhd h.wf] at hm
    rw [Finset.insert_inter_of_notMem hm, add_zero]

end

section
variable {V K : Type} [DecidableEq V] [Field K] [LinearOrder K] [IsStrictOrderedRing K]

/-- The quotients behind the metrics, when `A` gains an element: up if `B` has it, down otherwise. -/
theorem quotients_insert {A B : Finset V} {t : V} (ht : t ∉ A) (hne : (A ∩ B).Nonempty) :
    let i : K := ((A ∩ B).card : K); let i' : K := ((insert t A ∩ B).card : K)
    (t ∈ B → i / (A ∪ B).card < i' / (insert t A ∪ B).card ∧
      2 * i / ((A.card + B.card : Nat) : K) < 2 * i' / (((insert t A).card + B.card : Nat) : K) ∧
      i / ((min A.card B.card : Nat) : K) ≤ i' / ((min (insert t A).card B.card : Nat) : K) ∧
      i * i / A.card < i' * i' / (insert t A).card ∧ i / A.card ≤ i' / (insert t A).card) ∧
    (t ∉ B → i' = i ∧ i' / (insert t A ∪ B).card < i / (A ∪ B).card ∧
      2 * i' / (((insert t A).card + B.card : Nat) : K) < 2 * i / ((A.card + B.card : Nat) : K) ∧
      i' / ((min (insert t A).card B.card : Nat) : K) ≤ i / ((min A.card B.card : Nat) : K) ∧
      i' / (insert t A).card < i / A.card) := by
  have cA : (insert t A).card = A.card + 1 := Finset.card_insert_of_notMem ht
  have hi : 0 < (A ∩ B).card := Finset.card_pos.2 hne
  have iA : (A ∩ B).card ≤ A.card := Finset.card_le_card Finset.inter_subset_left
  have iB : (A ∩ B).card ≤ B.card := Finset.card_le_card Finset.inter_subset_right
  have hu : (A ∩ B).card ≤ (A ∪ B).card := iA.trans (Finset.card_le_card Finset.subset_union_left)
  have huB : B.card ≤ (A ∪ B).card := Finset.card_le_card Finset.subset_union_right
  have ki : (0 : K) < ((A ∩ B).card : K) := by exact_mod_cast hi
  have kA : ((A ∩ B).card : K) ≤ (A.card : K) := by exact_mod_cast iA
  have kB : ((A ∩ B).card : K) ≤ (B.card : K) := by exact_mod_cast iB
  have ku : ((A ∩ B).card : K) ≤ ((A ∪ B).card : K) := by exact_mod_cast hu
  have pA : (0 : K) < A.card := ki.trans_le kA
  have pB : (0 : K) < B.card := ki.trans_le kB
  have pu : (0 : K) < (A ∪ B).card := ki.trans_le ku
  have km : ((A ∩ B).card : K) ≤ ((min A.card B.card : Nat) : K) := by exact_mod_cast le_min iA iB
  have pm : (0 : K) < ((min A.card B.card : Nat) : K) := ki.trans_le km
  intro i i'
  refine ⟨fun hb => ?_, fun hb => ?_⟩
  · have e : insert t A ∪ B = A ∪ B := by rw [Finset.insert_union, Finset.insert_eq_of_mem (Finset.mem_union_right _ hb)]
    have ei : i' = i + 1 := by
      show ((insert t A ∩ B).card : K) = _
      rw [Finset.insert_inter_of_mem hb, Finset.card_insert_of_notMem (fun hc => ht (Finset.mem_inter.1 hc).1)]
      push_cast
      rfl
    have kiB : i + 1 ≤ (B.card : K) := by
      have : (insert t (A ∩ B)).card ≤ B.card := Finset.card_le_card (Finset.insert_subset hb Finset.inter_subset_right)
      rw [Finset.card_insert_of_notMem (fun hc => ht (Finset.mem_inter.1 hc).1)] at this
      show ((A ∩ B).card : K) + 1 ≤ _
      exact_mod_cast this
    rw [e, ei, cA]
    have ki : 0 < i := ki
    have kA : i ≤ (A.card : K) := kA
    have km : i ≤ ((min A.card B.card : Nat) : K) := km
    push_cast
    refine ⟨?_, ?_, ?_, ?_, ?_⟩
    · exact div_lt_div_of_pos_right (by linarith) pu
    · rw [div_lt_div_iff₀ (by linarith) (by linarith)]
      nlinarith
    · rcases le_total (B.card) (A.card) with hle | hle
      · rw [min_eq_right (by exact_mod_cast hle), min_eq_right (by exact_mod_cast (hle.trans (Nat.le_succ _)))]
        exact div_le_div_of_nonneg_right (by linarith) pB.le
      · rw [min_eq_left (by exact_mod_cast hle)]
        rcases le_total ((A.card : K) + 1) (B.card : K) with h' | h'
        · rw [min_eq_left h', div_le_div_iff₀ pA (by linarith)]
          nlinarith
        · rw [min_eq_right h', div_le_div_iff₀ pA pB]
          nlinarith
    · rw [div_lt_div_iff₀ pA (by linarith)]
      nlinarith
    · rw [div_le_div_iff₀ pA (by linarith)]
      nlinarith
  · have ei : i' = i := by
      show ((insert t A ∩ B).card : K) = _
      rw [Finset.insert_inter_of_notMem hb]
    have e : (insert t A ∪ B).card = (A ∪ B).card + 1 := by
      rw [Finset.insert_union, Finset.card_insert_of_notMem (by rw [Finset.mem_union]; tauto)]
    rw [e, ei, cA]
    have ki : 0 < i := ki
    refine ⟨rfl, ?_, ?_, ?_, ?_⟩
    · push_cast
      exact div_lt_div_of_pos_left ki pu (by linarith)
    · push_cast
      exact div_lt_div_of_pos_left (by linarith) (by linarith) (by linarith)
    · refine div_le_div_of_nonneg_left ki.le pm ?_
      exact_mod_cast min_le_min (Nat.le_succ _) le_rfl
    · push_cast
      exact div_lt_div_of_pos_left ki pA (by linarith)

end

section
variable {V K : Type} [LinearOrder V] [PyOrd V] [Field K] [LinearOrder K] [IsStrictOrderedRing K] [AttrVal (Val K)] [PyMath K]
  {g g' : Graph V (Val K)} {part : Part V K} {partAttr weightAttr : String} {kind : Metric} {check : Bool} {w : V → V → K}
  {a t : V} {c : Attrs (Val K)}

/-- C106.  Whatever the rounding (as long as it is monotone), by Jaccard, dice and overlap similarities as well as without a
metric, a link of `a` to another neighbor of `t` does not lose weight and a link of `a` to another node does not gain any. -/
theorem projection_addEdge_monotone (hmono : ∀ x y : K, x ≤ y → PyMath.rnd x ≤ PyMath.rnd y)
    (h : Projectable g part partAttr weightAttr kind check w) (s : Tie g g' part partAttr weightAttr kind check w a t c)
    {metric : Option String} (hk : (metric, kind) ∈ metricNames)
    (hkind : kind = .intersection ∨ kind = .jaccard ∨ kind = .dice ∨ kind = .overlap) :
    ∃ m m', monopartiteProjection g part partAttr weightAttr metric check none = .ok m ∧
      monopartiteProjection g' part partAttr weightAttr metric check none = .ok m' ∧
      ∀ y ∈ m.nodes, y ≠ a → m.hasEdge a y = true → m'.hasEdge a y = true ∧
        (g.hasEdge y t = true → m.linkWeight a y ≤ m'.linkWeight a y) ∧
        (g.hasEdge y t = false → m'.linkWeight a y ≤ m.linkWeight a y) := by
  have hsafe : ∀ g : Graph V (Val K), SafeIn g part partAttr kind w := by
    intro g u v _ _ _
    rcases hkind with rfl | rfl | rfl | rfl <;> trivial
  obtain ⟨m, m', h1, h1', hE⟩ := projection_tie (hsafe _) (hsafe _) h s hk
  refine ⟨m, m', h1, h1', fun y hy hne he => ?_⟩
  obtain ⟨k1, k2, k3, k4⟩ := hE y hy hne
  have he' := k2.2 (.inl he)
  have q := quotients_insert (K := K) s.fresh (k1.1 he)
  rw [k3 he, k4 he']
  refine ⟨he', fun ht => ?_, fun ht => ?_⟩
  · obtain ⟨q1, q2, q3, -, -⟩ := q.1 ((mem_nbhd h.wf).2 ht)
    rcases hkind with rfl | rfl | rfl | rfl
    · simp only [similarity]
      exact_mod_cast Finset.card_le_card (Finset.inter_subset_inter_right (Finset.subset_insert _ _))
    · exact hmono _ _ q1.le
    · exact hmono _ _ q2.le
    · exact hmono _ _ q3
  · obtain ⟨q0, q1, q2, q3, -⟩ := q.2 (fun hc => by rw [(mem_nbhd h.wf).1 hc] at ht; cases ht)
    rcases hkind with rfl | rfl | rfl | rfl
    · exact q0.le
    · exact hmono _ _ q1.le
    · exact hmono _ _ q2.le
    · exact hmono _ _ q3

end

/-- Floats are rounded so. -/
example : ∀ x y : ℝ, x ≤ y → round64 x ≤ round64 y := fun _ _ => round64_monotone

/-- The cosine of two sets, squared where it matters. -/
theorem binary_cosine_lt {i i' p p' q : ℝ} (hi : 0 ≤ i) (hi' : 0 ≤ i') (hp : 0 < p) (hp' : 0 < p') (hq : 0 < q)
    (h : i * i / p < i' * i' / p') : i / (Real.sqrt p * Real.sqrt q) < i' / (Real.sqrt p' * Real.sqrt q) := by
  have e : ∀ j r : ℝ, 0 ≤ j → j / (Real.sqrt r * Real.sqrt q) = Real.sqrt (j * j / r) / Real.sqrt q := by
    intro j r hj
    rw [Real.sqrt_div (mul_self_nonneg j), Real.sqrt_mul_self hj, div_div]
  rw [e i p hi, e i' p' hi']
  exact div_lt_div_of_pos_right (Real.sqrt_lt_sqrt (by positivity) h) (Real.sqrt_pos.2 hq)

section
variable {V : Type} [LinearOrder V] [PyOrd V] [AttrVal (Val ℝ)] {g g' : Graph V (Val ℝ)} {part : Part V ℝ}
  {partAttr weightAttr : String} {kind : Metric} {check : Bool} {w : V → V → ℝ} {a t : V} {c : Attrs (Val ℝ)}

/-- C106.  In exact arithmetic, and by all metrics but those using weights: a link of `a` to another neighbor of `t` does not lose
weight, and gains some by all metrics but overlap and pmi; a link of `a` to another node does not gain weight, and loses some by
all metrics but overlap (and the number of common neighbors). -/
theorem projection_addEdge_strict (h : Projectable g part partAttr weightAttr kind check w)
    (s : Tie g g' part partAttr weightAttr kind check w a t c)
    {metric : Option String} (hk : (metric, kind) ∈ metricNames) (hkind : kind ≠ .cosine ∧ kind ≠ .dotProduct) :
    ∃ m m', monopartiteProjection g part partAttr weightAttr metric check none = .ok m ∧
      monopartiteProjection g' part partAttr weightAttr metric check none = .ok m' ∧
      ∀ y ∈ m.nodes, y ≠ a → m.hasEdge a y = true →
        (g.hasEdge y t = true → m.linkWeight a y ≤ m'.linkWeight a y ∧
          (kind ≠ .overlap → kind ≠ .pmi → m.linkWeight a y < m'.linkWeight a y)) ∧
        (g.hasEdge y t = false → m'.linkWeight a y ≤ m.linkWeight a y ∧
          (kind ≠ .overlap → kind ≠ .intersection → m'.linkWeight a y < m.linkWeight a y)) := by
  obtain ⟨m, m', h1, h1', hE⟩ := projection_tie (h.safe sqrt_pos_real (fun _ h => h))
    ((s.projectable h).safe sqrt_pos_real (fun _ h => h)) h s hk
  refine ⟨m, m', h1, h1', fun y hy hne he => ?_⟩
  obtain ⟨k1, k2, k3, k4⟩ := hE y hy hne
  have he' := k2.2 (.inl he)
  have q := quotients_insert (K := ℝ) s.fresh (k1.1 he)
  have cA : (insert t (g.nbhd a)).card = (g.nbhd a).card + 1 := Finset.card_insert_of_notMem s.fresh
  have pA : (0 : ℝ) < (g.nbhd a).card := by
    exact_mod_cast Finset.card_pos.2 ((k1.1 he).mono Finset.inter_subset_left)
  have pA' : (0 : ℝ) < (insert t (g.nbhd a)).card := by rw [cA]; positivity
  have pB : (0 : ℝ) < (g.nbhd y).card := by
    exact_mod_cast Finset.card_pos.2 ((k1.1 he).mono Finset.inter_subset_right)
  have pI : (0 : ℝ) < (g.nbhd a ∩ g.nbhd y).card := by exact_mod_cast Finset.card_pos.2 (k1.1 he)
  have pI' : (0 : ℝ) < (insert t (g.nbhd a) ∩ g.nbhd y).card := by
    exact_mod_cast Finset.card_pos.2 ((k1.1 he).mono (Finset.inter_subset_inter_right (Finset.subset_insert _ _)))
  rw [k3 he, k4 he']
  refine ⟨fun ht => ?_, fun ht => ?_⟩
  · obtain ⟨q1, q2, q3, q4, q5⟩ := q.1 ((mem_nbhd h.wf).2 ht)
    have q0 : ((g.nbhd a ∩ g.nbhd y).card : ℝ) < (insert t (g.nbhd a) ∩ g.nbhd y).card := by
      rw [Finset.insert_inter_of_mem ((mem_nbhd h.wf).2 ht),
        Finset.card_insert_of_notMem (fun hc => s.fresh (Finset.mem_inter.1 hc).1)]
      push_cast
      linarith
    cases kind with
    | intersection => exact ⟨q0.le, fun _ _ => q0⟩
    | jaccard => exact ⟨q1.le, fun _ _ => q1⟩
    | dice => exact ⟨q2.le, fun _ _ => q2⟩
    | overlap => exact ⟨q3, fun hc => absurd rfl hc⟩
    | binaryCosine =>
      have := binary_cosine_lt pI.le pI'.le pA pA' pB q4
      exact ⟨this.le, fun _ _ => this⟩
    | pmi =>
      refine ⟨Real.log_le_log (div_pos pI (mul_pos pA pB)) ?_, fun _ hc => absurd rfl hc⟩
      show _ / (_ * _) ≤ _ / (_ * _)
      rw [← div_div, ← div_div]
      exact div_le_div_of_nonneg_right q5 pB.le
    | cosine => exact absurd rfl hkind.1
    | dotProduct => exact absurd rfl hkind.2
  · obtain ⟨q0, q1, q2, q3, q4⟩ := q.2 (fun hc => by rw [(mem_nbhd h.wf).1 hc] at ht; cases ht)
    cases kind with
    | intersection => exact ⟨q0.le, fun _ hc => absurd rfl hc⟩
    | jaccard => exact ⟨q1.le, fun _ _ => q1⟩
    | dice => exact ⟨q2.le, fun _ _ => q2⟩
    | overlap => exact ⟨q3, fun hc => absurd rfl hc⟩
    | binaryCosine =>
      have := binary_cosine_lt pI'.le pI.le pA' pA pB (by
        rw [mul_div_assoc, mul_div_assoc, q0]
        rw [q0] at q4
        exact mul_lt_mul_of_pos_left q4 pI)
      exact ⟨this.le, fun _ _ => this⟩
    | pmi =>
      have : Real.log ((insert t (g.nbhd a) ∩ g.nbhd y).card / ((insert t (g.nbhd a)).card * (g.nbhd y).card)) <
          Real.log ((g.nbhd a ∩ g.nbhd y).card / ((g.nbhd a).card * (g.nbhd y).card)) := by
        refine Real.log_lt_log (div_pos pI' (mul_pos pA' pB)) ?_
        rw [← div_div, ← div_div]
        exact div_lt_div_of_pos_right q4 pB
      exact ⟨this.le, fun _ _ => this⟩
    | cosine => exact absurd rfl hkind.1
    | dotProduct => exact absurd rfl hkind.2

end

/-- Square roots of the squares met below; nothing is rounded. -/
local instance ratMathTie : PyMath ℚ := ⟨fun x => if x = 9 then 3 else if x = 25 then 5 else if x = 169 then 13 else x, id, id⟩

/-- Account 1 shares page 10 (3 times), account 2 pages 10 (12 times) and 11 (5 times). -/
def sharesSample : Graph Int (Val ℚ) :=
  ⟨false, false, [], [(1, partIs "account"), (2, partIs "account"), (10, partIs "page"), (11, partIs "page")],
    [⟨1, 10, [(.int 0, [(.str "weight", .num 3)])]⟩, ⟨2, 10, [(.int 0, [(.str "weight", .num 12)])]⟩,
     ⟨2, 11, [(.int 0, [(.str "weight", .num 5)])]⟩]⟩

/-- Account 1 shares page 11 as well, 4 times. -/
def sharesSample' : Graph Int (Val ℚ) :=
  { sharesSample with links := sharesSample.links ++ [⟨1, 11, [(.int 0, [(.str "weight", .num 4)])]⟩] }

set_option synthInstance.maxSize 2000 in
theorem sharesSample_added : Added sharesSample sharesSample' 1 11 [(.str "weight", .num 4)] where
  wf := by constructor <;> decide +kernel
  kw := by
    intro k hk
    simp [Dict.keys] at hk
    subst hk
    exact ⟨_, rfl, by decide +kernel⟩
  left := by decide +kernel
  right := by decide +kernel
  new := by decide +kernel
  result := by rfl

set_option synthInstance.maxSize 2000 in
/-- C106.  False of the cosine similarity: account 1 shares one more page of account 2, and their similarity decreases from 12/13 to
56/65 (with two positive weights); by Jaccard similarity it increases from 1/2 to 1. -/
theorem projection_addEdge_cosine_wrong : Added sharesSample sharesSample' 1 11 [(.str "weight", .num 4)] ∧
    (monopartiteProjection sharesSample (.value (.str "account")) "part" "weight" (some "cosine") true none).map
      (fun m => m.linkWeight 1 2) = .ok (12 / 13) ∧
    (monopartiteProjection sharesSample' (.value (.str "account")) "part" "weight" (some "cosine") true none).map
      (fun m => m.linkWeight 1 2) = .ok (56 / 65) ∧
    (monopartiteProjection sharesSample (.value (.str "account")) "part" "weight" (some "jaccard") true none).map
      (fun m => m.linkWeight 1 2) = .ok (1 / 2) ∧
    (monopartiteProjection sharesSample' (.value (.str "account")) "part" "weight" (some "jaccard") true none).map
      (fun m => m.linkWeight 1 2) = .ok 1 ∧ (56 / 65 : ℚ) < 12 / 13 :=
  ⟨sharesSample_added, by decide +kernel, by decide +kernel, by decide +kernel, by decide +kernel, by norm_num⟩

/-- Account 2 shares page 11 as well, once. -/
def accountsTie : Graph Int (Val ℚ) :=
  { accounts with links := accounts.links ++ [⟨2, 11, [(.int 0, [])]⟩] }

set_option synthInstance.maxSize 2000 in
/-- Non-triviality: the hypotheses hold of `accounts`. -/
theorem accounts_tie (kind : Metric) (check : Bool) :
    Tie accounts accountsTie (.value (.str "account")) "part" "weight" kind check accountsWeights 2 11 [] where
  added :=
    { wf := by constructor <;> decide +kernel
      kw := by intro k hk; simp [Dict.keys] at hk
      left := by decide +kernel
      right := by decide +kernel
      new := by decide +kernel
      result := by rfl }
  inside := ⟨_, rfl, Or.inl rfl⟩
  outside := by
    rintro ⟨b, hb, hs⟩
    cases hb
    simp [partIs, SameValue, Val.toNum, Dict.get?_cons] at hs
  edgeAttr := by
    intro _ x hx
    cases hx
    simp [Dict.update, SameValue, Val.toNum]
  weight := by
    intro _
    constructor <;> simp [Dict.update, HasWeight, accountsWeights]
  nonzero := by
    intro _
    simp [accountsWeights]

set_option synthInstance.maxSize 2000 in
/-- The link between accounts 1 and 2 goes from 1 to 2 common pages, and from 1/2 to 1 by Jaccard similarity. -/
example : (∃ m m', monopartiteProjection accounts (.value (.str "account")) "part" "weight" none true none = .ok m ∧
      monopartiteProjection accountsTie (.value (.str "account")) "part" "weight" none true none = .ok m' ∧
      ∀ y ∈ m.nodes, y ≠ 2 → (m'.hasEdge 2 y = true ↔ m.hasEdge 2 y = true ∨ accounts.hasEdge y 11 = true) ∧
        m'.linkWeight 2 y = m.linkWeight 2 y + if accounts.hasEdge y 11 = true then 1 else 0) ∧
    (monopartiteProjection accounts (.value (.str "account")) "part" "weight" none true none).map
      (fun m => (m.linkWeight 2 1, m.linkWeight 2 3)) = .ok (1, 0) ∧
    (monopartiteProjection accountsTie (.value (.str "account")) "part" "weight" none true none).map
      (fun m => (m.linkWeight 2 1, m.linkWeight 2 3)) = .ok (2, 0) ∧
    (monopartiteProjection accountsTie (.value (.str "account")) "part" "weight" (some "jaccard") true none).map
      (fun m => (m.linkWeight 2 1, m.linkWeight 2 3)) = .ok (1, 0) :=
  ⟨projection_addEdge_count
      (accounts_projectable _ (.inl rfl) _ _) (accounts_tie _ _),
    by decide +kernel, by decide +kernel, by decide +kernel⟩

end Pelote
