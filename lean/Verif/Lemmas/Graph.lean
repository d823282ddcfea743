import Verif.Spec.Graph
import Verif.Lemmas.Dict
import Verif.Lemmas.Bucket

/-! Facts about the networkx model. -/
namespace Pelote
variable {V A : Type} [DecidableEq V]

theorem samePair_iff {d : Bool} {u v x y : V} :
    samePair d u v x y = true ↔ (u = x ∧ v = y) ∨ (d = false ∧ u = y ∧ v = x) := by
  cases d <;> simp [samePair]

theorem samePair_refl (d : Bool) (u v : V) : samePair d u v u v = true := by
  rw [samePair_iff]; exact .inl ⟨rfl, rfl⟩

theorem samePair_comm (d : Bool) (u v x y : V) : samePair d u v x y = samePair d x y u v := by
  rw [Bool.eq_iff_iff, samePair_iff, samePair_iff]
  grind

theorem samePair_trans {d : Bool} {u v x y z w : V} (h : samePair d u v x y = true) :
    samePair d u v z w = samePair d x y z w := by
  rw [samePair_iff] at h
  rw [Bool.eq_iff_iff, samePair_iff, samePair_iff]
  grind

theorem samePair_swap (u v x y : V) : samePair false u v x y = samePair false v u x y := by
  rw [Bool.eq_iff_iff, samePair_iff, samePair_iff]; grind

namespace Graph

/-! ### Edge listing -/

/-- The link, oriented as networkx lists it: the end visited first is the source. -/
def orient (g : Graph V A) (l : Link V A) : Link V A :=
  if g.directed || decide (g.nodes.idxOf l.u ≤ g.nodes.idxOf l.v) then l else ⟨l.v, l.u, l.data⟩

/-- The edges of a link. -/
def expand (l : Link V A) : List (V × V × PyKey × Attrs A) :=
  l.data.map (fun ka => (l.u, l.v, ka.1, ka.2))

/-- Links in listing order and orientation. -/
def groups (g : Graph V A) : List (Link V A) :=
  bucketSort g.nodes (fun l => l.u) (g.links.map g.orient)

theorem orient_data (g : Graph V A) (l : Link V A) : (g.orient l).data = l.data := by
  unfold orient; split <;> rfl

theorem orient_cases (g : Graph V A) (l : Link V A) :
    (g.orient l = l) ∨ (g.directed = false ∧ g.orient l = ⟨l.v, l.u, l.data⟩) := by
  unfold orient
  by_cases h : g.directed = true
  · simp [h]
  · simp only [Bool.not_eq_true] at h
    by_cases h' : g.nodes.idxOf l.u ≤ g.nodes.idxOf l.v <;> simp [h, h']

theorem orient_samePair (g : Graph V A) (l : Link V A) :
    samePair g.directed (g.orient l).u (g.orient l).v l.u l.v = true := by
  rcases g.orient_cases l with h | ⟨hd, h⟩ <;> rw [h]
  · exact samePair_refl _ _ _
  · rw [samePair_iff]; exact .inr ⟨hd, rfl, rfl⟩

theorem orient_le (g : Graph V A) (l : Link V A) (hd : g.directed = false) :
    g.nodes.idxOf (g.orient l).u ≤ g.nodes.idxOf (g.orient l).v := by
  unfold orient
  by_cases h' : g.nodes.idxOf l.u ≤ g.nodes.idxOf l.v
  · simp [hd, h']
  · simp [hd, h']; omega

theorem idxOf_inj {l : List V} {a b : V} (ha : a ∈ l) (h : l.idxOf a = l.idxOf b) : a = b := by
  have hb : b ∈ l := by
    rw [← List.idxOf_lt_length_iff, ← h, List.idxOf_lt_length_iff]; exact ha
  have h1 : l[l.idxOf a]? = some a := by simp [ha]
  have h2 : l[l.idxOf b]? = some b := by simp [hb]
  rw [h, h2] at h1
  exact (Option.some.inj h1).symm

/-- Adjacency of one node, restricted to the nodes not visited before it. -/
theorem adj_filter (g : Graph V A) {n : V} (hn : n ∈ g.nodes) :
    ((g.adj n).filter (fun p => g.directed || decide (g.nodes.idxOf n ≤ g.nodes.idxOf p.1))).map
      (fun p => (⟨n, p.1, p.2⟩ : Link V A)) =
    (g.links.map g.orient).filter (fun l => decide (l.u = n)) := by
  unfold adj
  induction g.links with
  | nil => rfl
  | cons l ls ih =>
    rw [List.map_cons, List.filter_cons]
    by_cases hd : g.directed = true
    · simp only [hd, Bool.true_or, List.filter_true] at ih ⊢
      have ho : g.orient l = l := by simp [orient, hd]
      rw [ho]
      by_cases h : l.u = n
      · have : Link.from? true n l = some (l.v, l.data) := by simp [Link.from?, h]
        rw [List.filterMap_cons_some this, List.map_cons, ih]
        simp [← h]
      · have : Link.from? true n l = none := by simp [Link.from?, h]
        rw [List.filterMap_cons_none this, ih]
        simp [h]
    · simp only [Bool.not_eq_true] at hd
      simp only [hd, Bool.false_or] at ih ⊢
      by_cases h : l.u = n
      · have hf : Link.from? false n l = some (l.v, l.data) := by simp [Link.from?, h]
        rw [List.filterMap_cons_some hf, List.filter_cons]
        by_cases hle : g.nodes.idxOf n ≤ g.nodes.idxOf l.v
        · have ho : g.orient l = l := by simp [orient, hd, h, hle]
          simp only [hle, decide_true, if_true, List.map_cons, ho, h]
          rw [ih, ← h]
        · have ho : g.orient l = ⟨l.v, l.u, l.data⟩ := by simp [orient, hd, h, hle]
          have hne : l.v ≠ n := fun e => hle (e ▸ Nat.le_refl _)
          simp only [hle, decide_false, Bool.false_eq_true, if_false, ho, hne]
          exact ih
      · by_cases h2 : l.v = n
        · have hf : Link.from? false n l = some (l.u, l.data) := by simp [Link.from?, h, h2]
          rw [List.filterMap_cons_some hf, List.filter_cons]
          have hne : g.nodes.idxOf n ≠ g.nodes.idxOf l.u := fun e => h (idxOf_inj hn e).symm
          by_cases hle : g.nodes.idxOf n ≤ g.nodes.idxOf l.u
          · have ho : g.orient l = ⟨l.v, l.u, l.data⟩ := by
              simp [orient, hd, h2]; omega
            simp only [hle, decide_true, if_true, List.map_cons, ho, h2]
            rw [ih]
          · have ho : g.orient l = l := by
              simp [orient, hd, h2]; omega
            simp only [hle, decide_false, Bool.false_eq_true, if_false, ho, h]
            exact ih
        · have hf : Link.from? false n l = none := by simp [Link.from?, h, h2]
          rw [List.filterMap_cons_none hf, ih]
          have : (g.orient l).u ≠ n := by
            rcases g.orient_cases l with e | ⟨_, e⟩ <;> rw [e] <;> assumption
          simp [this]

theorem edgesFrom_eq (g : Graph V A) (hn : g.nodes.Nodup) (pre ns seen : List V)
    (hpre : g.nodes = pre ++ ns) (hseen : ∀ x, x ∈ seen ↔ x ∈ pre) :
    g.edgesFrom seen ns =
      (bucketSort ns (fun l => l.u) (g.links.map g.orient)).flatMap expand := by
  induction ns generalizing pre seen with
  | nil => rfl
  | cons n ns ih =>
    have hmem : n ∈ g.nodes := by rw [hpre]; simp
    have hidx : g.nodes.idxOf n = pre.length := by
      have hnp : n ∉ pre := by
        intro h
        rw [hpre, List.nodup_append] at hn
        exact hn.2.2 n h n (by simp) rfl
      rw [hpre, List.idxOf_append_of_notMem hnp]; simp
    rw [bucketSort_cons, List.flatMap_append, ← adj_filter g hmem]
    unfold edgesFrom
    rw [ih (pre ++ [n]) (n :: seen) (by simp [hpre]) (by intro x; simp [hseen, or_comm])]
    congr 1
    rw [List.flatMap_map]
    have hf : (g.adj n).filter (fun p => g.directed || !decide (p.1 ∈ seen)) =
        (g.adj n).filter (fun p => g.directed || decide (g.nodes.idxOf n ≤ g.nodes.idxOf p.1)) := by
      apply List.filter_congr
      intro p _
      congr 1
      rw [Bool.eq_iff_iff]
      simp only [Bool.not_eq_true', decide_eq_false_iff_not, decide_eq_true_eq, hseen, hidx]
      constructor
      · intro hp
        rw [hpre, List.idxOf_append_of_notMem hp]; omega
      · intro hle hp
        rw [hpre, List.idxOf_append_of_mem hp] at hle
        have := List.idxOf_lt_length_iff.2 hp
        omega
    rw [hf]
    rfl

/-- The listing of the edges is the listing of the links. -/
theorem edgesKeys_eq (g : Graph V A) (hn : g.nodes.Nodup) :
    g.edgesKeys = g.groups.flatMap expand :=
  edgesFrom_eq g hn [] g.nodes [] rfl (by simp)

theorem groups_perm (g : Graph V A) (h : g.WF) : g.groups.Perm (g.links.map g.orient) := by
  refine bucketSort_perm h.nodup ?_
  intro l hl
  obtain ⟨m, hm, rfl⟩ := List.mem_map.1 hl
  have := h.ends m hm
  rcases g.orient_cases m with e | ⟨_, e⟩ <;> rw [e]
  · exact this.1
  · exact this.2

theorem mem_groups {g : Graph V A} (h : g.WF) {l : Link V A} :
    l ∈ g.groups ↔ ∃ m ∈ g.links, g.orient m = l := by
  rw [(groups_perm g h).mem_iff, List.mem_map]

theorem mem_edgesKeys {g : Graph V A} (h : g.WF) {u v : V} {k : PyKey} {a : Attrs A} :
    (u, v, k, a) ∈ g.edgesKeys ↔
      ∃ l ∈ g.links, (g.orient l).u = u ∧ (g.orient l).v = v ∧ (k, a) ∈ l.data := by
  rw [edgesKeys_eq g h.nodup]
  simp only [List.mem_flatMap, mem_groups h, expand, List.mem_map, Prod.mk.injEq, Prod.exists]
  constructor
  · rintro ⟨l, ⟨m, hm, rfl⟩, k', a', hka, rfl, rfl, rfl, rfl⟩
    exact ⟨m, hm, rfl, rfl, by rwa [orient_data] at hka⟩
  · rintro ⟨l, hl, rfl, rfl, hka⟩
    exact ⟨_, ⟨l, hl, rfl⟩, k, a, by rwa [orient_data], rfl, rfl, rfl, rfl⟩

theorem mem_edgesData {g : Graph V A} (h : g.WF) {u v : V} {a : Attrs A} :
    (u, v, a) ∈ g.edgesData ↔
      ∃ l ∈ g.links, (g.orient l).u = u ∧ (g.orient l).v = v ∧ ∃ k, (k, a) ∈ l.data := by
  unfold edgesData
  simp only [List.mem_map, Prod.mk.injEq, Prod.exists]
  constructor
  · rintro ⟨u', v', k, a', he, rfl, rfl, rfl⟩
    obtain ⟨l, hl, h1, h2, h3⟩ := (mem_edgesKeys h).1 he
    exact ⟨l, hl, h1, h2, k, h3⟩
  · rintro ⟨l, hl, h1, h2, k, h3⟩
    exact ⟨u, v, k, a, (mem_edgesKeys h).2 ⟨l, hl, h1, h2, h3⟩, rfl, rfl, rfl⟩

/-! ### Pairs -/

/-- The link of a pair. -/
theorem keydict?_eq_some {g : Graph V A} (h : g.WF) {u v : V} {d : Dict PyKey (Attrs A)} :
    g.keydict? u v = some d ↔ ∃ l ∈ g.links, samePair g.directed u v l.u l.v = true ∧ l.data = d := by
  unfold keydict?
  have hu := h.uniq
  generalize g.links = L at hu
  induction L with
  | nil => simp
  | cons l ls ih =>
    rw [List.pairwise_cons] at hu
    rw [List.find?_cons]
    by_cases hl : samePair g.directed u v l.u l.v = true
    · simp only [hl, Option.map_some, Option.some.injEq, List.mem_cons, exists_eq_or_imp, true_and]
      constructor
      · exact .inl
      · rintro (e | ⟨m, hm, hs, e⟩)
        · exact e
        · rw [samePair_trans hl, hu.1 m hm] at hs
          simp at hs
    · simp only [Bool.not_eq_true] at hl
      simp only [hl, List.mem_cons, exists_eq_or_imp, Bool.false_eq_true, false_and, false_or]
      exact ih hu.2

theorem keydict?_eq_none {g : Graph V A} {u v : V} :
    g.keydict? u v = none ↔ ∀ l ∈ g.links, samePair g.directed u v l.u l.v = false := by
  simp [keydict?]

theorem hasEdge_iff {g : Graph V A} {u v : V} :
    g.hasEdge u v = true ↔ ∃ l ∈ g.links, samePair g.directed u v l.u l.v = true := by
  simp [hasEdge, keydict?]

theorem keydict?_samePair {g : Graph V A} {u v x y : V} (h : samePair g.directed u v x y = true) :
    g.keydict? u v = g.keydict? x y := by
  unfold keydict?
  congr 2
  funext l
  exact samePair_trans h

/-- Adjacency is the pairs. -/
theorem mem_adj {g : Graph V A} (h : g.WF) {n m : V} {d : Dict PyKey (Attrs A)} :
    (m, d) ∈ g.adj n ↔ g.keydict? n m = some d := by
  rw [keydict?_eq_some h]
  unfold adj
  simp only [List.mem_filterMap]
  constructor
  · rintro ⟨l, hl, hf⟩
    refine ⟨l, hl, ?_⟩
    unfold Link.from? at hf
    split at hf
    · rename_i e
      simp only [Option.some.injEq, Prod.mk.injEq] at hf
      exact ⟨samePair_iff.2 (.inl ⟨e.symm, hf.1.symm⟩), hf.2⟩
    · split at hf
      · rename_i e
        simp only [Option.some.injEq, Prod.mk.injEq] at hf
        simp only [Bool.and_eq_true, Bool.not_eq_true', decide_eq_true_eq] at e
        exact ⟨samePair_iff.2 (.inr ⟨e.1, e.2.symm, hf.1.symm⟩), hf.2⟩
      · simp at hf
  · rintro ⟨l, hl, hs, rfl⟩
    refine ⟨l, hl, ?_⟩
    rw [samePair_iff] at hs
    unfold Link.from?
    rcases hs with ⟨rfl, rfl⟩ | ⟨hd, rfl, rfl⟩
    · simp
    · by_cases e : l.u = l.v
      · simp [e]
      · simp [e, hd]

theorem mem_neighbors {g : Graph V A} {n m : V} : m ∈ g.neighbors n ↔ g.hasEdge n m = true := by
  unfold neighbors adj
  rw [hasEdge_iff]
  simp only [List.mem_map, List.mem_filterMap, Prod.exists, exists_and_right, exists_eq_right]
  constructor
  · rintro ⟨d, l, hl, hf⟩
    refine ⟨l, hl, ?_⟩
    unfold Link.from? at hf
    split at hf
    · rename_i e
      simp only [Option.some.injEq, Prod.mk.injEq] at hf
      exact samePair_iff.2 (.inl ⟨e.symm, hf.1.symm⟩)
    · split at hf
      · rename_i e
        simp only [Option.some.injEq, Prod.mk.injEq] at hf
        simp only [Bool.and_eq_true, Bool.not_eq_true', decide_eq_true_eq] at e
        exact samePair_iff.2 (.inr ⟨e.1, e.2.symm, hf.1.symm⟩)
      · simp at hf
  · rintro ⟨l, hl, hs⟩
    refine ⟨l.data, l, hl, ?_⟩
    rw [samePair_iff] at hs
    unfold Link.from?
    rcases hs with ⟨rfl, rfl⟩ | ⟨hd, rfl, rfl⟩
    · simp
    · by_cases e : l.u = l.v
      · simp [e]
      · simp [e, hd]

theorem hasEdge_comm {g : Graph V A} (hd : g.directed = false) (u v : V) :
    g.hasEdge u v = g.hasEdge v u := by
  unfold hasEdge
  rw [keydict?_samePair (u := u) (v := v) (x := v) (y := u)]
  rw [samePair_iff]; exact .inr ⟨hd, rfl, rfl⟩

theorem hasEdge_mem {g : Graph V A} (h : g.WF) {u v : V} (he : g.hasEdge u v = true) :
    u ∈ g.nodes ∧ v ∈ g.nodes := by
  obtain ⟨l, hl, hs⟩ := hasEdge_iff.1 he
  have := h.ends l hl
  rcases samePair_iff.1 hs with ⟨rfl, rfl⟩ | ⟨_, rfl, rfl⟩
  · exact this
  · exact ⟨this.2, this.1⟩

theorem mem_pred {g : Graph V A} {n m : V} {d : Dict PyKey (Attrs A)} (hd : g.directed = true) :
    (m, d) ∈ g.pred n ↔ ∃ l ∈ g.links, l.v = n ∧ l.u = m ∧ l.data = d := by
  unfold pred
  simp only [List.mem_filterMap, hd, Link.to?, if_true]
  constructor
  · rintro ⟨l, hl, hf⟩
    split at hf
    · rename_i e
      simp only [Option.some.injEq, Prod.mk.injEq] at hf
      exact ⟨l, hl, e, hf.1, hf.2⟩
    · simp at hf
  · rintro ⟨l, hl, rfl, rfl, rfl⟩
    exact ⟨l, hl, by simp⟩

theorem mem_predecessors {g : Graph V A} {n m : V} :
    m ∈ g.predecessors n ↔ g.hasEdge m n = true := by
  by_cases hd : g.directed = true
  · unfold predecessors
    simp only [List.mem_map, Prod.exists, exists_and_right, exists_eq_right, mem_pred hd, hasEdge_iff]
    constructor
    · rintro ⟨d, l, hl, rfl, rfl, rfl⟩
      exact ⟨l, hl, samePair_refl _ _ _⟩
    · rintro ⟨l, hl, hs⟩
      rcases samePair_iff.1 hs with ⟨rfl, rfl⟩ | ⟨h, _⟩
      · exact ⟨l.data, l, hl, rfl, rfl, rfl⟩
      · rw [hd] at h; simp at h
  · simp only [Bool.not_eq_true] at hd
    have : g.predecessors n = g.neighbors n := by
      unfold predecessors neighbors pred adj
      rw [hd]
      congr 1
    rw [this, mem_neighbors, hasEdge_comm hd]

theorem neighbors_nodup {g : Graph V A} (h : g.WF) (n : V) : (g.neighbors n).Nodup := by
  unfold neighbors adj
  rw [List.Nodup, List.pairwise_map, List.pairwise_filterMap]
  refine h.uniq.imp ?_
  intro l m hs p hp q hq e
  have key : ∀ l : Link V A, ∀ p, Link.from? g.directed n l = some p →
      samePair g.directed n p.1 l.u l.v = true := by
    intro l p hf
    unfold Link.from? at hf
    split at hf
    · rename_i e
      simp only [Option.some.injEq] at hf
      subst hf
      exact samePair_iff.2 (.inl ⟨e.symm, rfl⟩)
    · split at hf
      · rename_i e
        simp only [Option.some.injEq] at hf
        subst hf
        simp only [Bool.and_eq_true, Bool.not_eq_true', decide_eq_true_eq] at e
        exact samePair_iff.2 (.inr ⟨e.1, e.2.symm, rfl⟩)
      · simp at hf
  have h1 := key l p hp
  have h2 := key m q hq
  rw [← e, samePair_trans h1] at h2
  rw [h2] at hs
  simp at hs

end Graph
end Pelote
