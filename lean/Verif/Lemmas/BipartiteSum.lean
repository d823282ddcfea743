import Verif.Lemmas.Bipartite
import Mathlib.Algebra.BigOperators.Group.List.Basic

/-! The weights of a graph counting rows, their sum, and what is collected from rows. -/
namespace Pelote

/-! ### Sums -/

theorem sum_indicator_uniq {d : Bool} {x y : PyKey} {L : List (Link PyKey Data)}
    (hu : L.Pairwise (fun l m => samePair d l.u l.v m.u m.v = false))
    (hx : ∃ l ∈ L, samePair d x y l.u l.v = true) :
    (L.map (fun l => if samePair d x y l.u l.v then 1 else 0)).sum = 1 := by
  induction L with
  | nil => obtain ⟨l, hl, _⟩ := hx; cases hl
  | cons l L ih =>
    rw [List.pairwise_cons] at hu
    rw [List.map_cons, List.sum_cons]
    by_cases hs : samePair d x y l.u l.v = true
    · rw [if_pos hs]
      have : L.map (fun l => if samePair d x y l.u l.v then 1 else 0) = L.map (fun _ => 0) := by
        apply List.map_congr_left
        intro m hm
        rw [samePair_trans hs, hu.1 m hm]; rfl
      rw [this]; simp
    · rw [if_neg hs, ih hu.2]
      obtain ⟨m, hm, h⟩ := hx
      rcases List.mem_cons.1 hm with rfl | hm
      · exact absurd h hs
      · exact ⟨m, hm, h⟩

theorem sum_pairRows {d : Bool} {L : List (Link PyKey Data)}
    (hu : L.Pairwise (fun l m => samePair d l.u l.v m.u m.v = false)) {S : List (PyKey × PyKey × Attrs Data)}
    (hx : ∀ e ∈ S, ∃ l ∈ L, samePair d e.1 e.2.1 l.u l.v = true) :
    (L.map (fun l => (pairRows d l.u l.v S).length)).sum = S.length := by
  induction S with
  | nil => simp [pairRows]
  | cons e S ih =>
    have h1 : L.map (fun l => (pairRows d l.u l.v (e :: S)).length) =
        L.map (fun l => (if samePair d e.1 e.2.1 l.u l.v then 1 else 0) + (pairRows d l.u l.v S).length) := by
      apply List.map_congr_left
      intro l _
      unfold pairRows
      rw [List.filter_cons]
      split
      · simp [Nat.add_comm]
      · simp
    rw [h1, List.sum_map_add, ih (fun e he => hx e (List.mem_cons_of_mem _ he)),
      sum_indicator_uniq hu (hx e List.mem_cons_self), List.length_cons, Nat.add_comm]

/-- The edges listed by networkx, for a sum. -/
theorem sum_edgesData_simple {g : Graph PyKey Data} (h : g.WF) (f : Attrs Data → Int) :
    (g.edgesData.map (fun e => f e.2.2)).sum = (g.links.map (fun l => (l.data.map (fun p => f p.2)).sum)).sum := by
  unfold Graph.edgesData
  rw [List.map_map, Graph.edgesKeys_eq g h.nodup]
  have e1 : (g.groups.flatMap Graph.expand).map ((fun e => f e.2.2) ∘ fun e => (e.1, e.2.1, e.2.2.2)) =
      g.groups.flatMap (fun l => l.data.map (fun p => f p.2)) := by
    rw [List.map_flatMap]
    congr 1
    funext l
    unfold Graph.expand
    rw [List.map_map]; rfl
  rw [e1, ((g.groups_perm h).flatMap_right _).sum_eq, List.flatMap_map]
  have e2 : (fun l => ((g.orient l).data.map (fun p => f p.2))) = fun l : Link PyKey Data => l.data.map (fun p => f p.2) := by
    funext l; rw [Graph.orient_data]
  rw [e2]
  generalize g.links = L
  induction L with
  | nil => rfl
  | cons l L ih => rw [List.flatMap_cons, List.sum_append, ih]; rfl

theorem Counted.hasEdge_iff {g : Graph PyKey Data} {w : String} {S : List (PyKey × PyKey × Attrs Data)}
    (h : Counted g w S) (x y : PyKey) :
    g.hasEdge x y = true ↔ ∃ e ∈ S, samePair g.directed e.1 e.2.1 x y = true := by
  unfold Graph.hasEdge
  rw [h.edges x y]
  unfold expectedCount
  rcases hp : pairRows g.directed x y S with _ | ⟨e, L⟩
  · simp only [Option.isSome_none, Bool.false_eq_true, false_iff]
    rintro ⟨e, he, hs⟩
    have : e ∈ pairRows g.directed x y S := List.mem_filter.2 ⟨he, hs⟩
    rw [hp] at this; cases this
  · simp only [Option.isSome_some, true_iff]
    have : e ∈ pairRows g.directed x y S := by rw [hp]; exact List.mem_cons_self
    exact ⟨e, (List.mem_filter.1 this).1, (List.mem_filter.1 this).2⟩

theorem Counted.link {g : Graph PyKey Data} {w : String} {S : List (PyKey × PyKey × Attrs Data)}
    (h : Counted g w S) {e : PyKey × PyKey × Attrs Data} (he : e ∈ S) :
    ∃ l ∈ g.links, samePair g.directed e.1 e.2.1 l.u l.v = true := by
  have := (h.hasEdge_iff e.1 e.2.1).2 ⟨e, he, samePair_refl _ _ _⟩
  unfold Graph.hasEdge at this
  obtain ⟨d, hd⟩ := Option.isSome_iff_exists.1 this
  obtain ⟨l, hl, hs, _⟩ := (Graph.keydict?_eq_some h.wf).1 hd
  exact ⟨l, hl, hs⟩

/-- The weights sum to the number of rows. -/
theorem Counted.sum {g : Graph PyKey Data} {w : String} {S : List (PyKey × PyKey × Attrs Data)}
    (h : Counted g w S) : (g.edgesData.map (fun e => intWeight w e.2.2)).sum = (S.length : Int) := by
  have cast : ∀ L : List Nat, ((L.sum : Nat) : Int) = (L.map (fun n : Nat => (n : Int))).sum := by
    intro L
    induction L with
    | nil => rfl
    | cons n L ih => rw [List.sum_cons, List.map_cons, List.sum_cons, Int.natCast_add, ih]
  rw [sum_edgesData_simple h.wf, ← sum_pairRows h.wf.uniq (fun e he => h.link he), cast, List.map_map]
  congr 1
  apply List.map_congr_left
  intro l hl
  have hk : g.keydict? l.u l.v = some l.data :=
    (Graph.keydict?_eq_some h.wf).2 ⟨l, hl, samePair_refl _ _ _, rfl⟩
  rw [h.edges] at hk
  unfold expectedCount at hk
  simp only [Function.comp_apply]
  rcases hp : pairRows g.directed l.u l.v S with _ | ⟨e, L⟩
  · rw [hp] at hk; cases hk
  · rw [hp] at hk
    rw [← Option.some.inj hk]
    simp [intWeight, Dict.get?_set_self]

/-! ### Collected data -/

theorem collectColumns_get? {row : Row} {m : List (PyKey × PyKey)} {d a : Attrs Data}
    (h : collectColumns row m a = .ok d) (k : PyKey) :
    d.get? k = (((m.filter (fun p => decide (p.2 = k))).filterMap
      (fun p => CollectedData.notNone row p.1)).getLast?).or (a.get? k) := by
  induction m generalizing a with
  | nil => cases h; simp
  | cons p m ih =>
    obtain ⟨c, n⟩ := p
    unfold collectColumns at h
    have key : ∀ v, CollectedData.notNone row c = some v → collectColumns row m (a.set n v) = .ok d →
        d.get? k = ((((c, n) :: m).filter (fun p => decide (p.2 = k))).filterMap
          (fun p => CollectedData.notNone row p.1)).getLast?.or (a.get? k) := by
      intro v hv h
      rw [ih h, Dict.get?_set, List.filter_cons]
      by_cases hn : n = k
      · simp only [hn, if_true, decide_true, List.filterMap_cons, hv]
        cases hl : ((m.filter (fun p => decide (p.2 = k))).filterMap
          (fun p => CollectedData.notNone row p.1)).getLast? with
        | none =>
          rw [List.getLast?_eq_none_iff] at hl
          rw [hl]; simp
        | some x => rw [List.getLast?_cons, hl]; simp
      · rw [if_neg hn]
        simp [hn]
    have key0 : CollectedData.notNone row c = none → collectColumns row m a = .ok d →
        d.get? k = ((((c, n) :: m).filter (fun p => decide (p.2 = k))).filterMap
          (fun p => CollectedData.notNone row p.1)).getLast?.or (a.get? k) := by
      intro hv h
      rw [ih h, List.filter_cons]
      split
      · simp [hv]
      · rfl
    cases hg : row.get c with
    | error e => rw [hg] at h; cases h
    | ok v =>
      rw [hg] at h
      cases v with
      | none => exact key0 (by simp [CollectedData.notNone, hg]) h
      | _ => exact key _ (by simp only [CollectedData.notNone, hg]) h

theorem collectColumns_nodup {row : Row} {m : List (PyKey × PyKey)} {d a : Attrs Data}
    (h : collectColumns row m a = .ok d) (ha : a.keys.Nodup) : d.keys.Nodup := by
  induction m generalizing a with
  | nil => cases h; exact ha
  | cons p m ih =>
    obtain ⟨c, n⟩ := p
    unfold collectColumns at h
    split at h
    · cases h
    · exact ih h ha
    · exact ih h (Dict.nodup_set _ _ ha)

/-- What `node_attr` holds. -/
theorem partAttributes_get? {p : String} {name label : PyKey} {data : Option RowSpec} {row : Row} {a : Attrs Data}
    (hf : FuncDicts data) (h : partAttributes p name label data row = .ok a) :
    ∃ d, CollectedData data row d ∧ a.keys.Nodup ∧ ∀ k, a.get? k = (d.get? k).or
      (if k = .str "label" then some (.str label.toStr)
        else if k = .str p then some (Data.ofKey name) else none) := by
  have base : ∀ k, (Dict.set [(.str p, Data.ofKey name)] (.str "label") (.str label.toStr) : Attrs Data).get? k =
      (if k = .str "label" then some (.str label.toStr)
        else if k = .str p then some (Data.ofKey name) else none) := by
    intro k
    rw [Dict.get?_set, Dict.get?_cons, Dict.get?_nil]
    simp only [eq_comm (a := k)]
  have nd : (Dict.set [(.str p, Data.ofKey name)] (.str "label") (.str label.toStr) : Attrs Data).keys.Nodup :=
    Dict.nodup_set _ _ (by simp [Dict.keys])
  unfold partAttributes at h
  have upd : ∀ d : Attrs Data, d.keys.Nodup →
      a = (Dict.set [(.str p, Data.ofKey name)] (.str "label") (.str label.toStr) : Attrs Data).update d →
      a.keys.Nodup ∧ ∀ k, a.get? k = (d.get? k).or
      (if k = .str "label" then some (.str label.toStr)
        else if k = .str p then some (Data.ofKey name) else none) := by
    rintro d hd rfl
    refine ⟨Dict.nodup_update _ nd, fun k => ?_⟩
    rw [Dict.get?_update _ _ hd, base]
  have keep : a = (Dict.set [(.str p, Data.ofKey name)] (.str "label") (.str label.toStr) : Attrs Data) →
      a.keys.Nodup ∧ ∀ k, a.get? k = ((Dict.get? ([] : Attrs Data) k).or
      (if k = .str "label" then some (.str label.toStr)
        else if k = .str p then some (Data.ofKey name) else none)) := by
    rintro rfl
    exact ⟨nd, fun k => by rw [base]; simp⟩
  cases data with
  | none => cases h; exact ⟨[], rfl, keep rfl⟩
  | some spec =>
    simp only at h
    split at h
    · rename_i ht
      split at h
      · cases h
      · rename_i d hd
        cases h
        cases spec with
        | func f =>
          unfold collectRowData at hd
          simp only at hd
          split at hd
          · cases hd
          · rename_i hfr; cases hd
            exact ⟨d, hfr, upd d (hf f rfl _ _ hfr) rfl⟩
          · cases hd
        | mapping m =>
          refine ⟨d, ?_, upd d (collectColumns_nodup hd (by simp [Dict.keys])) rfl⟩
          intro k
          rw [collectColumns_get? hd]; simp
        | seq l =>
          refine ⟨d, ?_, upd d (collectColumns_nodup hd (by simp [Dict.keys])) rfl⟩
          intro k
          rw [collectColumns_get? hd, Dict.get?_nil, Option.or_none, List.filter_map, List.filterMap_map]
          have e : ((fun p : PyKey × PyKey => CollectedData.notNone row p.1) ∘ fun c => (c, c)) =
              fun c => CollectedData.notNone row c := rfl
          rw [e]
          have e2 : ((fun p : PyKey × PyKey => decide (p.2 = k)) ∘ fun c => (c, c)) = fun c => decide (c = k) := rfl
          rw [e2]
          have e3 : ∀ L : List PyKey, ((L.filter (fun c => decide (c = k))).filterMap
              (fun c => CollectedData.notNone row c)).getLast? =
              if k ∈ L then CollectedData.notNone row k else none := by
            intro L
            induction L with
            | nil => simp
            | cons c L ih =>
              rw [List.filter_cons]
              by_cases hc : c = k
              · simp only [hc, decide_true, if_true, List.mem_cons, true_or]
                rw [List.filterMap_cons]
                cases hv : CollectedData.notNone row k with
                | none =>
                  simp only
                  rw [ih, hv]; split <;> rfl
                | some v =>
                  simp only
                  rw [List.getLast?_cons, ih, hv]; split <;> rfl
              · have : ¬ k = c := fun e => hc e.symm
                simp only [hc, decide_false, Bool.false_eq_true, if_false, List.mem_cons, this, false_or]
                exact ih
          exact e3 l
        | other t => cases hd
    · rename_i ht
      cases h
      refine ⟨[], ?_, keep rfl⟩
      cases spec with
      | func f => exact absurd rfl ht
      | mapping m =>
        have : m = [] := by simpa [RowSpec.truthy] using ht
        subst this; intro k; simp
      | seq l =>
        have : l = [] := by simpa [RowSpec.truthy] using ht
        subst this; intro k; simp
      | other t => exact ⟨by simpa [RowSpec.truthy] using ht, rfl⟩

end Pelote
