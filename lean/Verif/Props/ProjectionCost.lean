import Verif.Spec.ProjectionCost
import Verif.Lemmas.Strength
import Verif.Lemmas.Degree
import Verif.Props.Projection
import Verif.Props.Sparsification

/-! C111: what a monopartite projection costs, and how many edges it may return. -/
set_option linter.unusedSectionVars false
namespace Pelote
variable {V K : Type} [LinearOrder V] [Field K] [LinearOrder K]

/-! ### The counters do not change the result -/

theorem sharedLoopTraced_result [PyOrd V] (g : Graph V (Val K)) (weightAttr : String) (n1 : V) (w1 : Val K)
    (L : List (V × Dict PyKey (Attrs (Val K)))) (m : OnlineMetric V K) :
    (sharedLoopTraced g weightAttr n1 w1 L m).1 = sharedLoop g weightAttr n1 w1 L m := by
  induction L generalizing m with
  | nil => rfl
  | cons p L ih =>
    obtain ⟨n2, d⟩ := p
    unfold sharedLoopTraced sharedLoop
    split
    · exact ih m
    · cases PyOrd.gt n1 n2 with
      | error e => rfl
      | ok b =>
        cases b with
        | true => exact ih m
        | false =>
          simp only
          cases m.intersect n2 w1 (taWeight g d weightAttr) with
          | error e => rfl
          | ok m' => exact ih m'

theorem tokenLoopTraced_result [PyOrd V] (g : Graph V (Val K)) (weightAttr : String) (n1 : V)
    (L : List (V × Dict PyKey (Attrs (Val K)))) (m : OnlineMetric V K) :
    (tokenLoopTraced g weightAttr n1 L m).1 = tokenLoop g weightAttr n1 L m := by
  induction L generalizing m with
  | nil => rfl
  | cons p L ih =>
    obtain ⟨t, d⟩ := p
    unfold tokenLoopTraced tokenLoop
    rw [← sharedLoopTraced_result]
    rcases sharedLoopTraced g weightAttr n1 (taWeight g d weightAttr) (g.adj t) m with ⟨e | m', i, j⟩
    · rfl
    · exact ih m'

theorem projectLoopTraced_result [PyOrd V] [PyMath K] [AttrVal (Val K)] (g : Graph V (Val K)) (weightAttr : String)
    (t : Option K) (L : List V) (m : OnlineMetric V K) (mono : Graph V (Val K)) :
    (projectLoopTraced g weightAttr t L m mono).1 = projectLoop g weightAttr t L m mono := by
  induction L generalizing m mono with
  | nil => rfl
  | cons n1 L ih =>
    unfold projectLoopTraced projectLoop
    cases m.startIntersection n1 with
    | error e => rfl
    | ok m1 =>
      simp only
      rw [← tokenLoopTraced_result]
      rcases tokenLoopTraced g weightAttr n1 (g.adj n1) m1 with ⟨e | m2, i, j⟩
      · rfl
      · simp only
        cases linkLoop m2 t n1 m2.inter mono with
        | error e => rfl
        | ok mono1 => exact ih m2 mono1

theorem monopartiteProjectionTraced_result [PyOrd V] [PyMath K] [AttrVal (Val K)] (g : Graph V (Val K))
    (part : Part V K) (partAttr weightAttr : String) (metric : Option String) (check : Bool)
    (threshold : Option (Val K)) :
    (monopartiteProjectionTraced g part partAttr weightAttr metric check threshold).1 =
      monopartiteProjection g part partAttr weightAttr metric check threshold := by
  unfold monopartiteProjectionTraced monopartiteProjection
  cases instantiateMetric metric with
  | error e => rfl
  | ok kind =>
    simp only
    cases checkThreshold threshold with
    | error e => rfl
    | ok t =>
      simp only
      split
      · rfl
      · cases partLoop g part partAttr weightAttr check g.node (OnlineMetric.init kind) (Graph.empty false false []) true with
        | error e => rfl
        | ok r =>
          obtain ⟨m, mono, b⟩ := r
          simp only
          split
          · rfl
          · exact projectLoopTraced_result ..

/-! ### The counters of the loops -/

theorem Dict.length_set_le {κ ν : Type} [DecidableEq κ] (d : Dict κ ν) (k : κ) (v : ν) :
    (d.set k v).length ≤ d.length + 1 := by
  induction d with
  | nil => simp [Dict.set]
  | cons p d ih =>
    unfold Dict.set
    split
    · simp
    · simp only [List.length_cons]; omega

section
variable [PyOrd V] {g : Graph V (Val K)} {weightAttr : String} {n1 : V}

theorem sharedLoopTraced_reads {w1 : Val K} (L : List (V × Dict PyKey (Attrs (Val K)))) (m : OnlineMetric V K) :
    (sharedLoopTraced g weightAttr n1 w1 L m).2.1 ≤ L.length ∧
      (∀ m', (sharedLoopTraced g weightAttr n1 w1 L m).1 = .ok m' →
        (sharedLoopTraced g weightAttr n1 w1 L m).2.1 = L.length ∧
        m'.inter.length ≤ m.inter.length + (sharedLoopTraced g weightAttr n1 w1 L m).2.2) := by
  induction L generalizing m with
  | nil =>
    refine ⟨le_rfl, ?_⟩
    rintro m' h
    cases h
    exact ⟨rfl, le_rfl⟩
  | cons p L ih =>
    obtain ⟨n2, d⟩ := p
    unfold sharedLoopTraced
    split
    · simp only [List.length_cons]
      exact ⟨Nat.succ_le_succ (ih m).1, fun m' h => ⟨by rw [((ih m).2 m' h).1], ((ih m).2 m' h).2⟩⟩
    · cases PyOrd.gt n1 n2 with
      | error e => exact ⟨by simp, fun m' h => by cases h⟩
      | ok b =>
        cases b with
        | true =>
          simp only [List.length_cons]
          exact ⟨Nat.succ_le_succ (ih m).1, fun m' h => ⟨by rw [((ih m).2 m' h).1], ((ih m).2 m' h).2⟩⟩
        | false =>
          simp only
          cases hi : m.intersect n2 w1 (taWeight g d weightAttr) with
          | error e => exact ⟨by simp, fun m' h => by cases h⟩
          | ok m1 =>
            simp only [List.length_cons]
            refine ⟨Nat.succ_le_succ (ih m1).1, fun m' h => ⟨by rw [((ih m1).2 m' h).1], ?_⟩⟩
            have h1 := ((ih m1).2 m' h).2
            have h2 : m1.inter.length ≤ m.inter.length + 1 := by
              unfold OnlineMetric.intersect at hi
              split at hi
              · cases hi
              · cases hi
                exact Dict.length_set_le _ _ _
            omega

theorem sharedLoopTraced_calls (ho : OrderedKeys V) {w1 : Val K} (L : List (V × Dict PyKey (Attrs (Val K))))
    (m : OnlineMetric V K) :
    (sharedLoopTraced g weightAttr n1 w1 L m).2.2 ≤ (L.filter (fun p => decide (n1 < p.1))).length ∧
      (∀ m', (sharedLoopTraced g weightAttr n1 w1 L m).1 = .ok m' →
        (sharedLoopTraced g weightAttr n1 w1 L m).2.2 = (L.filter (fun p => decide (n1 < p.1))).length) := by
  induction L generalizing m with
  | nil => exact ⟨le_rfl, fun m' h => rfl⟩
  | cons p L ih =>
    obtain ⟨n2, d⟩ := p
    unfold sharedLoopTraced
    split
    · rename_i he
      subst he
      rw [List.filter_cons_of_neg (by simp)]
      exact ih m
    · rename_i hne
      rw [ho n1 n2]
      by_cases hlt : n2 < n1
      · rw [List.filter_cons_of_neg (by simpa using hlt.le)]
        simp only [hlt, decide_true]
        exact ih m
      · rw [List.filter_cons_of_pos (by simpa using lt_of_le_of_ne (not_lt.1 hlt) (Ne.symm hne))]
        simp only [hlt, decide_false, List.length_cons]
        cases m.intersect n2 w1 (taWeight g d weightAttr) with
        | error e => exact ⟨by simp, fun m' h => by cases h⟩
        | ok m1 =>
          exact ⟨Nat.succ_le_succ (ih m1).1, fun m' h => by simp only; rw [(ih m1).2 m' h]⟩

theorem tokenLoopTraced_reads (L : List (V × Dict PyKey (Attrs (Val K)))) (m : OnlineMetric V K) :
    (tokenLoopTraced g weightAttr n1 L m).2.1 ≤ (L.map (fun q => (g.adj q.1).length)).sum ∧
      (∀ m', (tokenLoopTraced g weightAttr n1 L m).1 = .ok m' →
        (tokenLoopTraced g weightAttr n1 L m).2.1 = (L.map (fun q => (g.adj q.1).length)).sum ∧
        m'.inter.length ≤ m.inter.length + (tokenLoopTraced g weightAttr n1 L m).2.2) := by
  induction L generalizing m with
  | nil =>
    refine ⟨le_rfl, ?_⟩
    rintro m' h
    cases h
    exact ⟨rfl, le_rfl⟩
  | cons p L ih =>
    obtain ⟨t, d⟩ := p
    unfold tokenLoopTraced
    have hs := sharedLoopTraced_reads (g := g) (weightAttr := weightAttr) (n1 := n1)
      (w1 := taWeight g d weightAttr) (g.adj t) m
    revert hs
    rcases sharedLoopTraced g weightAttr n1 (taWeight g d weightAttr) (g.adj t) m with ⟨e | m1, i, j⟩
    · rintro ⟨h1, -⟩
      exact ⟨by simp at h1 ⊢; omega, fun m' h => by cases h⟩
    · rintro ⟨-, h2⟩
      obtain ⟨h2, h3⟩ := h2 m1 rfl
      simp only at h2 h3
      simp only [List.map_cons, List.sum_cons]
      refine ⟨by have := (ih m1).1; omega, fun m' h => ?_⟩
      obtain ⟨h4, h5⟩ := (ih m1).2 m' h
      exact ⟨by omega, by omega⟩

theorem tokenLoopTraced_calls (ho : OrderedKeys V) (L : List (V × Dict PyKey (Attrs (Val K)))) (m : OnlineMetric V K) :
    (tokenLoopTraced g weightAttr n1 L m).2.2 ≤
        (L.map (fun q => ((g.adj q.1).filter (fun p => decide (n1 < p.1))).length)).sum ∧
      (∀ m', (tokenLoopTraced g weightAttr n1 L m).1 = .ok m' →
        (tokenLoopTraced g weightAttr n1 L m).2.2 =
          (L.map (fun q => ((g.adj q.1).filter (fun p => decide (n1 < p.1))).length)).sum) := by
  induction L generalizing m with
  | nil => exact ⟨le_rfl, fun m' h => rfl⟩
  | cons p L ih =>
    obtain ⟨t, d⟩ := p
    unfold tokenLoopTraced
    have hs := sharedLoopTraced_calls ho (g := g) (weightAttr := weightAttr) (n1 := n1)
      (w1 := taWeight g d weightAttr) (g.adj t) m
    revert hs
    rcases sharedLoopTraced g weightAttr n1 (taWeight g d weightAttr) (g.adj t) m with ⟨e | m1, i, j⟩
    · rintro ⟨h1, -⟩
      exact ⟨by simp at h1 ⊢; omega, fun m' h => by cases h⟩
    · rintro ⟨-, h2⟩
      have h2 := h2 m1 rfl
      simp only at h2
      simp only [List.map_cons, List.sum_cons]
      refine ⟨by have := (ih m1).1; omega, fun m' h => ?_⟩
      have h4 := (ih m1).2 m' h
      omega

end

section
variable [PyOrd V] [PyMath K] [AttrVal (Val K)] {g : Graph V (Val K)} {weightAttr : String} {t : Option K}

theorem linkLoop_length {m : OnlineMetric V K} {n1 : V} {I : Dict V K} {mono mono' : Graph V (Val K)}
    (h : linkLoop m t n1 I mono = .ok mono') (hs : mono.multi = false) :
    mono'.links.length ≤ mono.links.length + I.length ∧ mono'.multi = false := by
  induction I generalizing mono with
  | nil => cases h; exact ⟨le_rfl, hs⟩
  | cons p I ih =>
    obtain ⟨n2, i⟩ := p
    unfold linkLoop at h
    split at h
    · cases h
    · split at h
      · cases h
      · split at h
        · obtain ⟨h1, h2⟩ := ih h hs
          exact ⟨by simp only [List.length_cons]; omega, h2⟩
        · split at h
          · cases h
          · rename_i mono1 hadd
            rw [Graph.addEdge_ok (by rw [hs]; exact weight_kwSafe _)] at hadd
            have hadd := Except.ok.inj hadd
            have hl : mono1.links.length ≤ mono.links.length + 1 := by
              have hlink : ∀ (dir mul : Bool) (u v : V) (k : Option PyKey) (a : Attrs (Val K)) (ls : List (Link V (Val K))),
                  (Graph.addLink dir mul u v k a ls).length ≤ ls.length + 1 := by
                intro dir mul u v k a ls
                induction ls with
                | nil => simp [Graph.addLink]
                | cons l ls ih =>
                  unfold Graph.addLink
                  split
                  · simp
                  · simp only [List.length_cons]; omega
              rw [← hadd]
              unfold Graph.addEdgeCore
              simp only
              refine (hlink _ _ _ _ _ _ _).trans (le_of_eq ?_)
              simp only [Graph.ensureNode]
              split <;> split <;> rfl
            obtain ⟨h1, h2⟩ := ih h (by rw [← hadd, Graph.addEdgeCore_multi]; exact hs)
            exact ⟨by simp only [List.length_cons]; omega, h2⟩

theorem projectLoopTraced_reads (L : List V) (m : OnlineMetric V K) (mono : Graph V (Val K)) :
    (projectLoopTraced g weightAttr t L m mono).2.1 ≤
        (L.map (fun n => ((g.adj n).map (fun q => (g.adj q.1).length)).sum)).sum ∧
      (∀ r, (projectLoopTraced g weightAttr t L m mono).1 = .ok r →
        (projectLoopTraced g weightAttr t L m mono).2.1 =
          (L.map (fun n => ((g.adj n).map (fun q => (g.adj q.1).length)).sum)).sum ∧
        (mono.multi = false →
          r.links.length ≤ mono.links.length + (projectLoopTraced g weightAttr t L m mono).2.2)) := by
  induction L generalizing m mono with
  | nil =>
    refine ⟨le_rfl, ?_⟩
    rintro m' h
    cases h
    exact ⟨rfl, fun _ => le_rfl⟩
  | cons n1 L ih =>
    unfold projectLoopTraced
    cases hs : m.startIntersection n1 with
    | error e => exact ⟨by simp, fun m' h => by cases h⟩
    | ok m1 =>
      simp only
      have hi := (startIntersection_ok hs).2.2.2.1
      have ht := tokenLoopTraced_reads (g := g) (weightAttr := weightAttr) (n1 := n1) (g.adj n1) m1
      revert ht
      rcases tokenLoopTraced g weightAttr n1 (g.adj n1) m1 with ⟨e | m2, i, j⟩
      · rintro ⟨h1, -⟩
        exact ⟨by simp at h1 ⊢; omega, fun m' h => by cases h⟩
      · rintro ⟨-, h2⟩
        obtain ⟨h2, h3⟩ := h2 m2 rfl
        simp only [hi, List.length_nil, Nat.zero_add] at h2 h3
        simp only [List.map_cons, List.sum_cons]
        cases hl : linkLoop m2 t n1 m2.inter mono with
        | error e => exact ⟨by simp only; omega, fun m' h => by cases h⟩
        | ok mono1 =>
          simp only
          refine ⟨by have := (ih m2 mono1).1; omega, fun r hr => ?_⟩
          obtain ⟨h4, h5⟩ := (ih m2 mono1).2 r hr
          refine ⟨by omega, fun hs => ?_⟩
          obtain ⟨h6, h7⟩ := linkLoop_length hl hs
          have := h5 h7
          omega

theorem projectLoopTraced_calls (ho : OrderedKeys V) (L : List V) (m : OnlineMetric V K) (mono : Graph V (Val K)) :
    (projectLoopTraced g weightAttr t L m mono).2.2 ≤
        (L.map (fun n => ((g.adj n).map (fun q => ((g.adj q.1).filter (fun p => decide (n < p.1))).length)).sum)).sum ∧
      (∀ r, (projectLoopTraced g weightAttr t L m mono).1 = .ok r →
        (projectLoopTraced g weightAttr t L m mono).2.2 =
          (L.map (fun n => ((g.adj n).map (fun q => ((g.adj q.1).filter (fun p => decide (n < p.1))).length)).sum)).sum) := by
  induction L generalizing m mono with
  | nil => exact ⟨le_rfl, fun m' h => rfl⟩
  | cons n1 L ih =>
    unfold projectLoopTraced
    cases hs : m.startIntersection n1 with
    | error e => exact ⟨by simp, fun m' h => by cases h⟩
    | ok m1 =>
      simp only
      have ht := tokenLoopTraced_calls ho (g := g) (weightAttr := weightAttr) (n1 := n1) (g.adj n1) m1
      revert ht
      rcases tokenLoopTraced g weightAttr n1 (g.adj n1) m1 with ⟨e | m2, i, j⟩
      · rintro ⟨h1, -⟩
        exact ⟨by simp at h1 ⊢; omega, fun m' h => by cases h⟩
      · rintro ⟨-, h2⟩
        have h2 := h2 m2 rfl
        simp only at h2
        simp only [List.map_cons, List.sum_cons]
        cases hl : linkLoop m2 t n1 m2.inter mono with
        | error e => exact ⟨by simp only; omega, fun m' h => by cases h⟩
        | ok mono1 =>
          simp only
          refine ⟨by have := (ih m2 mono1).1; omega, fun r hr => ?_⟩
          have h4 := (ih m2 mono1).2 r hr
          omega

end

/-! ### Whose neighbors are met -/

theorem normLoop_count {g : Graph V (Val K)} {part : Part V K} {partAttr weightAttr : String} {check : Bool}
    {L : List (V × Dict PyKey (Attrs (Val K)))} {m m' : OnlineMetric V K}
    (h : normLoop g part partAttr weightAttr check L m = .ok m') (hk : m.kind ≠ .cosine) :
    m'.acc = m.acc + (L.length : K) := by
  induction L generalizing m with
  | nil => cases h; simp
  | cons p L ih =>
    obtain ⟨t, d⟩ := p
    unfold normLoop at h
    split at h
    · cases h
    · split at h
      · cases h
      · rename_i m1 h1
        have h2 : m1 = { m with acc := m.acc + 1 } := by
          unfold OnlineMetric.accumulateNorm at h1
          split at h1
          · rename_i hc; exact absurd hc hk
          · exact (Except.ok.inj h1).symm
        rw [ih h (by rw [h2]; exact hk), h2]
        simp only [List.length_cons]
        push_cast
        ring

theorem partLoop_keys [IsStrictOrderedRing K] [PyMath K] {g : Graph V (Val K)} {part : Part V K} {partAttr weightAttr : String} {check : Bool}
    {L : Dict V (Attrs (Val K))} {m m' : OnlineMetric V K} {mono mono' : Graph V (Val K)} {b b' : Bool}
    (h : partLoop g part partAttr weightAttr check L m mono b = .ok (m', mono', b'))
    (hL : L.keys.Nodup) (hdis : ∀ n ∈ L.keys, n ∉ m.norms.keys) :
    ∃ S : List V, S.Sublist ((L.filter (fun p => part.keeps partAttr p.1 p.2)).map Prod.fst) ∧
      m'.norms.keys = m.norms.keys ++ S ∧
      (m.kind ≠ .cosine → ∀ p ∈ L, part.keeps partAttr p.1 p.2 = true → g.adj p.1 ≠ [] → p.1 ∈ S) := by
  induction L generalizing m mono b with
  | nil => cases h; exact ⟨[], by simp [Dict.keys], by simp, by simp⟩
  | cons p L ih =>
    obtain ⟨n, a⟩ := p
    rw [Dict.keys_cons, List.nodup_cons] at hL
    unfold partLoop at h
    cases hk : part.keeps partAttr n a with
    | false =>
      rw [hk] at h
      simp only [Bool.not_false, if_true] at h
      obtain ⟨S, i1, i2, i3⟩ := ih h hL.2 (fun x hx => hdis x (by simp [Dict.keys_cons, hx]))
      refine ⟨S, by rw [List.filter_cons_of_neg (by simp [hk])]; exact i1, i2, ?_⟩
      intro hc p hp hkp hne
      rcases List.mem_cons.1 hp with rfl | hp
      · simp [hk] at hkp
      · exact i3 hc p hp hkp hne
    | true =>
      rw [hk] at h
      simp only [Bool.not_true, Bool.false_eq_true, if_false] at h
      split at h
      · cases h
      · rename_i m1 h1
        split at h
        · cases h
        · rename_i m2 h2
          split at h
          · cases h
          · rename_i mono1 h3
            obtain ⟨j1, j2, j3⟩ := normLoop_frame _ _ _ _ _ h1
            rw [OnlineMetric.addNorm_ok] at h2
            have h2' := Except.ok.inj h2
            rw [List.filter_cons_of_pos (by simp [hk]), List.map_cons]
            have hkind : m1.kind = m.kind := j1
            have hnorms : m1.norms = m.norms := j2
            cases hkeep : m1.keepNorm with
            | true =>
              rw [hkeep] at h2'
              simp only [if_true] at h2'
              have hfresh : n ∉ m1.norms.keys := by rw [hnorms]; exact hdis n (by simp [Dict.keys_cons])
              have hkeys : m2.norms.keys = m.norms.keys ++ [n] := by
                rw [← h2', Dict.set_of_not_mem _ hfresh, Dict.keys_append, hnorms]
                rfl
              obtain ⟨S, i1, i2, i3⟩ := ih h hL.2 (by
                intro x hx
                rw [hkeys, List.mem_append, List.mem_singleton]
                rintro (hx' | rfl)
                · exact hdis x (by simp [Dict.keys_cons, hx]) hx'
                · exact hL.1 hx)
              refine ⟨n :: S, i1.cons_cons n, by rw [i2, hkeys]; simp, ?_⟩
              intro hc p hp hkp hne
              rcases List.mem_cons.1 hp with rfl | hp
              · exact List.mem_cons_self
              · exact List.mem_cons_of_mem _ (i3 (by rw [← h2']; simpa [hkind] using hc) p hp hkp hne)
            | false =>
              rw [hkeep] at h2'
              simp only [Bool.false_eq_true, if_false] at h2'
              subst h2'
              obtain ⟨S, i1, i2, i3⟩ := ih h hL.2 (by
                intro x hx
                rw [hnorms]
                exact hdis x (by simp [Dict.keys_cons, hx]))
              refine ⟨S, i1.cons n, by rw [i2, hnorms], ?_⟩
              intro hc p hp hkp hne
              rcases List.mem_cons.1 hp with rfl | hp
              · exfalso
                have hacc := normLoop_count h1 hc
                have hpos : (0 : K) < m1.acc := by
                  rw [hacc]
                  simp only [OnlineMetric.resetNorm, zero_add]
                  exact_mod_cast List.length_pos_of_ne_nil hne
                have : m1.keepNorm = true := by
                  unfold OnlineMetric.keepNorm
                  split
                  · simpa using hpos.le
                  · simpa using hpos
                rw [this] at hkeep
                cases hkeep
              · exact i3 (by rw [hkind]; exact hc) p hp hkp hne

/-! ### Counting -/

theorem length_adj {A : Type} {g : Graph V A} (h : g.WF) (n : V) : (g.adj n).length = (g.nbhd n).card := by
  have : (g.adj n).length = (g.neighbors n).length := by unfold Graph.neighbors; simp
  rw [this, ← List.toFinset_card_of_nodup (Graph.neighbors_nodup h n)]
  congr 1
  ext x
  simp only [List.mem_toFinset, Graph.mem_neighbors, Graph.nbhd, List.mem_filter]
  exact ⟨fun hx => ⟨(Graph.hasEdge_mem h hx).2, hx⟩, fun hx => hx.2⟩

theorem sum_later {S : Finset V} : ∑ n ∈ S, (S.filter (fun v => n < v)).card = S.card.choose 2 := by
  induction S using Finset.induction_on_min with
  | empty => rfl
  | insert a S ha ih =>
    have hna : a ∉ S := fun h => lt_irrefl _ (ha a h)
    rw [Finset.sum_insert hna, Finset.card_insert_of_notMem hna, Nat.choose_succ_succ' _ 1, Nat.choose_one_right, ← ih]
    congr 1
    · congr 1
      ext v
      simp only [Finset.mem_filter, Finset.mem_insert]
      exact ⟨fun ⟨h1, h2⟩ => h1.resolve_left (fun h => lt_irrefl _ (h ▸ h2)), fun h => ⟨.inr h, ha v h⟩⟩
    · refine Finset.sum_congr rfl fun n hn => ?_
      congr 1
      ext v
      simp only [Finset.mem_filter, Finset.mem_insert]
      exact ⟨fun ⟨h1, h2⟩ => ⟨h1.resolve_left (fun h => lt_asymm (h ▸ h2) (ha n hn)), h2⟩, fun ⟨h1, h2⟩ => ⟨.inr h1, h2⟩⟩

theorem swap_neighbors {g : Graph V (Val K)} (h : g.WF) (hd : g.directed = false) {P : Finset V} (hP : P ⊆ g.nodes.toFinset)
    (f : V → V → Nat) :
    ∑ n ∈ P, ∑ t ∈ g.nbhd n, f n t = ∑ t ∈ g.nodes.toFinset, ∑ n ∈ g.nbhd t ∩ P, f n t := by
  refine Finset.sum_comm' fun n t => ?_
  rw [mem_nbhd h, Finset.mem_inter, mem_nbhd h, Graph.hasEdge_comm hd t n, List.mem_toFinset]
  exact ⟨fun ⟨h1, h2⟩ => ⟨⟨h2, h1⟩, (Graph.hasEdge_mem h h2).2⟩, fun ⟨⟨h1, h2⟩, _⟩ => ⟨h2, h1⟩⟩

theorem linkLoop_wf [PyMath K] [AttrVal (Val K)] {m : OnlineMetric V K} {t : Option K} {n1 : V} {I : Dict V K}
    {mono mono' : Graph V (Val K)} (h : linkLoop m t n1 I mono = .ok mono') (hs : mono.multi = false) (hwf : mono.WF) :
    mono'.WF := by
  induction I generalizing mono with
  | nil => cases h; exact hwf
  | cons p I ih =>
    obtain ⟨n2, i⟩ := p
    unfold linkLoop at h
    split at h
    · cases h
    · split at h
      · cases h
      · split at h
        · exact ih h hs hwf
        · split at h
          · cases h
          · rename_i mono1 hadd
            rw [Graph.addEdge_ok (by rw [hs]; exact weight_kwSafe _)] at hadd
            have hadd := Except.ok.inj hadd
            exact ih h (by rw [← hadd, Graph.addEdgeCore_multi]; exact hs) (by rw [← hadd]; exact hwf.addEdgeCore _ _ _ _)

theorem projectLoop_wf [PyOrd V] [PyMath K] [AttrVal (Val K)] {g : Graph V (Val K)} {weightAttr : String}
    {t : Option K} {L : List V} {m : OnlineMetric V K} {mono mono' : Graph V (Val K)}
    (h : projectLoop g weightAttr t L m mono = .ok mono') (hs : mono.multi = false) (hwf : mono.WF) :
    mono'.WF ∧ mono'.multi = false := by
  induction L generalizing m mono with
  | nil => cases h; exact ⟨hwf, hs⟩
  | cons n1 L ih =>
    unfold projectLoop at h
    split at h
    · cases h
    · split at h
      · cases h
      · split at h
        · cases h
        · rename_i h3
          exact ih h (linkLoop_length h3 hs).2 (linkLoop_wf h3 hs hwf)

theorem length_edges_simple {A : Type} {g : Graph V A} (h : g.WF) (hs : g.multi = false) :
    g.edges.length = g.links.length := by
  have h1 := Graph.sum_edges_links h (fun _ => 1) (fun _ _ _ => rfl)
  simp only [List.map_const', List.sum_replicate, smul_eq_mul, mul_one] at h1
  rw [h1]
  have h2 : g.links.map (fun l => l.data.length) = g.links.map (fun _ => 1) := by
    refine List.map_congr_left fun l hl => ?_
    have := congrArg List.length (h.simple hs l hl)
    simpa [Dict.keys] using this
  rw [h2]
  simp

/-! ### C111 -/
section
variable [IsStrictOrderedRing K] [PyOrd V] [PyMath K] [AttrVal (Val K)] {g : Graph V (Val K)} {part : Part V K}
  {partAttr weightAttr : String} {metric : Option String} {check : Bool} {threshold : Option (Val K)}

/-- Either nothing is compared, or the neighbors of the neighbors of some nodes of the part are. -/
theorem projectionTraced_cases (h : g.WF) (hf : ∀ ns r, part ≠ .frozen ns r) :
    ((monopartiteProjectionTraced g part partAttr weightAttr metric check threshold).2 = (0, 0) ∧
      ∀ m, monopartiteProjection g part partAttr weightAttr metric check threshold = .ok m →
        g.nodes = [] ∧ m = Graph.empty false false []) ∨
    ∃ t m mono, monopartiteProjectionTraced g part partAttr weightAttr metric check threshold =
        projectLoopTraced g weightAttr t m.norms.keys m mono ∧
      mono.WF ∧ mono.multi = false ∧ mono.links = [] ∧
      m.norms.keys.Nodup ∧ m.norms.keys.toFinset ⊆ g.partNodes partAttr part ∧
      (metric ≠ some "cosine" → ∀ n ∈ g.partNodes partAttr part, n ∉ m.norms.keys → g.nbhd n = ∅) := by
  classical
  rw [← monopartiteProjectionTraced_result]
  unfold monopartiteProjectionTraced
  cases hk : instantiateMetric metric with
  | error e => exact .inl ⟨rfl, fun m hm => by cases hm⟩
  | ok kind =>
    simp only
    cases checkThreshold threshold with
    | error e => exact .inl ⟨rfl, fun m hm => by cases hm⟩
    | ok t =>
      simp only
      split
      · rename_i h0
        refine .inl ⟨rfl, fun m hm => ⟨?_, (Except.ok.inj hm).symm⟩⟩
        have : g.node = [] := List.eq_nil_of_length_eq_zero h0
        simp [Graph.nodes, this, Dict.keys]
      · cases hp : partLoop g part partAttr weightAttr check g.node (OnlineMetric.init kind) (Graph.empty false false []) true with
        | error e => exact .inl ⟨rfl, fun m hm => by cases hm⟩
        | ok r =>
          obtain ⟨m, mono, b⟩ := r
          simp only
          split
          · exact .inl ⟨rfl, fun m hm => by cases hm⟩
          · right
            obtain ⟨S, s1, s2, s3⟩ := partLoop_keys hp h.nodup (by simp [OnlineMetric.init, Dict.keys])
            obtain ⟨f1, f2, -⟩ := partLoop_frame g part partAttr weightAttr check hp h.nodup
              (by simp [Graph.empty, Graph.nodes, Dict.keys]) h.nodeAttrs
            have hkeys : m.norms.keys = S := by rw [s2]; simp [OnlineMetric.init, Dict.keys]
            have hsub : S.Sublist g.nodes := s1.trans (List.filter_sublist.map Prod.fst)
            refine ⟨t, m, mono, rfl, ?_, by rw [f2]; rfl, by rw [f2]; rfl, ?_, ?_, ?_⟩
            · rw [f2]
              constructor <;> simp [Graph.empty, Dict.keys]
              · have : (keptNodes part partAttr g.node).keys.Nodup := by
                  unfold keptNodes Dict.keys
                  rw [List.map_map]
                  exact h.nodup.sublist (List.filter_sublist.map Prod.fst)
                exact this
              · intro n a ha
                unfold keptNodes at ha
                obtain ⟨⟨n', b⟩, hb, he⟩ := List.mem_map.1 ha
                cases he
                exact nodup_erase _ (h.nodeAttrs _ (List.mem_filter.1 hb).1)
            · rw [hkeys]; exact h.nodup.sublist hsub
            · intro n hn
              rw [List.mem_toFinset, hkeys] at hn
              obtain ⟨⟨n', a⟩, hq, rfl⟩ := List.mem_map.1 (s1.subset hn)
              obtain ⟨hq1, hq2⟩ := List.mem_filter.1 hq
              unfold Graph.partNodes
              rw [Finset.mem_filter, List.mem_toFinset]
              exact ⟨hsub.subset hn, (keeps_iff hf (Dict.get?_of_mem h.nodup hq1)).1 hq2⟩
            · intro hc n hn hnot
              unfold Graph.partNodes at hn
              rw [Finset.mem_filter, List.mem_toFinset] at hn
              obtain ⟨⟨n', a⟩, hq, rfl⟩ := List.mem_map.1 hn.1
              by_contra hne
              have hkc : kind ≠ .cosine := by
                rintro rfl
                have := ((instantiateMetric_exact metric).1 .cosine).1 hk
                simp [metricNames] at this
                exact hc this
              refine hnot (hkeys ▸ s3 hkc (n', a) hq ((keeps_iff hf (Dict.get?_of_mem h.nodup hq)).2 hn.2) ?_)
              intro hadj
              apply hne
              rw [← Finset.card_eq_zero, ← length_adj h]
              simp only at hadj
              rw [hadj]; rfl

theorem sum_adj {A : Type} {g : Graph V A} (h : g.WF) (n : V) (f : V → Nat) :
    ((g.adj n).map (fun q => f q.1)).sum = ∑ t ∈ g.nbhd n, f t := by
  have h1 : (g.adj n).map (fun q => f q.1) = (g.neighbors n).map f := by
    unfold Graph.neighbors; rw [List.map_map]; rfl
  rw [h1, ← List.sum_toFinset _ (Graph.neighbors_nodup h n)]
  refine Finset.sum_congr ?_ fun _ _ => rfl
  ext x
  simp only [List.mem_toFinset, Graph.mem_neighbors, Graph.nbhd, List.mem_filter]
  exact ⟨fun hx => ⟨(Graph.hasEdge_mem h hx).2, hx⟩, fun hx => hx.2⟩

theorem length_filter_adj {A : Type} {g : Graph V A} (h : g.WF) (n t : V) :
    ((g.adj t).filter (fun p => decide (n < p.1))).length = ((g.nbhd t).filter (fun v => n < v)).card := by
  have h1 : ((g.adj t).filter (fun p => decide (n < p.1))).length =
      ((g.neighbors t).filter (fun v => decide (n < v))).length := by
    unfold Graph.neighbors; rw [List.filter_map, List.length_map]; rfl
  rw [h1, ← List.toFinset_card_of_nodup ((Graph.neighbors_nodup h t).filter _)]
  congr 1
  ext x
  simp only [List.mem_toFinset, Graph.mem_neighbors, Graph.nbhd, List.mem_filter, Finset.mem_filter, decide_eq_true_eq]
  exact ⟨fun hx => ⟨⟨(Graph.hasEdge_mem h hx.1).2, hx.1⟩, hx.2⟩, fun hx => ⟨hx.1.2, hx.2⟩⟩

theorem partNodes_subset : g.partNodes partAttr part ⊆ g.nodes.toFinset := by
  classical
  unfold Graph.partNodes; exact Finset.filter_subset _ _

/-- C111.  Whatever the graph, the metric and the outcome, the neighbors of neighbors that a projection of an undirected graph
meets are at most, for each node, the number of its neighbors times the number of those in the part; exactly so when the
projection succeeds, except with the cosine, which skips the nodes of norm 0. -/
theorem projection_reads (h : g.WF) (hd : g.directed = false) (hf : ∀ ns r, part ≠ .frozen ns r) :
    projectionReads g part partAttr weightAttr metric check threshold ≤
        ∑ t ∈ g.nodes.toFinset, (g.nbhd t).card * (g.nbhd t ∩ g.partNodes partAttr part).card ∧
      (metric ≠ some "cosine" → ∀ m,
        monopartiteProjection g part partAttr weightAttr metric check threshold = .ok m →
        projectionReads g part partAttr weightAttr metric check threshold =
          ∑ t ∈ g.nodes.toFinset, (g.nbhd t).card * (g.nbhd t ∩ g.partNodes partAttr part).card) := by
  have hswap : ∑ t ∈ g.nodes.toFinset, (g.nbhd t).card * (g.nbhd t ∩ g.partNodes partAttr part).card =
      ∑ n ∈ g.partNodes partAttr part, ∑ t ∈ g.nbhd n, (g.nbhd t).card := by
    rw [swap_neighbors h hd partNodes_subset]
    refine Finset.sum_congr rfl fun t _ => ?_
    rw [Finset.sum_const, smul_eq_mul, mul_comm]
  rw [hswap]
  unfold projectionReads
  rcases projectionTraced_cases (weightAttr := weightAttr) (metric := metric) (check := check) (threshold := threshold)
    (partAttr := partAttr) h hf with ⟨h0, hnull⟩ | ⟨t, m, mono, he, -, -, -, hnd, hsub, hall⟩
  · rw [h0]
    refine ⟨Nat.zero_le _, fun _ m hm => ?_⟩
    have := (hnull m hm).1
    simp [Graph.partNodes, this]
  · have hL : (m.norms.keys.map (fun n => ((g.adj n).map (fun q => (g.adj q.1).length)).sum)).sum =
        ∑ n ∈ m.norms.keys.toFinset, ∑ t ∈ g.nbhd n, (g.nbhd t).card := by
      rw [← List.sum_toFinset _ hnd]
      refine Finset.sum_congr rfl fun n _ => ?_
      rw [← sum_adj h]
      simp only [length_adj h]
    obtain ⟨r1, r2⟩ := projectLoopTraced_reads (g := g) (weightAttr := weightAttr) (t := t) m.norms.keys m mono
    rw [he]
    refine ⟨(r1.trans (le_of_eq hL)).trans (Finset.sum_le_sum_of_subset hsub), fun hc r hr => ?_⟩
    rw [← monopartiteProjectionTraced_result, he] at hr
    rw [(r2 r hr).1, hL]
    refine Finset.sum_subset hsub fun n hn hnot => ?_
    rw [hall hc n hn (by simpa using hnot)]
    rfl

/-- C111.  The same for the calls of `intersect`, keys being comparable: one for each pair of a neighbor in the part and a
later neighbor. -/
theorem projection_calls (ho : OrderedKeys V) (h : g.WF) (hd : g.directed = false) (hf : ∀ ns r, part ≠ .frozen ns r) :
    projectionCalls g part partAttr weightAttr metric check threshold ≤
        ∑ t ∈ g.nodes.toFinset, ∑ u ∈ g.nbhd t ∩ g.partNodes partAttr part, ((g.nbhd t).filter (fun v => u < v)).card ∧
      (metric ≠ some "cosine" → ∀ m,
        monopartiteProjection g part partAttr weightAttr metric check threshold = .ok m →
        projectionCalls g part partAttr weightAttr metric check threshold =
          ∑ t ∈ g.nodes.toFinset, ∑ u ∈ g.nbhd t ∩ g.partNodes partAttr part,
            ((g.nbhd t).filter (fun v => u < v)).card) := by
  rw [← swap_neighbors h hd partNodes_subset (fun u t => ((g.nbhd t).filter (fun v => u < v)).card)]
  unfold projectionCalls
  rcases projectionTraced_cases (weightAttr := weightAttr) (metric := metric) (check := check) (threshold := threshold)
    (partAttr := partAttr) h hf with ⟨h0, hnull⟩ | ⟨t, m, mono, he, -, -, -, hnd, hsub, hall⟩
  · rw [h0]
    refine ⟨Nat.zero_le _, fun _ m hm => ?_⟩
    have := (hnull m hm).1
    simp [Graph.partNodes, this]
  · have hL : (m.norms.keys.map (fun n =>
          ((g.adj n).map (fun q => ((g.adj q.1).filter (fun p => decide (n < p.1))).length)).sum)).sum =
        ∑ n ∈ m.norms.keys.toFinset, ∑ t ∈ g.nbhd n, ((g.nbhd t).filter (fun v => n < v)).card := by
      rw [← List.sum_toFinset _ hnd]
      refine Finset.sum_congr rfl fun n _ => ?_
      rw [← sum_adj h]
      simp only [length_filter_adj h]
    obtain ⟨r1, r2⟩ := projectLoopTraced_calls (g := g) (weightAttr := weightAttr) (t := t) ho m.norms.keys m mono
    rw [he]
    refine ⟨(r1.trans (le_of_eq hL)).trans (Finset.sum_le_sum_of_subset hsub), fun hc r hr => ?_⟩
    rw [← monopartiteProjectionTraced_result, he] at hr
    rw [r2 r hr, hL]
    refine Finset.sum_subset hsub fun n hn hnot => ?_
    rw [hall hc n hn (by simpa using hnot)]
    rfl

/-- C111.  A projection returns no more edges than it called `intersect`. -/
theorem projection_size_le_calls (h : g.WF) (hf : ∀ ns r, part ≠ .frozen ns r) {m : Graph V (Val K)}
    (hm : monopartiteProjection g part partAttr weightAttr metric check threshold = .ok m) :
    m.size ≤ projectionCalls g part partAttr weightAttr metric check threshold := by
  unfold projectionCalls
  rcases projectionTraced_cases (weightAttr := weightAttr) (metric := metric) (check := check) (threshold := threshold)
    (partAttr := partAttr) h hf with ⟨h0, hnull⟩ | ⟨t, m', mono, he, hwf, hs, hl, -⟩
  · obtain ⟨-, rfl⟩ := hnull m hm
    simp [Graph.size, Graph.empty, Graph.nodes, Dict.keys]
  · rw [← monopartiteProjectionTraced_result, he] at hm
    obtain ⟨-, r2⟩ := projectLoopTraced_reads (g := g) (weightAttr := weightAttr) (t := t) m'.norms.keys m' mono
    have h1 := (r2 m hm).2 hs
    rw [projectLoopTraced_result] at hm
    obtain ⟨w1, w2⟩ := projectLoop_wf hm hs hwf
    rw [Graph.size_eq w1, length_edges_simple w1 w2, he]
    simpa [hl] using h1

end

/-! ### On a bipartite graph -/
section
variable {g : Graph V (Val K)} {part : Part V K} {partAttr : String}

theorem bipartite_sum (h : g.WF) (hd : g.directed = false) (hb : Bipartite g (InPart g partAttr part))
    (f : V → Finset V → Nat) (hf0 : ∀ t, f t ∅ = 0) :
    ∑ t ∈ g.nodes.toFinset, f t (g.nbhd t ∩ g.partNodes partAttr part) = ∑ t ∈ g.otherNodes partAttr part, f t (g.nbhd t) := by
  classical
  unfold Graph.otherNodes
  rw [Finset.sum_filter]
  refine Finset.sum_congr rfl fun t _ => ?_
  split
  · rename_i ht
    congr 1
    refine Finset.inter_eq_left.2 fun n hn => ?_
    have he := (mem_nbhd h).1 hn
    unfold Graph.partNodes
    rw [Finset.mem_filter, List.mem_toFinset]
    exact ⟨(Graph.hasEdge_mem h he).2, (hb n t (by rw [Graph.hasEdge_comm hd]; exact he)).2 ht⟩
  · rename_i ht
    rw [not_not] at ht
    convert hf0 t
    refine Finset.eq_empty_of_forall_notMem fun n hn => ?_
    obtain ⟨h1, h2⟩ := Finset.mem_inter.1 hn
    unfold Graph.partNodes at h2
    exact (hb t n ((mem_nbhd h).1 h1)).1 ht (Finset.mem_filter.1 h2).2

variable [IsStrictOrderedRing K] [PyOrd V] [PyMath K] [AttrVal (Val K)]
  {weightAttr : String} {metric : Option String} {check : Bool} {threshold : Option (Val K)}

/-- C111.  On a bipartite graph, the neighbors met are the squares of the degrees of the nodes out of the part. -/
theorem projection_reads_bipartite (h : g.WF) (hd : g.directed = false) (hf : ∀ ns r, part ≠ .frozen ns r)
    (hb : Bipartite g (InPart g partAttr part)) :
    projectionReads g part partAttr weightAttr metric check threshold ≤ ∑ t ∈ g.otherNodes partAttr part, (g.nbhd t).card ^ 2 ∧
      (metric ≠ some "cosine" → ∀ m,
        monopartiteProjection g part partAttr weightAttr metric check threshold = .ok m →
        projectionReads g part partAttr weightAttr metric check threshold =
          ∑ t ∈ g.otherNodes partAttr part, (g.nbhd t).card ^ 2) := by
  have he : ∑ t ∈ g.nodes.toFinset, (g.nbhd t).card * (g.nbhd t ∩ g.partNodes partAttr part).card =
      ∑ t ∈ g.otherNodes partAttr part, (g.nbhd t).card ^ 2 := by
    rw [bipartite_sum h hd hb (fun t s => (g.nbhd t).card * s.card) (by simp)]
    exact Finset.sum_congr rfl fun t _ => (sq _).symm
  rw [← he]
  exact projection_reads h hd hf

/-- C111.  On a bipartite graph, the calls of `intersect` are the pairs of neighbors of each node out of the part. -/
theorem projection_calls_bipartite (ho : OrderedKeys V) (h : g.WF) (hd : g.directed = false)
    (hf : ∀ ns r, part ≠ .frozen ns r) (hb : Bipartite g (InPart g partAttr part)) :
    projectionCalls g part partAttr weightAttr metric check threshold ≤
        ∑ t ∈ g.otherNodes partAttr part, (g.nbhd t).card.choose 2 ∧
      (metric ≠ some "cosine" → ∀ m,
        monopartiteProjection g part partAttr weightAttr metric check threshold = .ok m →
        projectionCalls g part partAttr weightAttr metric check threshold =
          ∑ t ∈ g.otherNodes partAttr part, (g.nbhd t).card.choose 2) := by
  have he : ∑ t ∈ g.nodes.toFinset, ∑ u ∈ g.nbhd t ∩ g.partNodes partAttr part, ((g.nbhd t).filter (fun v => u < v)).card =
      ∑ t ∈ g.otherNodes partAttr part, (g.nbhd t).card.choose 2 := by
    rw [bipartite_sum h hd hb (fun t s => ∑ u ∈ s, ((g.nbhd t).filter (fun v => u < v)).card) (by simp)]
    exact Finset.sum_congr rfl fun t _ => sum_later
  rw [← he]
  exact projection_calls ho h hd hf

/-- C111.  A projection of a bipartite graph has at most as many edges as there are pairs of neighbors of a node out of the
part, whatever the metric and the threshold. -/
theorem projection_size_bipartite (ho : OrderedKeys V) (h : g.WF) (hd : g.directed = false)
    (hf : ∀ ns r, part ≠ .frozen ns r) (hb : Bipartite g (InPart g partAttr part)) {m : Graph V (Val K)}
    (hm : monopartiteProjection g part partAttr weightAttr metric check threshold = .ok m) :
    m.size ≤ ∑ t ∈ g.otherNodes partAttr part, (g.nbhd t).card.choose 2 :=
  (projection_size_le_calls h hf hm).trans (projection_calls_bipartite ho h hd hf hb).1

/-- The neighbors of the nodes out of the part are the edges of a simple bipartite graph. -/
theorem sum_others {g : Graph V (Val K)} (h : g.WF) (hd : g.directed = false) (hs : g.multi = false)
    (hb : Bipartite g (InPart g partAttr part)) :
    ∑ t ∈ g.otherNodes partAttr part, (g.nbhd t).card = g.edges.length := by
  classical
  have hdeg : ∀ n, g.degree n = (g.nbhd n).card := by
    intro n
    unfold Graph.degree
    rw [if_neg (by simp [hd])]
    have h1 : (g.adj n).map (fun p => p.2.length) = (g.adj n).map (fun _ => 1) := by
      refine List.map_congr_left fun q hq => ?_
      unfold Graph.adj at hq
      obtain ⟨l, hl, hq⟩ := List.mem_filterMap.1 hq
      have hlen := congrArg List.length (h.simple hs l hl)
      have : q.2 = l.data := by
        unfold Graph.Link.from? at hq
        split at hq
        · cases hq; rfl
        · split at hq
          · cases hq; rfl
          · cases hq
      rw [this]
      simpa [Dict.keys] using hlen
    have h2 : (g.adj n).filter (fun p => decide (p.1 = n)) = [] := by
      refine List.filter_eq_nil_iff.2 fun q hq => ?_
      simp only [decide_eq_true_eq]
      intro hqn
      have : g.hasEdge n n = true := Graph.mem_neighbors.1 (List.mem_map.2 ⟨q, hq, hqn⟩)
      have := hb n n this
      tauto
    rw [h1, h2, ← length_adj h]
    simp
  have hpart : ∑ n ∈ g.partNodes partAttr part, (g.nbhd n).card = ∑ t ∈ g.otherNodes partAttr part, (g.nbhd t).card := by
    have := swap_neighbors h hd (partNodes_subset (g := g) (partAttr := partAttr) (part := part)) (fun _ _ => 1)
    simp only [Finset.sum_const, smul_eq_mul, mul_one] at this
    rw [this, bipartite_sum h hd hb (fun _ s => s.card) (by simp)]
  have hall : ∑ n ∈ g.nodes.toFinset, (g.nbhd n).card = 2 * g.edges.length := by
    rw [← Graph.sum_degree h, List.sum_toFinset _ h.nodup]
    congr 1
    exact List.map_congr_left fun n _ => (hdeg n).symm
  have hsplit := Finset.sum_filter_add_sum_filter_not g.nodes.toFinset (InPart g partAttr part) (fun n => (g.nbhd n).card)
  unfold Graph.partNodes Graph.otherNodes at *
  omega

/-- C111.  With `D` bounding the number of neighbors of the nodes out of the part, at most `D` neighbors are met by edge. -/
theorem projection_reads_degree (h : g.WF) (hd : g.directed = false) (hs : g.multi = false)
    (hf : ∀ ns r, part ≠ .frozen ns r) (hb : Bipartite g (InPart g partAttr part)) {D : Nat}
    (hD : ∀ t ∈ g.otherNodes partAttr part, (g.nbhd t).card ≤ D) :
    projectionReads g part partAttr weightAttr metric check threshold ≤ D * g.size := by
  refine (projection_reads_bipartite h hd hf hb).1.trans ?_
  rw [Graph.size_eq h, ← sum_others h hd hs hb, Finset.mul_sum]
  refine Finset.sum_le_sum fun t ht => ?_
  rw [sq]
  exact Nat.mul_le_mul_right _ (hD t ht)

/-- C111.  One node with many neighbors is enough to make a projection quadratic: its degree squared is met; and the edges
squared, divided by the number of nodes out of the part, always are. -/
theorem projection_reads_lower (h : g.WF) (hd : g.directed = false) (hs : g.multi = false)
    (hf : ∀ ns r, part ≠ .frozen ns r) (hb : Bipartite g (InPart g partAttr part)) (hc : metric ≠ some "cosine")
    {m : Graph V (Val K)} (hm : monopartiteProjection g part partAttr weightAttr metric check threshold = .ok m) :
    (∀ t ∈ g.otherNodes partAttr part, (g.nbhd t).card ^ 2 ≤ projectionReads g part partAttr weightAttr metric check threshold) ∧
      g.size ^ 2 ≤ (g.otherNodes partAttr part).card * projectionReads g part partAttr weightAttr metric check threshold := by
  rw [(projection_reads_bipartite h hd hf hb).2 hc m hm]
  refine ⟨fun t ht => Finset.single_le_sum (f := fun t => (g.nbhd t).card ^ 2) (fun _ _ => Nat.zero_le _) ht, ?_⟩
  rw [Graph.size_eq h, ← sum_others h hd hs hb]
  exact sq_sum_le_card_mul_sum_sq

end

/-- Stand-ins; nothing is rounded. -/
local instance ratMathCost : PyMath ℚ := ⟨id, id, id⟩

/-- Accounts 1, 2, 3 on page 10 and accounts 2, 3 on page 11; the only edge of account 1 has weight 0. -/
def fanSample : Graph Int (Val ℚ) :=
  ⟨false, false, [], [(1, []), (2, []), (3, []), (10, []), (11, [])],
    [⟨1, 10, [(.int 0, [(.str "weight", .num 0)])]⟩, ⟨2, 10, [(.int 0, [])]⟩, ⟨3, 10, [(.int 0, [])]⟩,
     ⟨2, 11, [(.int 0, [])]⟩, ⟨3, 11, [(.int 0, [])]⟩]⟩

/-- Non-triviality: the hypotheses hold of `fanSample`; 13 = 3² + 2² neighbors are met and 4 = 3 + 1 calls made for 3 edges.
With the cosine account 1 is skipped, hence the exception. -/
theorem fanSample_meets : fanSample.WF ∧ OrderedKeys Int ∧
    Bipartite fanSample (InPart fanSample "part" (.collection [1, 2, 3])) ∧
    edgesOk (monopartiteProjection fanSample (.collection [1, 2, 3]) "part" "weight" none true none) =
      some [(1, 2), (1, 3), (2, 3)] ∧
    projectionReads fanSample (.collection [1, 2, 3]) "part" "weight" none true none = 13 ∧
    projectionCalls fanSample (.collection [1, 2, 3]) "part" "weight" none true none = 4 ∧
    edgesOk (monopartiteProjection fanSample (.collection [1, 2, 3]) "part" "weight" (some "cosine") true none) =
      some [(2, 3)] ∧
    projectionReads fanSample (.collection [1, 2, 3]) "part" "weight" (some "cosine") true none = 10 ∧
    projectionCalls fanSample (.collection [1, 2, 3]) "part" "weight" (some "cosine") true none = 2 := by
  refine ⟨by constructor <;> decide +kernel, fun _ _ => rfl, ?_, by decide +kernel, by decide +kernel, by decide +kernel,
    by decide +kernel, by decide +kernel, by decide +kernel⟩
  intro u v h
  have hd : ∀ u ∈ fanSample.nodes, ∀ v ∈ fanSample.nodes, fanSample.hasEdge u v = true →
      (u ∈ [1, 2, 3] ↔ v ∉ [1, 2, 3]) := by decide +kernel
  have hwf : fanSample.WF := by constructor <;> decide +kernel
  obtain ⟨h1, h2⟩ := Graph.hasEdge_mem hwf h
  have := hd u h1 v h2 h
  simp only [InPart, h1, h2, true_and]
  exact this

end Pelote
