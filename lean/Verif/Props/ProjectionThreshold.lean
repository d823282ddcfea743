import Verif.Lemmas.ProjectionThreshold
import Verif.Props.ProjectionWitness
import Verif.Props.Sparsification

/-! C64: projecting with a threshold, or projecting then thresholding. -/
set_option linter.unusedSectionVars false
namespace Pelote
variable {V K : Type} [LinearOrder V] [Field K] [LinearOrder K]

theorem partLoop_norms [PyMath K] {g : Graph V (Val K)} {part : Part V K} {partAttr weightAttr : String} {check : Bool}
    {L : Dict V (Attrs (Val K))} {m m' : OnlineMetric V K} {mono mono' : Graph V (Val K)} {b b' : Bool}
    (h : partLoop g part partAttr weightAttr check L m mono b = .ok (m', mono', b')) (hn : m.norms.keys.Nodup) :
    m'.norms.keys.Nodup := by
  induction L generalizing m mono b with
  | nil => cases h; exact hn
  | cons p L ih =>
    obtain ⟨n, a⟩ := p
    unfold partLoop at h
    split at h
    · exact ih h hn
    · split at h
      · cases h
      · rename_i m1 h1
        split at h
        · cases h
        · rename_i m2 h2
          split at h
          · cases h
          · refine ih h ?_
            rw [OnlineMetric.addNorm_ok] at h2
            have := (normLoop_frame _ _ _ _ _ h1).2.1
            cases h2
            split
            · exact Dict.nodup_set _ _ (by rw [this]; exact hn)
            · rw [this]; exact hn

theorem keptNodes_wf {g : Graph V (Val K)} (h : g.WF) (part : Part V K) (partAttr : String) :
    ({ (Graph.empty false false [] : Graph V (Val K)) with node := keptNodes part partAttr g.node } :
      Graph V (Val K)).WF := by
  refine ⟨.nil, ?_, ?_, by simp [Graph.empty], .nil, by simp [Graph.empty], by simp [Graph.empty],
    by simp [Graph.empty], by simp [Graph.empty]⟩
  · unfold Graph.nodes keptNodes Dict.keys
    rw [List.map_map]
    exact h.nodup.sublist (List.filter_sublist.map Prod.fst)
  · intro p hp
    obtain ⟨q, hq, rfl⟩ := List.mem_map.1 hp
    exact nodup_erase _ (h.nodeAttrs q (List.mem_of_mem_filter hq))

/-- C64.  Projecting with a threshold is projecting, then sparsifying with the same threshold: for every graph
(directed or not, simple or not, bipartite or not), part, metric and threshold, the former raises exactly when the
latter does and with the same error, and else gives the same nodes and edges, in the same order and with the same
attributes. -/
theorem projection_threshold [PyOrd V] [PyMath K] [AttrVal (Val K)] (ho : OrderedKeys V) (ulongMax : Nat)
    {g : Graph V (Val K)} (h : g.WF) (part : Part V K) (partAttr weightAttr : String) (metric : Option String)
    (check : Bool) {v : Val K} {t : K} (hv : v.toNum = .ok t) (ht : 0 < t) :
    (∀ e, monopartiteProjection g part partAttr weightAttr metric check (some v) = .error e ↔
      monopartiteProjection g part partAttr weightAttr metric check none = .error e) ∧
    ∀ m, monopartiteProjection g part partAttr weightAttr metric check none = .ok m →
      ∃ m' m'', monopartiteProjection g part partAttr weightAttr metric check (some v) = .ok m' ∧
        globalThresholdSparsification ulongMax m t "weight" false false = .ok m'' ∧
        m'.directed = m''.directed ∧ m'.multi = m''.multi ∧ m'.attrs = m''.attrs ∧ m'.node = m''.node ∧
        m'.edgesData = m''.edgesData := by
  have hct : checkThreshold (some v) = .ok (some t) := by simp [checkThreshold, hv, not_le.2 ht]
  have key : (∃ e, monopartiteProjection g part partAttr weightAttr metric check (some v) = .error e ∧
      monopartiteProjection g part partAttr weightAttr metric check none = .error e) ∨
      ∃ m done, monopartiteProjection g part partAttr weightAttr metric check none = .ok m ∧
        monopartiteProjection g part partAttr weightAttr metric check (some v) = .ok (restrictLinks t m) ∧
        ProjInv done m := by
    unfold monopartiteProjection
    cases hk : instantiateMetric metric with
    | error e => exact .inl ⟨e, rfl, rfl⟩
    | ok kind =>
      simp only [hct, show checkThreshold (none : Option (Val K)) = .ok none from rfl]
      by_cases h0 : g.order = 0
      · simp only [h0, if_true]
        exact .inr ⟨_, [], rfl, rfl, ⟨Graph.WF.empty false false [] .nil, rfl, rfl, by simp [Graph.empty],
          by simp [Graph.empty]⟩⟩
      · simp only [h0, if_false]
        cases hp : partLoop g part partAttr weightAttr check g.node (OnlineMetric.init kind)
            (Graph.empty false false []) true with
        | error e => exact .inl ⟨e, rfl, rfl⟩
        | ok r =>
          obtain ⟨m1, mono1, b1⟩ := r
          simp only
          cases b1 with
          | true => exact .inl ⟨_, rfl, rfl⟩
          | false =>
            simp only [Bool.false_eq_true, if_false]
            obtain ⟨f1, f2, f3, f4, f5⟩ := partLoop_frame g part partAttr weightAttr check hp h.nodup
              (by simp [Graph.empty, Graph.nodes, Dict.keys]) h.nodeAttrs
            have hmono : mono1 = { (Graph.empty false false [] : Graph V (Val K)) with
                node := keptNodes part partAttr g.node } := by rw [f2]; simp [Graph.empty]
            have hinv : ProjInv [] mono1 := by
              refine ⟨by rw [hmono]; exact keptNodes_wf h part partAttr, by rw [hmono]; rfl, by rw [hmono]; rfl, ?_, ?_⟩ <;>
                rw [hmono] <;> simp [Graph.empty]
            have hlock := projectLoop_lockstep ho (g := g) (weightAttr := weightAttr) (t := t) m1.norms.keys [] m1 mono1
              hinv
              (by
                intro n hn
                rcases f3 n hn with h' | h'
                · simp [OnlineMetric.init, Dict.keys] at h'
                · rw [hmono]; exact h')
              (partLoop_norms hp (by simp [OnlineMetric.init, Dict.keys])) (by simp)
            have hres : restrictLinks t mono1 = mono1 := by
              rw [hmono]; simp [restrictLinks, Graph.empty]
            rw [hres] at hlock
            cases hl : projectLoop g weightAttr none m1.norms.keys m1 mono1 with
            | error e =>
              rw [hl] at hlock
              exact .inl ⟨e, hlock, rfl⟩
            | ok m' =>
              rw [hl] at hlock
              exact .inr ⟨m', _, rfl, hlock.1, hlock.2.1⟩
  rcases key with ⟨e, h1, h2⟩ | ⟨m, done, h1, h2, hinv⟩
  · rw [h1, h2]
    exact ⟨fun e => Iff.rfl, fun m hm => by cases hm⟩
  · rw [h1, h2]
    refine ⟨fun e => ⟨fun h => (nomatch h), fun h => (nomatch h)⟩, fun m' hm' => ?_⟩
    cases hm'
    have hnum : ∀ e ∈ m.edgesData, ∃ s, e.2.2 = [(.str "weight", (.num s : Val K))] := by
      rintro ⟨u, v, a⟩ he
      obtain ⟨l, hl, -, -, k, hk⟩ := (Graph.mem_edgesData hinv.wf).1 he
      obtain ⟨s, hs⟩ := hinv.weight l hl
      rw [hs, weightDict, List.mem_singleton] at hk
      cases hk
      exact ⟨s, rfl⟩
    have hget : ∀ s : K, Dict.get? ([(.str "weight", .num s)] : Attrs (Val K)) (.str "weight") = some (.num s) :=
      fun s => by simp [Dict.get?]
    obtain ⟨m'', e1, -, e2, e3, e4, e5, e6⟩ := globalThreshold_exact ulongMax hinv.wf t (attr := "weight") false false
      (by
        intro e he
        obtain ⟨s, hs⟩ := hnum e he
        exact ⟨s, .inl (by rw [hs]; exact hget s)⟩)
      (by simp)
      (by
        intro e he
        obtain ⟨s, hs⟩ := hnum e he
        rw [hs, hinv.simple]
        exact weight_kwSafe _)
    refine ⟨_, m'', rfl, e1, e2.symm, e3.symm, e4.symm, e5.symm, ?_⟩
    rw [(edgesData_restrict hinv t).2, e6]
    refine List.filter_congr (fun e he => ?_)
    obtain ⟨s, hs⟩ := hnum e he
    rw [hs, hget, decide_eq_decide]
    constructor
    · intro hle
      exact .inl ⟨s, .inl (hget s), by simpa using hle⟩
    · rintro (⟨w, hw, hle⟩ | ⟨hc, _⟩)
      · rw [HasNumber.unique (.inl (hget s) : HasNumber "weight" [(.str "weight", .num s)] s) hw]
        simpa using hle
      · cases hc

/-- Stand-ins for the square root and the logarithm, exact on 0 and 1. -/
local instance : PyMath ℚ := ⟨fun x => x, fun x => x - 1, fun x => x⟩

set_option synthInstance.maxSize 2000 in
/-- A case meeting the hypotheses of `projection_threshold`, the threshold dropping one link out of
two, account 3 being now linked to page 11 as well. -/
theorem projection_threshold_sample :
    OrderedKeys Int ∧ accounts.WF ∧ (Val.num (3 / 4) : Val ℚ).toNum = .ok (3 / 4) ∧
    (monopartiteProjection (accounts.addEdgeCore 3 11 none []) (.collection [3, 2, 1]) "part" "weight" (some "overlap")
      true none).map (fun m => m.edgesData) =
        .ok [(1, 2, [(.str "weight", .num 1)]), (1, 3, [(.str "weight", .num (1 / 2))])] ∧
    (monopartiteProjection (accounts.addEdgeCore 3 11 none []) (.collection [3, 2, 1]) "part" "weight" (some "overlap")
      true (some (.num (3 / 4)))).map (fun m => m.edgesData) = .ok [(1, 2, [(.str "weight", .num 1)])] := by
  refine ⟨fun _ _ => rfl, by constructor <;> decide, rfl, ?_⟩
  decide +kernel

end Pelote
