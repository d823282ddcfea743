import Verif.Lemmas.ProjectionExact
import Verif.Lemmas.Bucket

/-! The projection with a threshold against the projection without one. -/
set_option linter.unusedSectionVars false
namespace Pelote
variable {V K : Type} [LinearOrder V] [Field K] [LinearOrder K]

/-! ### The intersections -/

theorem intersect_inter {m m' : OnlineMetric V K} {n1 n2 : V} {w1 w2 : Val K} (hlt : n1 < n2)
    (h : m.intersect n2 w1 w2 = .ok m') (hk : m.inter.keys.Nodup ∧ ∀ k ∈ m.inter.keys, n1 < k) :
    m'.inter.keys.Nodup ∧ ∀ k ∈ m'.inter.keys, n1 < k := by
  unfold OnlineMetric.intersect at h
  split at h
  · cases h
  · cases h
    refine ⟨Dict.nodup_set _ _ hk.1, fun k hk' => ?_⟩
    rcases Dict.mem_keys_set.1 hk' with h | rfl
    · exact hk.2 k h
    · exact hlt

theorem sharedLoop_inter [PyOrd V] (ho : OrderedKeys V) {g : Graph V (Val K)} {weightAttr : String} {n1 : V}
    {w1 : Val K} {L : List (V × Dict PyKey (Attrs (Val K)))} {m m' : OnlineMetric V K}
    (h : sharedLoop g weightAttr n1 w1 L m = .ok m') (hk : m.inter.keys.Nodup ∧ ∀ k ∈ m.inter.keys, n1 < k) :
    m'.inter.keys.Nodup ∧ ∀ k ∈ m'.inter.keys, n1 < k := by
  induction L generalizing m with
  | nil => cases h; exact hk
  | cons p L ih =>
    obtain ⟨n2, d⟩ := p
    unfold sharedLoop at h
    split at h
    · exact ih h hk
    · rename_i hne
      rw [ho] at h
      by_cases hlt : n2 < n1
      · simp only [hlt, decide_true] at h
        exact ih h hk
      · simp only [hlt, decide_false] at h
        split at h
        · cases h
        · rename_i m1 h1
          exact ih h (intersect_inter (lt_of_le_of_ne (not_lt.1 hlt) (Ne.symm hne)) h1 hk)

theorem tokenLoop_inter [PyOrd V] (ho : OrderedKeys V) {g : Graph V (Val K)} {weightAttr : String} {n1 : V}
    {L : List (V × Dict PyKey (Attrs (Val K)))} {m m' : OnlineMetric V K}
    (h : tokenLoop g weightAttr n1 L m = .ok m') (hk : m.inter.keys.Nodup ∧ ∀ k ∈ m.inter.keys, n1 < k) :
    m'.inter.keys.Nodup ∧ ∀ k ∈ m'.inter.keys, n1 < k := by
  induction L generalizing m with
  | nil => cases h; exact hk
  | cons p L ih =>
    obtain ⟨t, d⟩ := p
    unfold tokenLoop at h
    split at h
    · cases h
    · rename_i m1 h1
      exact ih h (sharedLoop_inter ho h1 hk)

/-! ### Lockstep -/

/-- Does the link of a projection reach the threshold? -/
def Link.reaches (t : K) (l : Link V (Val K)) : Bool :=
  l.data.any (fun p => match p.2.get? (.str "weight") with
    | some (.num s) => decide (t ≤ s)
    | _ => false)

/-- The links reaching the threshold. -/
def restrictLinks (t : K) (g : Graph V (Val K)) : Graph V (Val K) := { g with links := g.links.filter (Link.reaches t) }

theorem reaches_weight (t s : K) (u v : V) : Link.reaches t ⟨u, v, weightDict s⟩ = decide (t ≤ s) := by
  simp [Link.reaches, weightDict, Dict.get?]

/-- The projection being built: links go upwards, from the nodes dealt with, and carry one weight. -/
structure ProjInv (done : List V) (mono : Graph V (Val K)) : Prop where
  wf : mono.WF
  undirected : mono.directed = false
  simple : mono.multi = false
  up : ∀ l ∈ mono.links, l.u < l.v ∧ l.u ∈ done
  weight : ∀ l ∈ mono.links, ∃ s, l.data = weightDict s

theorem ProjInv.mono {done done' : List V} {g : Graph V (Val K)} (h : ProjInv done g) (hd : ∀ x ∈ done, x ∈ done') :
    ProjInv done' g := { h with up := fun l hl => ⟨(h.up l hl).1, hd _ (h.up l hl).2⟩ }

theorem addEdge_new [AttrVal (Val K)] {mono : Graph V (Val K)} {n1 n2 : V} (s : K) (hm : mono.multi = false)
    (hd : mono.directed = false) (h1 : n1 ∈ mono.nodes) (h2 : n2 ∈ mono.nodes) (hlt : n1 < n2)
    (hup : ∀ l ∈ mono.links, l.u < l.v) (hnew : ∀ l ∈ mono.links, l.u = n1 → l.v ≠ n2) :
    mono.addEdge n1 n2 [(.str "weight", .num s)] =
      .ok { mono with links := mono.links ++ [⟨n1, n2, weightDict s⟩] } := by
  rw [Graph.addEdge_ok (by rw [hm]; exact weight_kwSafe _), Graph.addEdgeCore_present h1 h2, Graph.addLink_fresh]
  · rw [hm]; rfl
  · intro l hl
    rw [hd]
    by_contra hc
    rw [Bool.not_eq_false, samePair_iff] at hc
    rcases hc with ⟨e1, e2⟩ | ⟨-, e1, e2⟩
    · exact hnew l hl e1.symm e2.symm
    · have := hup l hl
      rw [← e1, ← e2] at this
      exact absurd hlt (not_lt.2 this.le)

theorem linkLoop_lockstep [PyMath K] [AttrVal (Val K)] {m : OnlineMetric V K} {n1 : V} {t : K} {done : List V}
    (h1 : n1 ∈ done) :
    ∀ (I : Dict V K) (mono : Graph V (Val K)), ProjInv done mono → n1 ∈ mono.nodes →
      (∀ n ∈ m.norms.keys, n ∈ mono.nodes) → I.keys.Nodup → (∀ k ∈ I.keys, n1 < k) →
      (∀ l ∈ mono.links, l.u = n1 → l.v ∉ I.keys) →
      match linkLoop m none n1 I mono with
      | .error e => linkLoop m (some t) n1 I (restrictLinks t mono) = .error e
      | .ok mono' => linkLoop m (some t) n1 I (restrictLinks t mono) = .ok (restrictLinks t mono') ∧
          ProjInv done mono' ∧ mono'.node = mono.node := by
  intro I
  induction I with
  | nil => intro mono hi _ _ _ _ _; exact ⟨rfl, hi, rfl⟩
  | cons p I ih =>
    obtain ⟨n2, i⟩ := p
    intro mono hi hn1 hnorms hnd hup hnew
    rw [Dict.keys_cons, List.nodup_cons] at hnd
    have hlt : n1 < n2 := hup n2 (by rw [Dict.keys_cons]; simp)
    cases hg : m.norms.getItem n2 with
    | error e => simp only [linkLoop, hg]
    | ok norm2 =>
      cases hc : OnlineMetric.computeMetric m.kind i m.source norm2 with
      | error e => simp only [linkLoop, hg, hc]
      | ok s =>
        have hn2 : n2 ∈ mono.nodes := by
          apply hnorms
          unfold Dict.getItem at hg
          split at hg
          · rename_i v hv
            exact Dict.mem_keys_of_mem (Dict.mem_of_get? hv)
          · cases hg
        have hnew' : ∀ l ∈ mono.links, l.u = n1 → l.v ≠ n2 := fun l hl hu hv =>
          hnew l hl hu (by rw [Dict.keys_cons, hv]; simp)
        have hadd := addEdge_new s hi.simple hi.undirected hn1 hn2 hlt (fun l hl => (hi.up l hl).1) hnew'
        have hstep0 : linkLoop m none n1 ((n2, i) :: I) mono = linkLoop m none n1 I
            ({ mono with links := mono.links ++ [⟨n1, n2, weightDict s⟩] } : Graph V (Val K)) := by
          rw [linkLoop]
          simp only [hg, hc, show belowThreshold none s = false from rfl, Bool.false_eq_true, if_false, hadd]
        have hwf : ({ mono with links := mono.links ++ [⟨n1, n2, weightDict s⟩] } : Graph V (Val K)).WF := by
          have := Graph.WF.addEdgeCore hi.wf n1 n2 none [(.str "weight", .num s)]
          rw [Graph.addEdge_ok (by rw [hi.simple]; exact weight_kwSafe _)] at hadd
          rw [← Except.ok.inj hadd]
          exact this
        have hi' : ProjInv done ({ mono with links := mono.links ++ [⟨n1, n2, weightDict s⟩] } : Graph V (Val K)) := by
          refine ⟨hwf, hi.undirected, hi.simple, ?_, ?_⟩
          · intro l hl
            rcases List.mem_append.1 hl with hl | hl
            · exact hi.up l hl
            · rw [List.mem_singleton] at hl; subst hl; exact ⟨hlt, h1⟩
          · intro l hl
            rcases List.mem_append.1 hl with hl | hl
            · exact hi.weight l hl
            · rw [List.mem_singleton] at hl; subst hl; exact ⟨s, rfl⟩
        have := ih _ hi' hn1 hnorms hnd.2 (fun k hk => hup k (by rw [Dict.keys_cons]; exact List.mem_cons_of_mem _ hk))
          (by
            intro l hl hu hv
            rcases List.mem_append.1 hl with hl | hl
            · exact hnew l hl hu (by rw [Dict.keys_cons]; exact List.mem_cons_of_mem _ hv)
            · rw [List.mem_singleton] at hl; subst hl; exact hnd.1 hv)
        have hstep : linkLoop m (some t) n1 ((n2, i) :: I) (restrictLinks t mono) = linkLoop m (some t) n1 I
            (restrictLinks t ({ mono with links := mono.links ++ [⟨n1, n2, weightDict s⟩] } : Graph V (Val K))) := by
          rw [linkLoop]
          simp only [hg, hc]
          by_cases hs : s < t
          · rw [if_pos (by simpa [belowThreshold] using hs)]
            congr 1
            simp [restrictLinks, List.filter_append, reaches_weight, not_le.2 hs]
          · rw [if_neg (by simpa [belowThreshold] using hs)]
            rw [addEdge_new s (mono := restrictLinks t mono) hi.simple hi.undirected hn1 hn2 hlt
              (fun l hl => (hi.up l (List.mem_of_mem_filter hl)).1)
              (fun l hl => hnew' l (List.mem_of_mem_filter hl))]
            simp [restrictLinks, List.filter_append, reaches_weight, not_lt.1 hs]
        rw [hstep0, hstep]
        exact this

theorem projectLoop_lockstep [PyOrd V] [PyMath K] [AttrVal (Val K)] (ho : OrderedKeys V) {g : Graph V (Val K)}
    {weightAttr : String} {t : K} :
    ∀ (L done : List V) (m : OnlineMetric V K) (mono : Graph V (Val K)), ProjInv done mono →
      (∀ n ∈ m.norms.keys, n ∈ mono.nodes) → L.Nodup → (∀ n ∈ L, n ∉ done) →
      match projectLoop g weightAttr none L m mono with
      | .error e => projectLoop g weightAttr (some t) L m (restrictLinks t mono) = .error e
      | .ok mono' => projectLoop g weightAttr (some t) L m (restrictLinks t mono) = .ok (restrictLinks t mono') ∧
          ProjInv (done ++ L) mono' ∧ mono'.node = mono.node := by
  intro L
  induction L with
  | nil => intro done m mono hi _ _ _; exact ⟨rfl, by simpa using hi, rfl⟩
  | cons n1 L ih =>
    intro done m mono hi hnorms hnd hdone
    rw [List.nodup_cons] at hnd
    unfold projectLoop
    cases h1 : m.startIntersection n1 with
    | error e => simp only
    | ok m1 =>
      simp only
      cases h2 : tokenLoop g weightAttr n1 (g.adj n1) m1 with
      | error e => simp only
      | ok m2 =>
        simp only
        obtain ⟨a1, a2, a3, a4, -⟩ := startIntersection_ok h1
        obtain ⟨b1, b2, b3⟩ := tokenLoop_frame h2
        have hI := tokenLoop_inter ho h2 (by rw [a4]; simp [Dict.keys])
        have hl := linkLoop_lockstep (m := m2) (n1 := n1) (t := t) (done := done ++ [n1]) (by simp) m2.inter mono
          (hi.mono (fun x hx => List.mem_append_left _ hx)) (hnorms _ a1) (by rw [b2, a3]; exact hnorms) hI.1 hI.2
          (fun l hl hu => absurd (hu ▸ (hi.up l hl).2) (hdone n1 List.mem_cons_self))
        cases h3 : linkLoop m2 none n1 m2.inter mono with
        | error e =>
          rw [h3] at hl
          simp only at hl ⊢
          rw [hl]
        | ok mono' =>
          rw [h3] at hl
          simp only at hl ⊢
          obtain ⟨e1, e2, e3⟩ := hl
          rw [e1]
          simp only
          have hn : mono'.nodes = mono.nodes := by unfold Graph.nodes; rw [e3]
          have := ih (done ++ [n1]) m2 mono' e2 (by rw [b2, a3, hn]; exact hnorms) hnd.2
            (by
              intro n hn hd
              rcases List.mem_append.1 hd with hd | hd
              · exact hdone n (List.mem_cons_of_mem _ hn) hd
              · rw [List.mem_singleton] at hd; subst hd; exact hnd.1 hn)
          rw [List.append_assoc, e3] at this
          exact this

/-- The edges of a restricted projection. -/
theorem edgesData_restrict {done : List V} {mono : Graph V (Val K)} (h : ProjInv done mono) (t : K) :
    (restrictLinks t mono).WF ∧
    (restrictLinks t mono).edgesData = mono.edgesData.filter
      (fun e => match e.2.2.get? (.str "weight") with
        | some (.num s) => decide (t ≤ s)
        | _ => false) := by
  have hwf : (restrictLinks t mono).WF := by
    have := h.wf
    exact ⟨this.attrs, this.nodup, this.nodeAttrs, fun l hl => this.ends l (List.mem_of_mem_filter hl),
      this.uniq.sublist List.filter_sublist, fun l hl => this.nonempty l (List.mem_of_mem_filter hl),
      fun l hl => this.keys l (List.mem_of_mem_filter hl), fun l hl => this.edgeAttrs l (List.mem_of_mem_filter hl),
      fun hm l hl => this.simple hm l (List.mem_of_mem_filter hl)⟩
  refine ⟨hwf, ?_⟩
  unfold Graph.edgesData
  rw [Graph.edgesKeys_eq _ hwf.nodup, Graph.edgesKeys_eq _ h.wf.nodup]
  have hg : (restrictLinks t mono).groups = mono.groups.filter (Link.reaches t) := by
    have ho : ∀ l, (restrictLinks t mono).orient l = mono.orient l := fun l => rfl
    have : (restrictLinks t mono).links.map (restrictLinks t mono).orient =
        (mono.links.map mono.orient).filter (Link.reaches t) := by
      rw [List.filter_map]
      show (mono.links.filter (Link.reaches t)).map mono.orient = _
      congr 1
      refine List.filter_congr (fun l _ => ?_)
      simp only [Link.reaches, Function.comp, Graph.orient_data]
    unfold Graph.groups
    rw [this, bucketSort_filter]
    rfl
  rw [hg]
  have hall : ∀ l ∈ mono.groups, ∃ s, l.data = weightDict s := by
    intro l hl
    obtain ⟨m, hm, rfl⟩ := (Graph.mem_groups h.wf).1 hl
    rw [Graph.orient_data]
    exact h.weight m hm
  generalize mono.groups = G at hall
  induction G with
  | nil => rfl
  | cons l G ih =>
    obtain ⟨s, hs⟩ := hall l List.mem_cons_self
    have ih' := ih (fun l hl => hall l (List.mem_cons_of_mem _ hl))
    obtain ⟨u, v, d⟩ := l
    simp only at hs
    subst hs
    rw [List.filter_cons, reaches_weight, List.flatMap_cons, List.map_append, List.filter_append, ← ih']
    by_cases hts : t ≤ s
    · simp [hts, Graph.expand, weightDict, Dict.get?]
    · simp [hts, Graph.expand, weightDict, Dict.get?]

end Pelote
