import Verif.Lemmas.ProjectionX

/-! C107: projections by cosine similarity and by dot product, whatever the operations on numbers are. -/
set_option linter.unusedSectionVars false
namespace Pelote

section
variable {V N : Type} [LinearOrder V] [PyOrd V] [Zero N] [One N] [AttrVal (Val N)]

/-- Whatever the operations on numbers are: when the similarities can be computed, the projection raises `KeyError` exactly if a node
without norm shares a neighbor with a node of lesser label that has one, and otherwise links the nodes that share a neighbor, the first of
which has a norm, unless the similarity is below the threshold. -/
theorem projectionN_cases {ops : MetricOps N} {cosine : Bool} {g : Graph V (Val N)} {ns : List V} {partAttr weightAttr : String}
    {check : Bool} {w : V → V → N} (hs : Sane ops) (h : ProjectableN g ns partAttr weightAttr w) {threshold : Option N}
    (ht : ∀ t, threshold = some t → ops.le t 0 = false) (hroot : ∀ u ∈ ns, HasRoot ops cosine g w u)
    (hsim : ∀ u v, u < v → u ∈ ns → v ∈ ns → g.Sharing u v → HasNorm ops cosine g w u → HasNorm ops cosine g w v →
      ∃ x, similarityN ops cosine g w u v = .ok x) :
    ((∃ u v, u < v ∧ u ∈ ns ∧ v ∈ ns ∧ g.Sharing u v ∧ HasNorm ops cosine g w u ∧ ¬ HasNorm ops cosine g w v) →
      monopartiteProjectionN ops cosine g ns partAttr weightAttr check threshold = .error .keyError) ∧
    ((¬ ∃ u v, u < v ∧ u ∈ ns ∧ v ∈ ns ∧ g.Sharing u v ∧ HasNorm ops cosine g w u ∧ ¬ HasNorm ops cosine g w v) →
      ∃ m, monopartiteProjectionN ops cosine g ns partAttr weightAttr check threshold = .ok m ∧ m.WF ∧
        (∀ n a, m.node.get? n = some a ↔ n ∈ ns ∧ ∃ b, g.node.get? n = some b ∧ a = b.erase (.str partAttr)) ∧
        ∀ u v a, m.edge? u v (.int 0) = some a ↔
          u ≠ v ∧ u ∈ ns ∧ v ∈ ns ∧ g.Sharing u v ∧ HasNorm ops cosine g w (min u v) ∧
          ∃ x, similarityN ops cosine g w (min u v) (max u v) = .ok x ∧ NotBelow ops threshold x ∧
            a = [(.str "weight", .num x)]) := by
  have hwf := h.wf
  have hedge : ∀ {n t d}, (t, d) ∈ g.adj n → g.hasEdge n t = true := fun hq =>
    Graph.mem_neighbors.1 (List.mem_map.2 ⟨_, hq, rfl⟩)
  -- the first loop
  have hpart := partLoopN_ok (cosine := cosine) (g := g) (ns := ns) (partAttr := partAttr) (weightAttr := weightAttr) (check := check)
    (w := w) hs (L := g.node) [] (Graph.empty false false []) true hwf.nodup (by simp [Dict.keys])
    (by simp [Graph.empty, Graph.nodes, Dict.keys]) hwf.nodeAttrs
    (fun p hp => h.names p.1 p.2 (Dict.get?_of_mem hwf.nodup hp))
    (fun p _ hin q hq => (h.bipartite _ _ (hedge hq)).1 hin) (fun p _ => h.weight p.1)
    (fun p _ hin => hroot p.1 hin)
  simp only [List.nil_append] at hpart
  have hnodes : ∀ n a, (n, a) ∈ nodesN ns partAttr g.node ↔ n ∈ ns ∧ ∃ b, g.node.get? n = some b ∧ a = b.erase (.str partAttr) := by
    intro n a
    unfold nodesN
    simp only [List.mem_map, List.mem_filter, decide_eq_true_eq, Prod.mk.injEq]
    constructor
    · rintro ⟨⟨n', b⟩, ⟨h1, h2⟩, rfl, rfl⟩
      exact ⟨h2, b, Dict.get?_of_mem hwf.nodup h1, rfl⟩
    · rintro ⟨h1, b, h2, rfl⟩
      exact ⟨(n, b), ⟨Dict.mem_of_get? h2, h1⟩, rfl, rfl⟩
  have hnodesnd : (nodesN ns partAttr g.node).keys.Nodup := by
    unfold nodesN Dict.keys
    rw [List.map_map]
    exact hwf.nodup.sublist (List.filter_sublist.map Prod.fst)
  have hnd : (normsN ops cosine g ns w g.node).keys.Nodup := by
    unfold normsN Dict.keys
    rw [List.map_map]
    exact hwf.nodup.sublist (List.filter_sublist.map Prod.fst)
  have hnorm : ∀ n x, (normsN ops cosine g ns w g.node).get? n = some x ↔
      n ∈ g.nodes ∧ n ∈ ns ∧ HasNorm ops cosine g w n ∧ x = storedNorm ops cosine g w n := by
    intro n x
    rw [Dict.get?_iff_mem hnd]
    unfold normsN
    simp only [List.mem_map, List.mem_filter, Bool.and_eq_true, decide_eq_true_eq, Prod.mk.injEq, keptN_iff]
    constructor
    · rintro ⟨⟨n', b⟩, ⟨h1, h2, h3⟩, rfl, rfl⟩
      exact ⟨Dict.mem_keys_of_mem h1, h2, h3, rfl⟩
    · rintro ⟨h1, h2, h3, rfl⟩
      obtain ⟨⟨n', b⟩, hb, rfl⟩ := List.mem_map.1 h1
      exact ⟨(n', b), ⟨hb, h2, h3⟩, rfl, rfl⟩
  have hcollect : ∀ n, n ∈ (normsN ops cosine g ns w g.node).keys ↔ n ∈ g.nodes ∧ n ∈ ns ∧ HasNorm ops cosine g w n := by
    intro n
    constructor
    · intro hn
      obtain ⟨x, hx⟩ := Dict.exists_get?_of_mem_keys hn
      have := (hnorm n x).1 hx
      exact ⟨this.1, this.2.1, this.2.2.1⟩
    · rintro ⟨h1, h2, h3⟩
      exact Dict.mem_keys_of_mem (Dict.mem_of_get? ((hnorm n _).2 ⟨h1, h2, h3, rfl⟩))
  have hreach : ∀ {u t v}, u ∈ ns → g.hasEdge u t = true → g.hasEdge t v = true → v ∈ ns := by
    intro u t v hu h1 h2
    have h3 := (h.bipartite u t h1).1 hu
    have h4 := h.bipartite t v h2
    by_contra hv
    exact h3 (h4.2 hv)
  have hshare : ∀ u v, (∃ t, g.hasEdge u t = true ∧ g.hasEdge t v = true) ↔ g.Sharing u v := by
    intro u v
    constructor
    · rintro ⟨t, h1, h2⟩
      exact ⟨t, h1, by rw [Graph.hasEdge_comm h.undirected]; exact h2⟩
    · rintro ⟨t, h1, h2⟩
      exact ⟨t, h1, by rw [Graph.hasEdge_comm h.undirected]; exact h2⟩
  have hshmem : ∀ {u v}, g.Sharing u v → u ∈ g.nodes ∧ v ∈ g.nodes := by
    rintro u v ⟨t, h1, h2⟩
    exact ⟨(Graph.hasEdge_mem hwf h1).1, (Graph.hasEdge_mem hwf h2).1⟩
  have hcomm : ∀ u v, g.Sharing u v → g.Sharing v u := fun u v ⟨t, h1, h2⟩ => ⟨t, h2, h1⟩
  let sim : V → V → N := fun u v => match similarityN ops cosine g w u v with | .ok x => x | .error _ => 0
  have hsimeq : ∀ {u v x}, similarityN ops cosine g w u v = .ok x → sim u v = x := by
    intro u v x hx
    simp only [sim, hx]
  -- the second loop
  obtain ⟨hbad, hgood⟩ := projectLoopN_cases (ops := ops) (cosine := cosine) hwf h.undirected (weightAttr := weightAttr)
    (t := threshold) (norms := normsN ops cosine g ns w g.node) (sim := sim) (w := w)
    (normsN ops cosine g ns w g.node).keys
    { (Graph.empty false false [] : Graph V (Val N)) with node := nodesN ns partAttr g.node } rfl
    (by
      rintro n hn ⟨t, d⟩ hq ⟨k, d'⟩ hp hne
      have hn' := ((hcollect n).1 hn).2.1
      exact h.comparable n hn' k (hreach hn' (hedge hq) (hedge hp)))
    h.weight (fun t k he => h.symm he)
    (by
      intro n hn
      obtain ⟨h1, h2, h3⟩ := (hcollect n).1 hn
      refine ⟨_, (hnorm n _).2 ⟨h1, h2, h3, rfl⟩, fun k hlt hk => ?_⟩
      have hsh := (hshare n k).1 hk
      obtain ⟨t, e1, e2⟩ := hk
      have hkn := hreach h2 e1 e2
      by_cases hkk : HasNorm ops cosine g w k
      · refine .inr ⟨_, (hnorm k _).2 ⟨(hshmem hsh).2, hkn, hkk, rfl⟩, ?_⟩
        obtain ⟨x, hx⟩ := hsim n k hlt h2 hkn hsh h3 hkk
        rw [hsimeq hx, ← hx]
        unfold computeMetricN similarityN storedNorm
        cases cosine with
        | false => simp
        | true =>
          obtain ⟨a, ha⟩ := hroot n h2 rfl (h3.2 rfl)
          obtain ⟨b, hb⟩ := hroot k hkn rfl (hkk.2 rfl)
          simp [ha, hb, Except.bind]
      · refine .inl ?_
        cases hc : (normsN ops cosine g ns w g.node).get? k with
        | none => rfl
        | some x => exact absurd ((hnorm k x).1 hc).2.2.1 hkk)
  have hkept : (nodesN ns partAttr g.node).isEmpty = false := by
    obtain ⟨n, hn, hn'⟩ := h.nonempty
    obtain ⟨⟨n', a⟩, hp, rfl⟩ := List.mem_map.1 hn
    rw [List.isEmpty_eq_false_iff]
    exact List.ne_nil_of_mem ((hnodes _ _).2 ⟨hn', a, Dict.get?_of_mem hwf.nodup hp, rfl⟩)
  have horder : g.order ≠ 0 := by
    obtain ⟨n, hn, _⟩ := h.nonempty
    intro h0
    have h1 : g.node = [] := List.eq_nil_of_length_eq_zero h0
    simp [Graph.nodes, h1, Dict.keys] at hn
  have hrun : monopartiteProjectionN ops cosine g ns partAttr weightAttr check threshold =
      projectLoopN ops cosine g weightAttr (normsN ops cosine g ns w g.node) threshold (normsN ops cosine g ns w g.node).keys
        { (Graph.empty false false [] : Graph V (Val N)) with node := nodesN ns partAttr g.node } := by
    unfold monopartiteProjectionN
    rw [if_neg (by
      intro hle
      split at hle
      · cases hle
      · rw [ht _ rfl] at hle
        cases hle), hpart]
    simp only [Bool.false_eq_true, if_false, horder, Bool.true_and, hkept]
    simp [Graph.empty]
  rw [hrun]
  refine ⟨fun hx => hbad ?_, fun hx => ?_⟩
  · obtain ⟨u, v, h1, h2, h3, h4, h5, h6⟩ := hx
    refine ⟨u, (hcollect u).2 ⟨(hshmem h4).1, h2, h5⟩, v, h1, (hshare u v).2 h4, ?_⟩
    cases hc : (normsN ops cosine g ns w g.node).get? v with
    | none => rfl
    | some x => exact absurd ((hnorm v x).1 hc).2.2.1 h6
  · have hall : ∀ u v, u < v → u ∈ ns → v ∈ ns → g.Sharing u v → HasNorm ops cosine g w u → HasNorm ops cosine g w v := by
      intro u v h1 h2 h3 h4 h5
      by_contra h6
      exact hx ⟨u, v, h1, h2, h3, h4, h5, h6⟩
    obtain ⟨E, hE, hmem⟩ := hgood (by
      intro n hn k hlt hk hnone
      obtain ⟨h1, h2, h3⟩ := (hcollect n).1 hn
      have hsh := (hshare n k).1 hk
      obtain ⟨t, e1, e2⟩ := hk
      have hkn := hreach h2 e1 e2
      rw [(hnorm k _).2 ⟨(hshmem hsh).2, hkn, hall n k hlt h2 hkn hsh h3, rfl⟩] at hnone
      cases hnone)
    have hwf1 : ({ (Graph.empty false false [] : Graph V (Val N)) with node := nodesN ns partAttr g.node }).WF := by
      constructor <;> simp [Graph.empty, Dict.keys]
      · exact hnodesnd
      · intro n a ha
        obtain ⟨_, b, hb, rfl⟩ := (hnodes n a).1 ha
        exact nodup_erase _ (hwf.nodeAttrs _ (Dict.mem_of_get? hb))
    generalize hm1 : ({ (Graph.empty false false [] : Graph V (Val N)) with node := nodesN ns partAttr g.node } : Graph V (Val N)) =
      mono1 at hE hwf1 ⊢
    have hends : ∀ e ∈ E, e.1 ∈ mono1.nodes ∧ e.2.1 ∈ mono1.nodes := by
      have hin : ∀ n, n ∈ g.nodes → n ∈ ns → n ∈ mono1.nodes := by
        intro n h1 h2
        obtain ⟨⟨n', a⟩, hp, rfl⟩ := List.mem_map.1 h1
        rw [← hm1]
        exact Dict.mem_keys_of_mem ((hnodes _ _).2 ⟨h2, a, Dict.get?_of_mem hwf.nodup hp, rfl⟩)
      intro e he
      obtain ⟨h1, _, h3, _⟩ := (hmem e).1 he
      obtain ⟨a1, a2, _⟩ := (hcollect _).1 h1
      have hs' := hshmem ((hshare _ _).1 h3)
      obtain ⟨t, e1, e2⟩ := h3
      exact ⟨hin _ a1 a2, hin _ hs'.2 (hreach a2 e1 e2)⟩
    refine ⟨addWeights mono1 E, hE, addWeights_wf hwf1 E, ?_, ?_⟩
    · intro n a
      rw [(addWeights_node E hends).1, ← hm1, Dict.get?_iff_mem hnodesnd]
      exact hnodes n a
    · intro u v a
      have hkd := addWeights_keydict (g := mono1) (by rw [← hm1]; rfl) (by rw [← hm1]; rfl)
        (f := fun u v => sim (min u v) (max u v))
        (fun u v => by rw [min_comm, max_comm]) E
        (fun e he => by
          obtain ⟨_, h2, _, h4, _⟩ := (hmem e).1 he
          rw [h4, min_eq_left h2.le, max_eq_right h2.le])
        (by
          intro u v d hd
          rw [← hm1] at hd
          simp [Graph.keydict?, Graph.empty] at hd) u v
      have hnone : mono1.keydict? u v = none := by rw [← hm1]; rfl
      rw [hnone] at hkd
      unfold Graph.edge?
      rw [hkd]
      have hbelow : ∀ x, belowThresholdN ops threshold x = false ↔ NotBelow ops threshold x := by
        intro x
        unfold belowThresholdN NotBelow
        cases threshold <;> simp
      have hiff : (∃ e ∈ E, samePair false e.1 e.2.1 u v = true) ↔
          (u ≠ v ∧ u ∈ ns ∧ v ∈ ns ∧ g.Sharing u v ∧ HasNorm ops cosine g w (min u v) ∧
            ∃ x, similarityN ops cosine g w (min u v) (max u v) = .ok x ∧ NotBelow ops threshold x) := by
        have hto : ∀ x y z, (x, y, z) ∈ E → x < y ∧ x ∈ ns ∧ y ∈ ns ∧ g.Sharing x y ∧ HasNorm ops cosine g w x ∧
            ∃ s, similarityN ops cosine g w x y = .ok s ∧ NotBelow ops threshold s := by
          intro x y z he
          obtain ⟨h1, h2, h3, h4, h5⟩ := (hmem _).1 he
          simp only at h1 h2 h3 h4 h5
          obtain ⟨a1, a2, a3⟩ := (hcollect x).1 h1
          have hsh := (hshare x y).1 h3
          obtain ⟨t, e1, e2⟩ := h3
          have hy := hreach a2 e1 e2
          obtain ⟨s, hs'⟩ := hsim x y h2 a2 hy hsh a3 (hall x y h2 a2 hy hsh a3)
          rw [h4, hsimeq hs'] at h5
          exact ⟨h2, a2, hy, hsh, a3, s, hs', (hbelow s).1 h5⟩
        constructor
        · rintro ⟨⟨x, y, z⟩, he, hs⟩
          obtain ⟨h1, h2, h3, h4, h5, h6⟩ := hto x y z he
          rcases samePair_iff.1 hs with ⟨rfl, rfl⟩ | ⟨_, rfl, rfl⟩
          · rw [min_eq_left h1.le, max_eq_right h1.le]
            exact ⟨h1.ne, h2, h3, h4, h5, h6⟩
          · rw [min_eq_right h1.le, max_eq_left h1.le]
            exact ⟨h1.ne', h3, h2, hcomm _ _ h4, h5, h6⟩
        · rintro ⟨h1, h2, h3, h4, h5, x, h6, h7⟩
          have hgo : ∀ p q, p < q → p ∈ ns → g.Sharing p q → HasNorm ops cosine g w p →
              similarityN ops cosine g w p q = .ok x → (p, q, x) ∈ E := by
            intro p q hlt hp hsh hnp hx
            exact (hmem _).2 ⟨(hcollect p).2 ⟨(hshmem hsh).1, hp, hnp⟩, hlt, (hshare p q).2 hsh, (hsimeq hx).symm, (hbelow x).2 h7⟩
          rcases lt_or_gt_of_ne h1 with hlt | hlt
          · rw [min_eq_left hlt.le] at h5 h6
            rw [max_eq_right hlt.le] at h6
            exact ⟨_, hgo u v hlt h2 h4 h5 h6, samePair_refl _ _ _⟩
          · rw [min_eq_right hlt.le] at h5 h6
            rw [max_eq_left hlt.le] at h6
            refine ⟨_, hgo v u hlt h3 (hcomm _ _ h4) h5 h6, ?_⟩
            simp [samePair]
      by_cases hc : ∃ e ∈ E, samePair false e.1 e.2.1 u v = true
      · rw [if_pos hc]
        obtain ⟨b1, b2, b3, b4, b5, x, b6, b7⟩ := hiff.1 hc
        simp only [Option.bind_some, weightDict, Dict.get?_cons, if_true, Option.some.injEq, hsimeq b6]
        constructor
        · rintro rfl
          exact ⟨b1, b2, b3, b4, b5, x, b6, b7, rfl⟩
        · rintro ⟨_, _, _, _, _, y, b8, _, rfl⟩
          rw [b6] at b8
          cases b8
          rfl
      · rw [if_neg hc]
        simp only [Option.bind_none, reduceCtorEq, false_iff]
        rintro ⟨a1, a2, a3, a4, a5, x, a6, a7, _⟩
        exact hc (hiff.2 ⟨a1, a2, a3, a4, a5, x, a6, a7⟩)

/-- Whatever the operations on numbers are: the projection by cosine similarity raises what `math.sqrt` raises on the squared norm of a
node of the part. -/
theorem projectionN_raises {ops : MetricOps N} {g : Graph V (Val N)} {ns : List V} {partAttr weightAttr : String}
    {check : Bool} {w : V → V → N} (h : ProjectableN g ns partAttr weightAttr w) {threshold : Option N}
    (ht : ∀ t, threshold = some t → ops.le t 0 = false) {e : PyErr} (he : ∀ x e', ops.sqrt x = .error e' → e' = e)
    {u : V} (hu : u ∈ g.nodes) (hun : u ∈ ns) (hlt : ops.lt 0 (squareN ops g w u) = true)
    (hx : ops.sqrt (squareN ops g w u) = .error e) :
    monopartiteProjectionN ops true g ns partAttr weightAttr check threshold = .error e := by
  have hedge : ∀ {n t d}, (t, d) ∈ g.adj n → g.hasEdge n t = true := fun hq =>
    Graph.mem_neighbors.1 (List.mem_map.2 ⟨_, hq, rfl⟩)
  obtain ⟨⟨n, a⟩, hp, rfl⟩ := List.mem_map.1 hu
  have horder : g.order ≠ 0 := by
    intro h0
    have h1 : g.node = [] := List.eq_nil_of_length_eq_zero h0
    rw [h1] at hp
    cases hp
  have hpart := partLoopN_raises (g := g) (ns := ns) (partAttr := partAttr) (weightAttr := weightAttr) (check := check)
    (w := w) (L := g.node) [] (Graph.empty false false []) true
    (fun p hp => h.names p.1 p.2 (Dict.get?_of_mem h.wf.nodup hp))
    (fun p _ hin q hq => (h.bipartite _ _ (hedge hq)).1 hin) (fun p _ => h.weight p.1) he hp hun hlt hx
  unfold monopartiteProjectionN
  rw [if_neg (by
    intro hle
    split at hle
    · cases hle
    · rw [ht _ rfl] at hle
      cases hle), hpart]
  simp only [horder, if_false]

end
end Pelote
