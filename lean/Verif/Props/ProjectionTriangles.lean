import Verif.Props.ProjectionComponents
import Verif.Props.TrianglesCount
import Verif.Lemmas.Strength

/-! C119: the triangles of a projection. -/
set_option linter.unusedSectionVars false
namespace Pelote

section
variable {V K : Type} [LinearOrder V] [PyOrd V] [Field K] [LinearOrder K] [IsStrictOrderedRing K] [PyMath K] [AttrVal (Val K)]
  {g : Graph V (Val K)} {part : Part V K} {partAttr weightAttr : String} {kind : Metric} {check : Bool} {w : V → V → K}

/-- C119.  In the projection, the triangular strength of a link is the number of other nodes that share a neighbor with both of its ends;
it is at least the number of other neighbors of any neighbor they share. -/
theorem projection_triangular (ho : OrderedKeys V) (hsqrt : ∀ x : K, 0 < x → 0 < PyMath.sqrt x) (hrnd : ∀ x : K, 0 < x → 0 < PyMath.rnd x)
    (h : Projectable g part partAttr weightAttr kind check w) {metric : Option String} (hk : (metric, kind) ∈ metricNames) :
    ∃ m d, monopartiteProjection g part partAttr weightAttr metric check none = .ok m ∧ triangularStrength m true = .ok d ∧
      (∀ u v n, d.get? (u, v) = some n ↔ u < v ∧ InPart g partAttr part u ∧ InPart g partAttr part v ∧
        (g.nbhd u ∩ g.nbhd v).Nonempty ∧ n = (g.coNeighbors u ∩ g.coNeighbors v).card) ∧
      (∀ u v n, d.get? (u, v) = some n → ∀ t ∈ g.nbhd u ∩ g.nbhd v, (g.nbhd t).card ≤ n + 2) ∧
      (∀ s, m.IsTriangle s ↔ s.card = 3 ∧ (∀ x ∈ s, InPart g partAttr part x) ∧
        ∀ x ∈ s, ∀ y ∈ s, x ≠ y → (g.nbhd x ∩ g.nbhd y).Nonempty) ∧
      ∀ t ∈ g.nodes, ¬ InPart g partAttr part t → (g.nbhd t).card.choose 3 ≤ (triangles m).yields.length := by
  obtain ⟨m, h1, h2, h3, -⟩ := projection_linkWeight hsqrt hrnd h hk
  obtain ⟨hd, -, -⟩ := projection_nodes_partial _ _ _ _ _ _ _ h.wf h.notFrozen h1
  have hA : ∀ u v, m.Adjacent u v ↔
      u ≠ v ∧ InPart g partAttr part u ∧ InPart g partAttr part v ∧ (g.nbhd u ∩ g.nbhd v).Nonempty := by
    intro u v
    unfold Graph.Adjacent
    rw [Graph.hasEdge_comm hd (u := v), or_self, h3]
  have hcomm : ∀ {x y}, x ∈ g.nbhd y ↔ y ∈ g.nbhd x := by
    intro x y
    rw [mem_nbhd h.wf, mem_nbhd h.wf, Graph.hasEdge_comm h.undirected]
  have hpart : ∀ {u t z}, InPart g partAttr part u → t ∈ g.nbhd u → z ∈ g.nbhd t → InPart g partAttr part z := by
    intro u t z hu ht hz
    have e1 := h.bipartite u t ((mem_nbhd h.wf).1 ht)
    have e2 := h.bipartite t z ((mem_nbhd h.wf).1 hz)
    tauto
  have hco : ∀ u, InPart g partAttr part u → ∀ z, z ∈ g.coNeighbors u ↔ m.Adjacent u z := by
    intro u hu z
    rw [hA]
    unfold Graph.coNeighbors
    simp only [Finset.mem_erase, Finset.mem_biUnion]
    constructor
    · rintro ⟨hz, t, ht, htz⟩
      exact ⟨hz.symm, hu, hpart hu ht htz, t, Finset.mem_inter.2 ⟨ht, hcomm.1 htz⟩⟩
    · rintro ⟨hz, -, -, t, ht⟩
      rw [Finset.mem_inter] at ht
      exact ⟨hz.symm, t, ht.1, hcomm.1 ht.2⟩
  have hstr : ∀ u v, m.Adjacent u v → m.strength u v = (g.coNeighbors u ∩ g.coNeighbors v).card := by
    intro u v ha
    obtain ⟨c1, c2, c3, -⟩ := (hA u v).1 ha
    refine strength_common c1 ha _ fun z => ?_
    rw [Finset.mem_inter, hco u c2, hco v c3]
    constructor
    · rintro ⟨a, b⟩
      exact ⟨⟨((hA u z).1 a).1.symm, a⟩, ((hA v z).1 b).1.symm, b⟩
    · rintro ⟨⟨-, a⟩, -, b⟩; exact ⟨a, b⟩
  have hzero : ∀ u v, 0 < m.strength u v → m.Adjacent u v := by
    intro u v hpos
    unfold Graph.strength at hpos
    obtain ⟨s, ⟨a, b, c, hab, hbc, hac, e1, e2, e3, rfl⟩, huv, hu, hv⟩ := Set.nonempty_of_ncard_ne_zero hpos.ne'
    simp only [Finset.mem_insert, Finset.mem_singleton] at hu hv
    rcases hu with rfl | rfl | rfl <;> rcases hv with rfl | rfl | rfl <;>
      first | exact absurd rfl huv | assumption | exact Or.symm (by assumption)
  obtain ⟨d, d1, -, d3⟩ := triangularStrength_exact ho h2 true
  have hd3 : ∀ u v n, d.get? (u, v) = some n ↔ u < v ∧ InPart g partAttr part u ∧ InPart g partAttr part v ∧
        (g.nbhd u ∩ g.nbhd v).Nonempty ∧ n = (g.coNeighbors u ∩ g.coNeighbors v).card := by
    intro u v n
    rw [d3]
    constructor
    · rintro ⟨c1, c2, rfl⟩
      have ha : m.Adjacent u v := by
        rcases c2 with ⟨-, c2⟩ | c2
        · exact c2
        · exact hzero u v c2
      obtain ⟨e1, e2, e3, e4⟩ := (hA u v).1 ha
      exact ⟨lt_of_le_of_ne c1 e1, e2, e3, e4, hstr u v ha⟩
    · rintro ⟨c1, c2, c3, c4, rfl⟩
      have ha := (hA u v).2 ⟨c1.ne, c2, c3, c4⟩
      exact ⟨c1.le, .inl ⟨rfl, ha⟩, (hstr u v ha).symm⟩
  have htri : ∀ s, m.IsTriangle s ↔ s.card = 3 ∧ (∀ x ∈ s, InPart g partAttr part x) ∧
        ∀ x ∈ s, ∀ y ∈ s, x ≠ y → (g.nbhd x ∩ g.nbhd y).Nonempty := by
    intro s
    constructor
    · rintro ⟨a, b, c, hab, hbc, hac, e1, e2, e3, rfl⟩
      have e1 := (hA _ _).1 e1
      have e2 := (hA _ _).1 e2
      have e3 := (hA _ _).1 e3
      refine ⟨Finset.card_eq_three.2 ⟨a, b, c, hab, hac, hbc, rfl⟩, ?_, ?_⟩
      · intro x hx
        simp only [Finset.mem_insert, Finset.mem_singleton] at hx
        rcases hx with rfl | rfl | rfl
        · exact e1.2.1
        · exact e1.2.2.1
        · exact e2.2.2.1
      · intro x hx y hy hxy
        simp only [Finset.mem_insert, Finset.mem_singleton] at hx hy
        rcases hx with rfl | rfl | rfl <;> rcases hy with rfl | rfl | rfl <;>
          first | exact absurd rfl hxy | exact e1.2.2.2 | exact e2.2.2.2 | exact e3.2.2.2 |
            (rw [Finset.inter_comm]; first | exact e1.2.2.2 | exact e2.2.2.2 | exact e3.2.2.2)
    · rintro ⟨hc, hp, hn⟩
      obtain ⟨a, b, c, hab, hac, hbc, rfl⟩ := Finset.card_eq_three.1 hc
      have ad : ∀ x ∈ ({a, b, c} : Finset V), ∀ y ∈ ({a, b, c} : Finset V), x ≠ y → m.Adjacent x y := fun x hx y hy hxy =>
        (hA x y).2 ⟨hxy, hp x hx, hp y hy, hn x hx y hy hxy⟩
      exact ⟨a, b, c, hab, hbc, hac, ad a (by simp) b (by simp) hab, ad b (by simp) c (by simp) hbc, ad a (by simp) c (by simp) hac, rfl⟩
  refine ⟨m, d, h1, d1, hd3, ?_, htri, ?_⟩
  · intro u v n hn t ht
    obtain ⟨c1, c2, c3, c4, rfl⟩ := (hd3 u v n).1 hn
    rw [Finset.mem_inter] at ht
    have hsub : ((g.nbhd t).erase u).erase v ⊆ g.coNeighbors u ∩ g.coNeighbors v := by
      intro z hz
      simp only [Finset.mem_erase] at hz
      obtain ⟨z1, z2, z3⟩ := hz
      unfold Graph.coNeighbors
      simp only [Finset.mem_inter, Finset.mem_erase, Finset.mem_biUnion]
      exact ⟨⟨z2, t, ht.1, z3⟩, z1, t, ht.2, z3⟩
    have hu : u ∈ g.nbhd t := hcomm.1 ht.1
    have hv : v ∈ (g.nbhd t).erase u := Finset.mem_erase.2 ⟨c1.ne', hcomm.1 ht.2⟩
    have := Finset.card_le_card hsub
    rw [Finset.card_erase_of_mem hv, Finset.card_erase_of_mem hu] at this
    omega
  · intro t _ hnt
    rw [(triangularStrength_sum h2 d1).2, ← Finset.card_powersetCard, ← Set.ncard_coe_finset]
    have hfin : {s | m.IsTriangle s}.Finite := by
      refine (m.nodes.toFinset.powerset.finite_toSet).subset fun s hs => ?_
      obtain ⟨-, hp, -⟩ := (htri s).1 hs
      refine Finset.mem_coe.2 (Finset.mem_powerset.2 fun x hx => List.mem_toFinset.2 ?_)
      exact (projection_part h.wf h.notFrozen h1 x).2 (hp x hx)
    refine Set.ncard_le_ncard (fun s hs => ?_) hfin
    obtain ⟨hs1, hs2⟩ := Finset.mem_powersetCard.1 (Finset.mem_coe.1 hs)
    refine (htri s).2 ⟨hs2, fun x hx => ?_, fun x hx y hy _ => ⟨t, Finset.mem_inter.2 ⟨hcomm.1 (hs1 hx), hcomm.1 (hs1 hy)⟩⟩⟩
    have := h.bipartite t x ((mem_nbhd h.wf).1 (hs1 hx))
    tauto

end
/-- Accounts 1 to 4 all have page 10, and account 4 shares page 11 with account 5. -/
def popularPage : Graph Int (Val ℝ) :=
  ⟨false, false, [], [(1, []), (2, []), (3, []), (4, []), (5, []), (10, []), (11, [])],
    [⟨1, 10, [(.int 0, [])]⟩, ⟨2, 10, [(.int 0, [])]⟩, ⟨3, 10, [(.int 0, [])]⟩, ⟨4, 10, [(.int 0, [])]⟩,
     ⟨4, 11, [(.int 0, [])]⟩, ⟨5, 11, [(.int 0, [])]⟩]⟩

theorem popularPage_projectable (check : Bool) :
    Projectable popularPage (.collection [1, 2, 3, 4, 5]) "part" "weight" .intersection check (fun _ _ => 1) := by
  have hwf : popularPage.WF := by constructor <;> decide
  refine ⟨hwf, rfl, rfl, by simp, ⟨1, by decide, by decide⟩, ?_, fun _ _ _ _ => rfl, ?_, by simp, by simp, by simp⟩
  · intro u v he
    obtain ⟨d, hd⟩ := Option.isSome_iff_exists.1 he
    obtain ⟨l, hl, hs, rfl⟩ := (Graph.keydict?_eq_some hwf).1 hd
    have hs := samePair_iff.1 hs
    simp only [InPart, popularPage, Graph.nodes, Dict.keys, List.map_cons, List.map_nil, List.mem_cons,
      List.not_mem_nil, or_false] at hl ⊢
    rcases hl with rfl | rfl | rfl | rfl | rfl | rfl <;> rcases hs with ⟨rfl, rfl⟩ | ⟨_, rfl, rfl⟩ <;> simp
  · intro n a ha _
    have : a = [] := by
      have := Dict.mem_of_get? ha
      simp only [popularPage, List.mem_cons, Prod.mk.injEq, List.not_mem_nil, or_false] at this
      rcases this with h | h | h | h | h | h | h <;> exact h.2
    subst this
    intro k hk
    simp [Dict.erase, Dict.keys] at hk

/-- C119.  A case: the link of accounts 1 and 2 is in two triangles, that of 4 and 5 in none, 1 and 5 have no link, and there are at
least 4 triangles. -/
theorem projection_triangular_sample [AttrVal (Val ℝ)] :
    ∃ m d, monopartiteProjection popularPage (.collection [1, 2, 3, 4, 5]) "part" "weight" none true none = .ok m ∧
      triangularStrength m true = .ok d ∧ d.get? (1, 2) = some 2 ∧ d.get? (4, 5) = some 0 ∧ d.get? (1, 5) = none ∧
      4 ≤ (triangles m).yields.length := by
  have hp := popularPage_projectable true
  obtain ⟨m, d, h1, h2, h3, -, -, h4⟩ := projection_triangular (fun _ _ => rfl) sqrt_pos_real (fun _ h => h) hp (metric := none)
    (by simp [metricNames])
  have hi : ∀ n ∈ [1, 2, 3, 4, 5], InPart popularPage "part" (.collection [1, 2, 3, 4, 5]) n := by
    intro n hn
    simp only [List.mem_cons, List.not_mem_nil, or_false] at hn
    rcases hn with rfl | rfl | rfl | rfl | rfl <;> exact ⟨by decide, by decide⟩
  refine ⟨m, d, h1, h2, (h3 1 2 2).2 ⟨by decide, hi 1 (by decide), hi 2 (by decide), by decide, by decide⟩,
    (h3 4 5 0).2 ⟨by decide, hi 4 (by decide), hi 5 (by decide), by decide, by decide⟩, ?_, ?_⟩
  · by_contra hn
    obtain ⟨n, hn⟩ := Option.ne_none_iff_exists'.1 hn
    have := ((h3 1 5 n).1 hn).2.2.2.1
    revert this
    decide
  · have := h4 10 (by decide) (by rintro ⟨-, h⟩; revert h; decide)
    rwa [show (popularPage.nbhd 10).card.choose 3 = 4 by decide] at this

end Pelote
