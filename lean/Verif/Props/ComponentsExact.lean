import Verif.Props.Components
import Mathlib.Algebra.BigOperators.Group.Finset.Basic

/-! C15: exactly when `largest_connected_component` returns a largest component.  C67: cropping. -/
set_option linter.unusedSectionVars false
namespace Pelote
namespace Graph
variable {V A : Type} [DecidableEq V]

theorem runningMax_ge (a : Nat) (sizes : List Nat) (k : Nat) : a ≤ runningMax a sizes k := by
  unfold runningMax
  generalize sizes.take (k + 1) = l
  induction l generalizing a with
  | nil => exact le_rfl
  | cons d l ih => exact (le_max_left a d).trans (ih _)

theorem largestLoop_max_iff (cs : List (List V)) (l : Option (List V)) (a : Nat) (ha : (l.map List.length).getD 0 = a)
    (n : Int) (r : List V) (hr : largestLoop cs l n = some r) :
    (a ≤ r.length) ∧ ((∀ c ∈ cs, c.length ≤ r.length) ↔
      ∀ k, (∃ s ∈ cs.map List.length, runningMax a (cs.map List.length) k < s) →
        ((∑ i ∈ Finset.range (k + 1), runningMax a (cs.map List.length) i +
          runningMax a (cs.map List.length) k : Nat) : Int) ≤ n) := by
  induction cs generalizing l a n with
  | nil =>
    simp only [largestLoop] at hr
    subst hr
    simp only [Option.map_some, Option.getD_some] at ha
    exact ⟨ha.ge, by simp⟩
  | cons d cs ih =>
    obtain ⟨L, hL, hr'⟩ : ∃ L : List V, L.length = max a d.length ∧
        (if (L.length : Int) > n - L.length then some L else largestLoop cs (some L) (n - L.length)) = some r := by
      unfold largestLoop at hr
      rcases l with _ | L
      · simp only [Option.map_none, Option.getD_none] at ha
        exact ⟨d, by omega, hr⟩
      · simp only [Option.map_some, Option.getD_some] at ha
        by_cases hlt : L.length < d.length
        · simp only [if_pos hlt] at hr
          exact ⟨d, by omega, hr⟩
        · simp only [if_neg hlt] at hr
          exact ⟨L, by omega, hr⟩
    have hstep : ∀ k, runningMax a ((d :: cs).map List.length) (k + 1) =
        runningMax (max a d.length) (cs.map List.length) k := fun k => rfl
    have hzero : runningMax a ((d :: cs).map List.length) 0 = max a d.length := rfl
    have hsum : ∀ k, ∑ i ∈ Finset.range (k + 2), runningMax a ((d :: cs).map List.length) i =
        ∑ i ∈ Finset.range (k + 1), runningMax (max a d.length) (cs.map List.length) i + max a d.length := by
      intro k
      rw [Finset.sum_range_succ' _ (k + 1), hzero]
      simp only [hstep]
    split at hr'
    · rename_i hstop
      cases hr'
      refine ⟨by omega, ⟨fun hall k => ?_, fun hk => ?_⟩⟩
      · rintro ⟨s, hs, hlt⟩
        exfalso
        obtain ⟨c, hc, rfl⟩ := List.mem_map.1 hs
        have h1 := hall c hc
        have h2 : max a d.length ≤ runningMax a ((d :: cs).map List.length) k := by
          cases k with
          | zero => exact hzero.ge
          | succ k => rw [hstep]; exact runningMax_ge _ _ _
        omega
      · intro c hc
        by_contra hlt
        have := hk 0 ⟨c.length, List.mem_map_of_mem hc, by rw [hzero]; omega⟩
        simp only [Finset.sum_range_succ, Finset.sum_range_zero, hzero] at this
        omega
    · rename_i hstop
      obtain ⟨h1, h2⟩ := ih (some L) (max a d.length) (by simpa using hL) _ hr'
      refine ⟨by omega, ⟨fun hall k => ?_, fun hk => ?_⟩⟩
      · have h3 := h2.1 (fun c hc => hall c (List.mem_cons_of_mem _ hc))
        rintro ⟨s, hs, hlt⟩
        cases k with
        | zero =>
          simp only [zero_add, Finset.sum_range_one, hzero]
          omega
        | succ k =>
          rw [hstep] at hlt ⊢
          rw [hsum]
          have hs' : s ∈ cs.map List.length := by
            rcases List.mem_cons.1 hs with rfl | hs
            · have := runningMax_ge (max a d.length) (cs.map List.length) k
              omega
            · exact hs
          have := h3 k ⟨s, hs', hlt⟩
          push_cast at this ⊢
          omega
      · have h3 := h2.2 (fun k => ?_)
        · intro c hc
          rcases List.mem_cons.1 hc with rfl | hc
          · omega
          · exact h3 c hc
        · rintro ⟨s, hs, hlt⟩
          have := hk (k + 1) ⟨s, List.mem_cons_of_mem _ hs, by rw [hstep]; exact hlt⟩
          rw [hstep, hsum] at this
          push_cast at this ⊢
          omega

/-- C15, exactly.  The component returned is a largest one exactly when, at every step before a larger component than
all those met, the sum of the running maxima met so far (instead of the sizes met) and the current one do not exceed the
order of the graph. -/
theorem largestConnectedComponent_max_iff {g : Graph V A} (h : g.WF) (hne : g.nodes ≠ []) :
    ∃ c, largestConnectedComponent g = .ok (some c) ∧
      ((∀ n ∈ g.nodes, (componentOf g.nodes g.edges n).ncard ≤ c.length) ↔
        ∀ k, (∃ s ∈ componentOrders g.nodes g.edges, runningMax 0 (componentOrders g.nodes g.edges) k < s) →
          ∑ i ∈ Finset.range (k + 1), runningMax 0 (componentOrders g.nodes g.edges) i +
            runningMax 0 (componentOrders g.nodes g.edges) k ≤ g.order) := by
  obtain ⟨cs, hcs, hfor⟩ := nxComponents_ok h
  have hsizes := nxComponents_sizes hfor
  have hres : ∃ c, largestLoop cs none g.order = some c := by
    rcases hr : largestLoop cs none g.order with _ | c
    · rw [largestLoop_none] at hr
      rw [hr.1] at hsizes
      exact absurd ((componentOrders_eq_nil g.edges).1 hsizes.symm) hne
    · exact ⟨c, rfl⟩
  obtain ⟨c, hc⟩ := hres
  refine ⟨c, by unfold largestConnectedComponent; rw [hcs]; simp only [hc], ?_⟩
  have key := (largestLoop_max_iff cs none 0 rfl _ c hc).2
  rw [hsizes] at key
  have h1 : (∀ n ∈ g.nodes, (componentOf g.nodes g.edges n).ncard ≤ c.length) ↔ ∀ d ∈ cs, d.length ≤ c.length := by
    have h2 : (∀ d ∈ cs, d.length ≤ c.length) ↔ ∀ s ∈ componentOrders g.nodes g.edges, s ≤ c.length := by
      rw [← hsizes]; simp
    rw [h2]
    constructor
    · intro hall s hs
      obtain ⟨n, hn, rfl⟩ := List.mem_map.1 hs
      exact hall n (List.mem_filter.1 hn).1
    · intro hall n hn
      obtain ⟨r, ⟨hr, hl⟩, _⟩ := firstNodes_partition g.edges n hn
      have heq : componentOf g.nodes g.edges n = componentOf g.nodes g.edges r := by
        ext x
        exact ⟨fun hx => ⟨hx.1, hl.trans hx.2⟩, fun hx => ⟨hx.1, hl.symm.trans hx.2⟩⟩
      rw [heq]
      exact hall _ (List.mem_map_of_mem hr)
  rw [h1, key]
  norm_cast

/-- Sizes 3, 1, 4 stop too early; sizes 1, 3, 4 and sizes 2, 1, 4 do not. -/
theorem runningMax_sample :
    (¬ ∀ k, (∃ s ∈ [3, 1, 4], runningMax 0 [3, 1, 4] k < s) →
      ∑ i ∈ Finset.range (k + 1), runningMax 0 [3, 1, 4] i + runningMax 0 [3, 1, 4] k ≤ 8) ∧
    ∀ k, (∃ s ∈ [2, 1, 4], runningMax 0 [2, 1, 4] k < s) →
      ∑ i ∈ Finset.range (k + 1), runningMax 0 [2, 1, 4] i + runningMax 0 [2, 1, 4] k ≤ 7 := by
  constructor
  · intro h
    have := h 1 ⟨4, by simp, by decide⟩
    revert this
    decide
  · intro k hk
    have hk2 : k < 2 := by
      by_contra hge
      obtain ⟨s, hs, hlt⟩ := hk
      have : runningMax 0 [2, 1, 4] k = 4 := by
        unfold runningMax
        rw [List.take_of_length_le (by simp; omega)]
        rfl
      simp at hs
      omega
    rcases k with _ | _ | k
    · decide
    · decide
    · omega

/-! ### C67: cropping leaves a connected graph -/

/-- C67.  Cropping leaves a connected graph (whatever its kind, edges being followed both ways), and cropping again does
not change it. -/
theorem cropToLargest_connected {g : Graph V A} (h : g.WF) :
    ∃ g', cropToLargest g = (g', .ok ()) ∧ (g'.nodes = [] ↔ g.nodes = []) ∧
      (∀ u ∈ g'.nodes, ∀ v ∈ g'.nodes, Linked g'.edges u v) ∧ cropToLargest g' = (g', .ok ()) := by
  obtain ⟨r, g', hr, hcrop, hwf, hd, hm, ha, hnone, hsome⟩ := cropToLargest_exact h
  obtain ⟨r', hr', hrnone, hcomp⟩ := largestConnectedComponent_component h
  rw [hr] at hr'
  cases hr'
  have hempty : ∀ g0 : Graph V A, g0.WF → g0.nodes = [] → cropToLargest g0 = (g0, .ok ()) := by
    intro g0 h0 hn
    obtain ⟨r0, h1, h2, _⟩ := largestConnectedComponent_component h0
    unfold cropToLargest
    rw [h1, h2.2 hn]
  rcases r with _ | c
  · have hn := hrnone.1 rfl
    have := hnone rfl
    subst this
    refine ⟨g', hcrop, Iff.rfl, by rw [hn]; simp, hempty g' h hn⟩
  · obtain ⟨hnd, n, hn, hc⟩ := hcomp c rfl
    obtain ⟨hnode, hek, _⟩ := hsome c rfl
    have hnodes : ∀ x, x ∈ g'.nodes ↔ x ∈ c := by
      intro x
      unfold Graph.nodes Dict.keys
      rw [hnode]
      simp only [List.mem_map, List.mem_filter, decide_eq_true_eq]
      constructor
      · rintro ⟨q, ⟨_, h1⟩, rfl⟩; exact h1
      · intro hx
        obtain ⟨q, hq, rfl⟩ := List.mem_map.1 ((hc x).1 hx).1
        exact ⟨q, ⟨hq, hx⟩, rfl⟩
    have hedge : ∀ a b, (a, b) ∈ g.edges → a ∈ c → (a, b) ∈ g'.edges := by
      intro a b hab hac
      unfold Graph.edges at hab ⊢
      obtain ⟨e, he, heq⟩ := List.mem_map.1 hab
      cases heq
      rw [hek]
      exact List.mem_map.2 ⟨e, List.mem_filter.2 ⟨he, by simpa using hac⟩, rfl⟩
    -- links of the graph between nodes of the component are links of the cropped graph
    have hlift : ∀ x y, Linked g.edges x y → x ∈ c → Linked g'.edges x y := by
      intro x y hl
      have hiff : ∀ x y, Linked g.edges x y → (x ∈ c ↔ y ∈ c) := by
        intro x y hl
        induction hl with
        | rel a b hab => exact edge_in_component h hc hab
        | refl => exact Iff.rfl
        | symm _ _ _ ih => exact ih.symm
        | trans _ _ _ _ _ i1 i2 => exact i1.trans i2
      induction hl with
      | rel a b hab => exact fun hx => Linked.of_mem (hedge a b hab hx)
      | refl => exact fun _ => Linked.refl _ _
      | symm a b hab ih => exact fun hx => (ih ((hiff a b hab).2 hx)).symm
      | trans a b d hab hbd i1 i2 => exact fun hx => (i1 hx).trans (i2 ((hiff a b hab).1 hx))
    have hconn : ∀ u ∈ g'.nodes, ∀ v ∈ g'.nodes, Linked g'.edges u v := by
      intro u hu v hv
      have h1 := (hc u).1 ((hnodes u).1 hu)
      have h2 := (hc v).1 ((hnodes v).1 hv)
      exact hlift u v (h1.2.symm.trans h2.2) ((hnodes u).1 hu)
    have hnc : n ∈ c := (hc n).2 ⟨hn, Linked.refl _ _⟩
    have hne : g'.nodes ≠ [] := fun h0 => by
      have := (hnodes n).2 hnc
      rw [h0] at this
      cases this
    refine ⟨g', hcrop, ⟨fun h0 => absurd h0 hne, fun h0 => by rw [h0] at hn; cases hn⟩, hconn, ?_⟩
    obtain ⟨r0, h1, h2, h3⟩ := largestConnectedComponent_component hwf
    rcases r0 with _ | c0
    · exact absurd (h2.1 rfl) hne
    · obtain ⟨_, m, hm0, hc0⟩ := h3 c0 rfl
      unfold cropToLargest
      rw [h1]
      simp only [Prod.mk.injEq, and_true]
      have : g'.nodes.filter (fun n => !decide (n ∈ c0)) = [] := by
        rw [List.filter_eq_nil_iff]
        intro x hx
        simpa using (hc0 x).2 ⟨hx, hconn m hm0 x hx⟩
      rw [this]
      rfl

/-- Five nodes in two components, cropped to the one of three. -/
theorem cropToLargest_sample :
    twoComponents.WF ∧ (cropToLargest twoComponents).1.nodes = [0, 2, 4] ∧ twoComponents.nodes.length = 5 := by
  exact ⟨twoComponents_wf, by decide +kernel, by decide⟩

end Graph
end Pelote
