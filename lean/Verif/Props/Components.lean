import Verif.Lemmas.Components
import Verif.Lemmas.RemoveEdges
import Verif.Props.GraphEdit

/-! C12–C17: connected components. -/
set_option linter.unusedSectionVars false
namespace Pelote
variable {V A : Type} [DecidableEq V]
open Graph

/-! ### The specification of components is sound -/

/-- Every node is linked to exactly one of the first nodes of the specification: components partition the
nodes. -/
theorem firstNodes_partition {nodes : List V} (pairs : List (V × V)) :
    ∀ n ∈ nodes, ∃! r, r ∈ firstNodes nodes pairs ∧ Linked pairs r n := by
  classical
  intro n hnm
  have hex : ∃ r ∈ nodes, Linked pairs r n ∧ ∀ m ∈ nodes, nodes.idxOf m < nodes.idxOf r → ¬ Linked pairs m n := by
    have : ∀ k, ∀ r ∈ nodes, nodes.idxOf r ≤ k → Linked pairs r n →
        ∃ r ∈ nodes, Linked pairs r n ∧ ∀ m ∈ nodes, nodes.idxOf m < nodes.idxOf r → ¬ Linked pairs m n := by
      intro k
      induction k with
      | zero => intro r hr hk hl; exact ⟨r, hr, hl, by intro m _ hlt; omega⟩
      | succ k ih =>
        intro r hr hk hl
        by_cases hall : ∀ m ∈ nodes, nodes.idxOf m < nodes.idxOf r → ¬ Linked pairs m n
        · exact ⟨r, hr, hl, hall⟩
        · push Not at hall
          obtain ⟨m, hm, hlt, hlm⟩ := hall
          exact ih m hm (by omega) hlm
    exact this _ n hnm le_rfl (Linked.refl _ _)
  obtain ⟨r, hr, hl, hmin⟩ := hex
  refine ⟨r, ⟨?_, hl⟩, ?_⟩
  · unfold firstNodes
    rw [List.mem_filter, decide_eq_true_iff]
    exact ⟨hr, fun m hm hlt hc => hmin m hm hlt (hc.trans hl)⟩
  · rintro r' ⟨hr', hl'⟩
    unfold firstNodes at hr'
    rw [List.mem_filter, decide_eq_true_iff] at hr'
    have h1 : ¬ nodes.idxOf r < nodes.idxOf r' := fun hlt => hr'.2 r hr hlt (hl.trans hl'.symm)
    have h2 : ¬ nodes.idxOf r' < nodes.idxOf r := fun hlt => hmin r' hr'.1 hlt hl'
    exact idxOf_inj hr'.1 (by omega)

/-! ### C12, C13: connected_component_orders -/

/-- C12.  On an undirected graph the generator yields exactly the sizes of the connected components, in
order of their first nodes, and raises nothing. -/
theorem connectedComponentOrders_exact {g : Graph V A} (h : g.WF) (hd : g.directed = false) :
    connectedComponentOrders g none = ⟨componentOrders g.nodes g.edges, none⟩ := by
  have hp : acceptedPairs g (fun _ _ _ => true) = g.edges := by
    unfold acceptedPairs edges edgesData
    simp [Function.comp_def]
  have hpush : ∀ n ∈ g.nodes, ∀ t, pushNeighbors none n (g.edgesOf n) t =
      .ok (appendAll t (acceptedNeighbors g (fun _ _ _ => true) n)) :=
    fun n _ t => pushNeighbors_ok (p := fun _ _ _ => true) (fun _ _ => rfl) t
  have hdesc := acceptedNeighbors_describes h hd (p := fun _ _ _ => true) (fun _ _ => rfl)
  have h1 := componentOrdersLoop_sum hpush (acceptedNeighbors_nodes h _) h.nodup g.nodes [] rfl _ (LoopInv.init _ _)
  have h2 := componentOrdersLoop_spec hdesc hpush (acceptedNeighbors_nodes h _) h.nodup g.nodes [] rfl _
    (LoopInv.init _ _) (by simp [Traversal.init])
  rw [hp] at h2
  unfold connectedComponentOrders
  rcases hr : componentOrdersLoop g none g.nodes (Traversal.init g.nodes) with ⟨ys, e⟩
  rw [hr] at h1 h2
  simp only at h1 h2
  rw [h1.1, h2]
  rfl

/-- C12, second half, for every kind of graph: the sizes sum to the order of the graph. -/
theorem connectedComponentOrders_sum {g : Graph V A} (h : g.WF) :
    (connectedComponentOrders g none).err = none ∧ (connectedComponentOrders g none).yields.sum = g.nodes.length := by
  have hpush : ∀ n ∈ g.nodes, ∀ t, pushNeighbors none n (g.edgesOf n) t =
      .ok (appendAll t (acceptedNeighbors g (fun _ _ _ => true) n)) :=
    fun n _ t => pushNeighbors_ok (p := fun _ _ _ => true) (fun _ _ => rfl) t
  have h1 := componentOrdersLoop_sum hpush (acceptedNeighbors_nodes h _) h.nodup g.nodes [] rfl _ (LoopInv.init _ _)
  refine ⟨h1.1, ?_⟩
  have h2 := h1.2
  simp only [Traversal.init, List.length_nil, Nat.zero_add] at h2
  exact h2

/-- C13.  With a filter that answers `p`, not depending on the direction, the sizes are those of the
components of the graph restricted to the accepted edges. -/
theorem connectedComponentOrders_filter {g : Graph V A} (h : g.WF) (hd : g.directed = false)
    {f : EdgePred V A} {p : V → V → Attrs A → Bool}
    (hf : ∀ e ∈ g.edgesData, f e.1 e.2.1 e.2.2 = .ok (p e.1 e.2.1 e.2.2) ∧
      f e.2.1 e.1 e.2.2 = .ok (p e.1 e.2.1 e.2.2)) :
    connectedComponentOrders g (some f) =
      ⟨componentOrders g.nodes ((g.edgesData.filter (fun e => p e.1 e.2.1 e.2.2)).map (fun e => (e.1, e.2.1))), none⟩ := by
  classical
  -- the filter's answer, in any direction
  let q : V → V → Attrs A → Bool := fun u v a => match f u v a with
    | .ok b => b
    | .error _ => false
  have hq : ∀ e ∈ g.edgesData, q e.1 e.2.1 e.2.2 = p e.1 e.2.1 e.2.2 ∧ q e.2.1 e.1 e.2.2 = p e.1 e.2.1 e.2.2 := by
    intro e he
    obtain ⟨h1, h2⟩ := hf e he
    exact ⟨by simp only [q, h1], by simp only [q, h2]⟩
  have hpush : ∀ n ∈ g.nodes, ∀ t, pushNeighbors (some f) n (g.edgesOf n) t =
      .ok (appendAll t (acceptedNeighbors g q n)) := by
    intro n _ t
    refine pushNeighbors_ok (p := q) ?_ t
    rintro ⟨u, m, k, a⟩ he
    have hu := ((mem_edgesOf h).1 he).1
    subst hu
    simp only [follows]
    rcases (edgesOf_listed h hd).1 ⟨k, he⟩ with hl | hl
    · have := (hf _ hl).1
      simp only at this
      simp only [q, this]
    · have := (hf _ hl).2
      simp only at this
      simp only [q, this]
  have hdesc := acceptedNeighbors_describes h hd (p := q) (fun e he => (hq e he).1.trans (hq e he).2.symm)
  have h1 := componentOrdersLoop_sum hpush (acceptedNeighbors_nodes h _) h.nodup g.nodes [] rfl _ (LoopInv.init _ _)
  have h2 := componentOrdersLoop_spec hdesc hpush (acceptedNeighbors_nodes h _) h.nodup g.nodes [] rfl _
    (LoopInv.init _ _) (by simp [Traversal.init])
  have hp : acceptedPairs g q = (g.edgesData.filter (fun e => p e.1 e.2.1 e.2.2)).map (fun e => (e.1, e.2.1)) := by
    unfold acceptedPairs
    congr 1
    exact List.filter_congr (fun e he => (hq e he).1)
  rw [hp] at h2
  unfold connectedComponentOrders
  rcases hr : componentOrdersLoop g (some f) g.nodes (Traversal.init g.nodes) with ⟨ys, e⟩
  rw [hr] at h1 h2
  simp only at h1 h2
  rw [h1.1, h2]
  rfl

/-- Two components of sizes 3 and 2, one parallel edge and one self loop. -/
def twoComponents : Graph Int Int :=
  ⟨false, true, [], [(0, []), (1, []), (2, []), (3, []), (4, [])],
    [⟨2, 0, [(.int 0, [(.str "w", 1)]), (.int 1, [])]⟩, ⟨3, 1, [(.int 0, [(.str "w", 5)])]⟩, ⟨4, 4, [(.int 0, [])]⟩,
     ⟨2, 4, [(.int 0, [(.str "w", 5)])]⟩]⟩

theorem twoComponents_wf : twoComponents.WF := by constructor <;> decide

example : (connectedComponentOrders twoComponents none).yields = [3, 2] ∧
    (connectedComponentOrders twoComponents (some fun _ _ a => .ok (a.get? (.str "w") == some 5))).yields = [1, 2, 2] := by
  decide +kernel

/-- C12 is false on directed graphs: only out-edges are followed.  The two nodes below are in one weakly
connected component, of size 2, but two sizes are given. -/
theorem connectedComponentOrders_directed_wrong :
    ∃ g : Graph Int Int, g.WF ∧ g.directed = true ∧ (connectedComponentOrders g none).yields = [1, 1] ∧
      Linked g.edges 1 0 := by
  refine ⟨⟨true, false, [], [(1, []), (0, [])], [⟨0, 1, [(.int 0, [])]⟩]⟩, ?_, rfl, by decide +kernel, ?_⟩
  · constructor <;> decide
  · exact (Linked.of_mem (by decide +kernel)).symm

/-- A filter that depends on the direction, on an undirected graph: an accepted edge may not be followed
(C13's hypothesis is needed). -/
theorem connectedComponentOrders_asymmetric_filter :
    ∃ g : Graph Int Int, g.WF ∧ g.directed = false ∧ g.edges = [(0, 1)] ∧
      (connectedComponentOrders g (some fun u v _ => .ok (decide (u < v)))).yields = [2] ∧
      (connectedComponentOrders g (some fun u v _ => .ok (decide (v < u)))).yields = [1, 1] := by
  refine ⟨⟨false, false, [], [(0, []), (1, [])], [⟨0, 1, [(.int 0, [])]⟩]⟩, ?_, rfl, by decide +kernel,
    by decide +kernel, by decide +kernel⟩
  constructor <;> decide

/-! ### C14: largest orders -/

theorem foldl_max_spec (xs : List Nat) (x : Nat) :
    let m := xs.foldl (fun m y => if m < y then y else m) x
    x ≤ m ∧ (∀ y ∈ xs, y ≤ m) ∧ (m = x ∨ m ∈ xs) := by
  induction xs generalizing x with
  | nil => simp
  | cons y ys ih =>
    simp only [List.foldl_cons]
    obtain ⟨h1, h2, h3⟩ := ih (if x < y then y else x)
    have hle : x ≤ (if x < y then y else x) ∧ y ≤ (if x < y then y else x) := by split <;> omega
    refine ⟨by omega, ?_, ?_⟩
    · intro z hz
      rcases List.mem_cons.1 hz with rfl | hz
      · omega
      · exact h2 z hz
    · rcases h3 with h3 | h3
      · by_cases hxy : x < y
        · rw [if_pos hxy] at h3; right; rw [if_pos hxy, h3]; simp
        · rw [if_neg hxy] at h3; left; rw [if_neg hxy, h3]
      · exact .inr (List.mem_cons_of_mem _ h3)

theorem componentOrders_eq_nil {nodes : List V} (pairs : List (V × V)) :
    componentOrders nodes pairs = [] ↔ nodes = [] := by
  constructor
  · intro h
    unfold componentOrders at h
    rw [List.map_eq_nil_iff] at h
    by_contra hne
    obtain ⟨n, hnm⟩ := List.exists_mem_of_ne_nil _ hne
    obtain ⟨r, ⟨hr, _⟩, _⟩ := firstNodes_partition pairs n hnm
    rw [h] at hr
    cases hr
  · rintro rfl; rfl

/-- C14, first half: on an undirected graph the result is `None` exactly for the null graph and otherwise
the maximum component size. -/
theorem largestComponentOrder_exact {g : Graph V A} (h : g.WF) (hd : g.directed = false) :
    ∃ r, largestComponentOrder g = .ok r ∧ (r = none ↔ g.nodes = []) ∧
      ∀ m, r = some m → m ∈ componentOrders g.nodes g.edges ∧ ∀ s ∈ componentOrders g.nodes g.edges, s ≤ m := by
  unfold largestComponentOrder
  rw [connectedComponentOrders_exact h hd]
  by_cases h0 : g.order = 0
  · rw [if_pos h0]
    refine ⟨none, rfl, ?_, by simp⟩
    simp only [true_iff]
    exact List.map_eq_nil_iff.2 (List.length_eq_zero_iff.1 h0)
  · rw [if_neg h0]
    simp only [Gen.toList]
    rcases hl : componentOrders g.nodes g.edges with _ | ⟨x, xs⟩
    · exfalso
      have := (componentOrders_eq_nil _).1 hl
      exact h0 (List.length_eq_zero_iff.2 (List.map_eq_nil_iff.1 this))
    · obtain ⟨h1, h2, h3⟩ := foldl_max_spec xs x
      refine ⟨some _, rfl, ?_, ?_⟩
      · simp only [reduceCtorEq, false_iff]
        intro hc
        rw [(componentOrders_eq_nil _).2 hc] at hl
        cases hl
      · intro m hm
        cases hm
        refine ⟨?_, ?_⟩
        · rcases h3 with h3 | h3
          · rw [h3]; simp
          · exact List.mem_cons_of_mem _ h3
        · intro s hs
          rcases List.mem_cons.1 hs with rfl | hs
          · exact h1
          · exact h2 s hs

theorem second_spec (l : List Nat) :
    ((nlargest 2 l)[1]? = none ↔ l.length < 2) ∧ ∀ r, (nlargest 2 l)[1]? = some r → IsSecondLargest l r := by
  unfold nlargest
  have hperm : (l.mergeSort (fun a b => decide (a ≥ b))).Perm l := List.mergeSort_perm _ _
  have hsorted : (l.mergeSort (fun a b => decide (a ≥ b))).Pairwise (fun a b => decide (a ≥ b) = true) :=
    List.pairwise_mergeSort (by intro a b c; simp; omega) (by intro a b; simp; omega) _
  rcases hl : l.mergeSort (fun a b => decide (a ≥ b)) with _ | ⟨a, _ | ⟨b, rest⟩⟩ <;> rw [hl] at hperm hsorted <;>
    have hlen := hperm.length_eq <;> simp only [List.length_nil, List.length_cons] at hlen
  · constructor
    · simp; omega
    · intro r hr; simp at hr
  · constructor
    · simp; omega
    · intro r hr; simp at hr
  · constructor
    · simp; omega
    · intro r hr
      simp only [List.take_succ_cons, List.take_zero, List.getElem?_cons_succ, List.getElem?_cons_zero,
        Option.some.injEq] at hr
      subst hr
      simp only [List.pairwise_cons, decide_eq_true_iff] at hsorted
      exact ⟨a, rest, hperm.symm, hsorted.1 b (by simp), fun x hx => hsorted.2.1 x hx⟩

/-- C14, second half: `None` exactly when there are fewer than two components, and otherwise the second
largest component size, with multiplicity. -/
theorem secondLargestComponentOrder_exact {g : Graph V A} (h : g.WF) (hd : g.directed = false) :
    ∃ r, secondLargestComponentOrder g none = .ok r ∧
      (r = none ↔ (componentOrders g.nodes g.edges).length < 2) ∧
      ∀ m, r = some m → IsSecondLargest (componentOrders g.nodes g.edges) m := by
  unfold secondLargestComponentOrder
  rw [connectedComponentOrders_exact h hd]
  exact ⟨_, rfl, second_spec _⟩

/-- The same with an edge filter. -/
theorem secondLargestComponentOrder_filter {g : Graph V A} (h : g.WF) (hd : g.directed = false)
    {f : EdgePred V A} {p : V → V → Attrs A → Bool}
    (hf : ∀ e ∈ g.edgesData, f e.1 e.2.1 e.2.2 = .ok (p e.1 e.2.1 e.2.2) ∧
      f e.2.1 e.1 e.2.2 = .ok (p e.1 e.2.1 e.2.2)) :
    ∃ r, secondLargestComponentOrder g (some f) = .ok r ∧
      let sizes := componentOrders g.nodes ((g.edgesData.filter (fun e => p e.1 e.2.1 e.2.2)).map (fun e => (e.1, e.2.1)))
      (r = none ↔ sizes.length < 2) ∧ ∀ m, r = some m → IsSecondLargest sizes m := by
  unfold secondLargestComponentOrder
  rw [connectedComponentOrders_filter h hd hf]
  exact ⟨_, rfl, second_spec _⟩

theorem componentOrders_twoComponents : componentOrders twoComponents.nodes twoComponents.edges = [3, 2] := by
  have h1 := connectedComponentOrders_exact twoComponents_wf rfl
  have h2 : (connectedComponentOrders twoComponents none).yields = [3, 2] := by decide +kernel
  rw [h1] at h2
  exact h2

example : secondLargestComponentOrder twoComponents none = .ok (some 2) ∧
    largestComponentOrder twoComponents = .ok (some 3) := by
  unfold secondLargestComponentOrder largestComponentOrder
  rw [connectedComponentOrders_exact twoComponents_wf rfl, componentOrders_twoComponents]
  exact ⟨by simp [Gen.toList, nlargest, List.mergeSort, List.MergeSort.Internal.splitInTwo], rfl⟩

/-! ### C15: largest_connected_component -/

theorem largestLoop_mem (cs : List (List V)) (l : Option (List V)) (n : Int) :
    ∀ c, largestLoop cs l n = some c → c ∈ cs ∨ l = some c := by
  induction cs generalizing l n with
  | nil => intro c hc; exact .inr hc
  | cons d cs ih =>
    intro c hc
    have key : ∀ L : List V, (L = d ∨ l = some L) →
        (if (L.length : Int) > n - L.length then some L else largestLoop cs (some L) (n - L.length)) = some c →
        c ∈ d :: cs ∨ l = some c := by
      intro L hL hif
      split at hif
      · cases hif
        rcases hL with rfl | hL
        · exact .inl (by simp)
        · exact .inr hL
      · rcases ih _ _ c hif with h | h
        · exact .inl (List.mem_cons_of_mem _ h)
        · cases h
          rcases hL with rfl | hL
          · exact .inl (by simp)
          · exact .inr hL
    unfold largestLoop at hc
    rcases l with _ | L
    · exact key d (.inl rfl) hc
    · by_cases hlt : L.length < d.length
      · simp only [if_pos hlt] at hc
        exact key d (.inl rfl) hc
      · simp only [if_neg hlt] at hc
        exact key L (.inr rfl) hc

theorem largestLoop_none (cs : List (List V)) (l : Option (List V)) (n : Int) :
    largestLoop cs l n = none ↔ cs = [] ∧ l = none := by
  induction cs generalizing l n with
  | nil => simp [largestLoop]
  | cons d cs ih =>
    have key : ∀ L : List V, (if (L.length : Int) > n - L.length then some L
        else largestLoop cs (some L) (n - L.length)) ≠ none := by
      intro L
      split
      · simp
      · rw [Ne, ih]; simp
    unfold largestLoop
    rcases l with _ | L
    · simpa using key d
    · by_cases hlt : L.length < d.length
      · simpa [hlt] using key d
      · simpa [hlt] using key L

/-- The result is at least as long as the current largest. -/
theorem largestLoop_ge (cs : List (List V)) (L : List V) (n : Int) :
    ∀ c, largestLoop cs (some L) n = some c → L.length ≤ c.length := by
  induction cs generalizing L n with
  | nil => intro c hc; cases hc; exact le_rfl
  | cons d cs ih =>
    intro c hc
    unfold largestLoop at hc
    by_cases hlt : L.length < d.length
    · simp only [if_pos hlt] at hc
      split at hc
      · cases hc; omega
      · have := ih _ _ c hc; omega
    · simp only [if_neg hlt] at hc
      split at hc
      · cases hc; exact le_rfl
      · exact ih _ _ c hc

/-- As long as the sizes met are nondecreasing, the loop does not stop before a largest component. -/
theorem largestLoop_max (cs : List (List V)) (l : Option (List V)) (k : Nat) (hk : k < cs.length)
    (hmax : ∀ c ∈ cs, c.length ≤ cs[k].length)
    (hmono : ((cs.take (k + 1)).map List.length).Pairwise (· ≤ ·))
    (hl : ∀ L, l = some L → ∀ c ∈ cs.take (k + 1), L.length ≤ c.length) :
    ∀ r, largestLoop cs l ((cs.map List.length).sum : Nat) = some r → cs[k].length ≤ r.length := by
  induction cs generalizing l k with
  | nil => simp at hk
  | cons d cs ih =>
    intro r hr
    have hd : ∀ L, l = some L → L.length ≤ d.length := fun L hL => hl L hL d (by simp)
    -- the new largest has the size of `d`
    obtain ⟨L', hL', hr'⟩ : ∃ L' : List V, L'.length = d.length ∧
        (if (L'.length : Int) > (((d :: cs).map List.length).sum : Nat) - L'.length then some L'
          else largestLoop cs (some L') ((((d :: cs).map List.length).sum : Nat) - L'.length)) = some r := by
      unfold largestLoop at hr
      rcases l with _ | L
      · exact ⟨d, rfl, hr⟩
      · by_cases hlt : L.length < d.length
        · simp only [if_pos hlt] at hr
          exact ⟨d, rfl, hr⟩
        · simp only [if_neg hlt] at hr
          have := hd L rfl
          exact ⟨L, by omega, hr⟩
    have hrem : ((((d :: cs).map List.length).sum : Nat) : Int) - L'.length = ((cs.map List.length).sum : Nat) := by
      simp only [List.map_cons, List.sum_cons]
      omega
    rw [hrem] at hr'
    cases k with
    | zero =>
      simp only [List.getElem_cons_zero]
      split at hr'
      · cases hr'; omega
      · have := largestLoop_ge _ _ _ r hr'; omega
    | succ k =>
      simp only [List.getElem_cons_succ]
      have hk' : k < cs.length := by simpa using hk
      have hmem : cs[k] ∈ cs := List.getElem_mem hk'
      have hsum : ∀ (l : List (List V)) (c : List V), c ∈ l → c.length ≤ (l.map List.length).sum := by
        intro l c hc
        induction l with
        | nil => cases hc
        | cons x l ihl =>
          simp only [List.map_cons, List.sum_cons]
          rcases List.mem_cons.1 hc with rfl | hc
          · omega
          · have := ihl hc; omega
      have hs := hsum cs _ hmem
      simp only [List.take_succ_cons, List.map_cons, List.pairwise_cons] at hmono
      have hdk : d.length ≤ cs[k].length :=
        hmono.1 _ (List.mem_map_of_mem (List.mem_take_iff_getElem.2 ⟨k, by omega, rfl⟩))
      rw [if_neg (by omega)] at hr'
      refine ih (some L') k hk' (fun c hc => hmax c (by simp [hc])) hmono.2 ?_ r hr'
      intro L hL c hc
      cases hL
      rw [hL']
      exact hmono.1 _ (List.mem_map_of_mem hc)

/-- The list of component sizes networkx finds. -/
theorem nxComponents_sizes {g : Graph V A} {cs : List (List V)}
    (hcs : List.Forall₂ (fun c n => c.Nodup ∧ ∀ x, x ∈ c ↔ x ∈ componentOf g.nodes g.edges n) cs
      (firstNodes g.nodes g.edges)) :
    cs.map List.length = componentOrders g.nodes g.edges := by
  unfold componentOrders
  generalize firstNodes g.nodes g.edges = fs at hcs
  induction hcs with
  | nil => rfl
  | cons hc _ ih =>
    rename_i c n _ _ _
    simp only [List.map_cons, ih]
    congr 1
    rw [← ncard_of_nodup hc.1]
    congr 1
    ext x
    exact hc.2 x

theorem sum_componentOrders {g : Graph V A} (h : g.WF) : (componentOrders g.nodes g.edges).sum = g.order := by
  -- through an undirected simple copy of the graph with the same pairs
  obtain ⟨cs, hcs, hfor⟩ := nxComponents_ok h
  have hperm : (cs.flatten).Perm g.nodes := by
    have hnd : cs.flatten.Nodup := by
      rw [List.nodup_flatten]
      have hfirst : (firstNodes g.nodes g.edges).Nodup := h.nodup.filter _
      have hmem : ∀ r ∈ firstNodes g.nodes g.edges, r ∈ firstNodes g.nodes g.edges := fun _ h => h
      generalize hfs : firstNodes g.nodes g.edges = fs at hfor hfirst hmem
      have hdis : ∀ r ∈ fs, ∀ s ∈ fs, r ≠ s → ∀ x, x ∈ componentOf g.nodes g.edges r →
          x ∉ componentOf g.nodes g.edges s := by
        intro r hr s hs hrs x hx hx'
        rw [← hfs] at hr hs
        exact hrs ((firstNodes_partition g.edges x hx.1).unique ⟨hr, hx.2⟩ ⟨hs, hx'.2⟩)
      clear hfs hcs hmem
      induction hfor with
      | nil => simp
      | cons hc hrest ih =>
        rename_i c n cs' fs'
        simp only [List.nodup_cons] at hfirst
        obtain ⟨ih1, ih2⟩ := ih hfirst.2 (fun r hr s hs => hdis r (by simp [hr]) s (by simp [hs]))
        refine ⟨?_, ?_⟩
        · intro l hl
          rcases List.mem_cons.1 hl with rfl | hl
          · exact hc.1
          · exact ih1 l hl
        · rw [List.pairwise_cons]
          refine ⟨?_, ih2⟩
          intro d hd x hx hx'
          obtain ⟨m, hm, hdm⟩ : ∃ m ∈ fs', ∀ x, x ∈ d ↔ x ∈ componentOf g.nodes g.edges m := by
            clear ih ih1 ih2 hfirst hdis
            induction hrest with
            | nil => cases hd
            | cons hc' _ ih' =>
              rcases List.mem_cons.1 hd with rfl | hd
              · exact ⟨_, by simp, hc'.2⟩
              · obtain ⟨m, hm, hx⟩ := ih' hd
                exact ⟨m, by simp [hm], hx⟩
          exact hdis n (by simp) m (by simp [hm]) (by rintro rfl; exact hfirst.1 hm) x ((hc.2 x).1 hx) ((hdm x).1 hx')
    refine (List.perm_ext_iff_of_nodup hnd h.nodup).2 ?_
    intro x
    rw [List.mem_flatten]
    have hfor' := hfor
    constructor
    · rintro ⟨c, hc, hx⟩
      have : ∀ {fs : List V} {cs : List (List V)}, List.Forall₂ (fun c n => c.Nodup ∧ ∀ x, x ∈ c ↔ x ∈ componentOf g.nodes g.edges n) cs fs →
          c ∈ cs → x ∈ g.nodes := by
        intro fs cs hf
        induction hf with
        | nil => intro hc; cases hc
        | cons hc' _ ih =>
          intro hc
          rcases List.mem_cons.1 hc with rfl | hc
          · exact ((hc'.2 x).1 hx).1
          · exact ih hc
      exact this hfor hc
    · intro hx
      obtain ⟨r, ⟨hr, hl⟩, _⟩ := firstNodes_partition g.edges x hx
      have : ∀ {fs : List V} {cs : List (List V)}, List.Forall₂ (fun c n => c.Nodup ∧ ∀ x, x ∈ c ↔ x ∈ componentOf g.nodes g.edges n) cs fs →
          r ∈ fs → ∃ c ∈ cs, x ∈ c := by
        intro fs cs hf
        induction hf with
        | nil => intro hr; cases hr
        | cons hc' _ ih =>
          intro hr
          rcases List.mem_cons.1 hr with rfl | hr
          · exact ⟨_, by simp, (hc'.2 x).2 ⟨hx, hl⟩⟩
          · obtain ⟨c, hc, hxc⟩ := ih hr
            exact ⟨c, by simp [hc], hxc⟩
      exact this hfor hr
  rw [← nxComponents_sizes hfor, ← List.length_flatten, hperm.length_eq]
  simp [order, nodes, Dict.keys]

/-- C15, what always holds: the result is `None` exactly for the null graph, and otherwise it is a (weakly)
connected component of the graph. -/
theorem largestConnectedComponent_component {g : Graph V A} (h : g.WF) :
    ∃ r, largestConnectedComponent g = .ok r ∧ (r = none ↔ g.nodes = []) ∧
      ∀ c, r = some c → c.Nodup ∧ ∃ n ∈ g.nodes, ∀ x, x ∈ c ↔ x ∈ componentOf g.nodes g.edges n := by
  obtain ⟨cs, hcs, hfor⟩ := nxComponents_ok h
  unfold largestConnectedComponent
  rw [hcs]
  refine ⟨_, rfl, ?_, ?_⟩
  · rw [largestLoop_none]
    simp only [and_true]
    rw [← componentOrders_eq_nil g.edges, ← nxComponents_sizes hfor, List.map_eq_nil_iff]
  · intro c hc
    rcases largestLoop_mem _ _ _ c hc with hc | hc
    · have : ∀ {fs : List V} {cs : List (List V)}, List.Forall₂ (fun c n => c.Nodup ∧ ∀ x, x ∈ c ↔ x ∈ componentOf g.nodes g.edges n) cs fs →
          c ∈ cs → c.Nodup ∧ ∃ n ∈ fs, ∀ x, x ∈ c ↔ x ∈ componentOf g.nodes g.edges n := by
        intro fs cs hf
        induction hf with
        | nil => intro hc; cases hc
        | cons hc' _ ih =>
          intro hc
          rcases List.mem_cons.1 hc with rfl | hc
          · exact ⟨hc'.1, _, by simp, hc'.2⟩
          · obtain ⟨h1, n, hn, h2⟩ := ih hc
            exact ⟨h1, n, by simp [hn], h2⟩
      obtain ⟨h1, n, hn, h2⟩ := this hfor hc
      exact ⟨h1, n, (List.mem_filter.1 hn).1, h2⟩
    · cases hc

/-- C15 when the component sizes are nondecreasing up to a largest one (in particular when the first
component is a largest one, or when there are at most two components): the result is a component of maximum
size.  Missing for the full claim: all other orders of sizes (refuted below). -/
theorem largestConnectedComponent_max_partial {g : Graph V A} (h : g.WF) (k : Nat)
    (hk : k < (componentOrders g.nodes g.edges).length)
    (hmax : ∀ s ∈ componentOrders g.nodes g.edges, s ≤ (componentOrders g.nodes g.edges)[k])
    (hmono : ((componentOrders g.nodes g.edges).take (k + 1)).Pairwise (· ≤ ·)) :
    ∃ c, largestConnectedComponent g = .ok (some c) ∧ ∀ n ∈ g.nodes, (componentOf g.nodes g.edges n).ncard ≤ c.length := by
  obtain ⟨cs, hcs, hfor⟩ := nxComponents_ok h
  have hsizes := nxComponents_sizes hfor
  have hk' : k < cs.length := by
    rw [← hsizes, List.length_map] at hk; exact hk
  have hget : (componentOrders g.nodes g.edges)[k] = cs[k].length := by
    simp [← hsizes]
  have hres : ∃ c, largestLoop cs none g.order = some c := by
    rcases hr : largestLoop cs none g.order with _ | c
    · rw [largestLoop_none] at hr
      rw [hr.1] at hk'
      simp at hk'
    · exact ⟨c, rfl⟩
  obtain ⟨c, hc⟩ := hres
  refine ⟨c, by unfold largestConnectedComponent; rw [hcs]; simp only [hc], ?_⟩
  have hbig : cs[k].length ≤ c.length := by
    refine largestLoop_max cs none k hk' ?_ ?_ (by simp) c ?_
    · intro d hd
      rw [← hget]
      exact hmax _ (by rw [← hsizes]; exact List.mem_map_of_mem hd)
    · rw [List.map_take, hsizes]
      exact hmono
    · rw [hsizes, sum_componentOrders h]
      exact hc
  intro n hn
  obtain ⟨r, ⟨hr, hl⟩, _⟩ := firstNodes_partition g.edges n hn
  have heq : componentOf g.nodes g.edges n = componentOf g.nodes g.edges r := by
    ext x
    exact ⟨fun hx => ⟨hx.1, hl.trans hx.2⟩, fun hx => ⟨hx.1, hl.symm.trans hx.2⟩⟩
  rw [heq]
  have : (componentOf g.nodes g.edges r).ncard ∈ componentOrders g.nodes g.edges := List.mem_map_of_mem hr
  have := hmax _ this
  rw [hget] at this
  exact this.trans hbig

/-- In particular, with at most two components the result is right. -/
theorem largestConnectedComponent_two_partial {g : Graph V A} (h : g.WF) (hne : g.nodes ≠ [])
    (h2 : (componentOrders g.nodes g.edges).length ≤ 2) :
    ∃ c, largestConnectedComponent g = .ok (some c) ∧ ∀ n ∈ g.nodes, (componentOf g.nodes g.edges n).ncard ≤ c.length := by
  have hne' : componentOrders g.nodes g.edges ≠ [] := fun hc => hne ((componentOrders_eq_nil _).1 hc)
  have key := fun k hk => largestConnectedComponent_max_partial h k hk
  generalize componentOrders g.nodes g.edges = l at h2 hne' key
  rcases l with _ | ⟨a, _ | ⟨b, _ | ⟨c, l⟩⟩⟩
  · exact absurd rfl hne'
  · exact key 0 (by simp) (by simp) (by simp)
  · rcases Nat.lt_or_ge a b with hab | hab
    · exact key 1 (by simp) (by simp; omega) (by simp; omega)
    · exact key 0 (by simp) (by simp; omega) (by simp)
  · simp at h2

example : (componentOrders twoComponents.nodes twoComponents.edges).length ≤ 2 := by
  rw [componentOrders_twoComponents]; decide

/-- Components of sizes 3, 1 and 4. -/
def threeOneFour : Graph Int Int :=
  ⟨false, false, [], [(0, []), (1, []), (2, []), (3, []), (4, []), (5, []), (6, []), (7, [])],
    [⟨0, 1, [(.int 0, [])]⟩, ⟨1, 2, [(.int 0, [])]⟩, ⟨4, 5, [(.int 0, [])]⟩, ⟨5, 6, [(.int 0, [])]⟩, ⟨6, 7, [(.int 0, [])]⟩]⟩

/-- C15 is false: on the graph above the component of size 3 is returned although one has size 4. -/
theorem largestConnectedComponent_wrong :
    threeOneFour.WF ∧ largestConnectedComponent threeOneFour = .ok (some [0, 1, 2]) ∧
      4 ≤ (componentOf threeOneFour.nodes threeOneFour.edges 4).ncard := by
  refine ⟨by constructor <;> decide, by decide +kernel, ?_⟩
  have h45 : Linked threeOneFour.edges 4 5 := Linked.of_mem (by decide +kernel)
  have h56 : Linked threeOneFour.edges 5 6 := Linked.of_mem (by decide +kernel)
  have h67 : Linked threeOneFour.edges 6 7 := Linked.of_mem (by decide +kernel)
  have hsub : {x | x ∈ ([4, 5, 6, 7] : List Int)} ⊆ componentOf threeOneFour.nodes threeOneFour.edges 4 := by
    intro x hx
    simp only [List.mem_cons, List.not_mem_nil, or_false, Set.mem_ofPred_eq] at hx
    rcases hx with rfl | rfl | rfl | rfl
    · exact ⟨by decide, Linked.refl _ _⟩
    · exact ⟨by decide, h45⟩
    · exact ⟨by decide, h45.trans h56⟩
    · exact ⟨by decide, h45.trans (h56.trans h67)⟩
  have hfin : (componentOf threeOneFour.nodes threeOneFour.edges 4).Finite :=
    (List.finite_toSet threeOneFour.nodes).subset (fun x hx => hx.1)
  have := Set.ncard_le_ncard hsub hfin
  rw [ncard_of_nodup (by decide)] at this
  exact this

/-! ### C16, C17: cropping and extracting -/

/-- The ends of an edge are in the same component. -/
theorem edge_in_component {g : Graph V A} {n : V} {c : List V} (h : g.WF)
    (hc : ∀ x, x ∈ c ↔ x ∈ componentOf g.nodes g.edges n) {u v : V} (he : (u, v) ∈ g.edges) : u ∈ c ↔ v ∈ c := by
  have hm := hasEdge_mem h ((hasEdge_listed h).2 (.inl he))
  rw [hc, hc]
  constructor
  · rintro ⟨_, hl⟩; exact ⟨hm.2, hl.trans (Linked.of_mem he)⟩
  · rintro ⟨_, hl⟩; exact ⟨hm.1, hl.trans (Linked.of_mem he).symm⟩

/-- C16.  Cropping keeps exactly the nodes of the component that `largest_connected_component` returns, with
their attributes, and every edge (with key and attributes) having an end in it; the null graph is left
untouched. -/
theorem cropToLargest_exact {g : Graph V A} (h : g.WF) :
    ∃ r g', largestConnectedComponent g = .ok r ∧ cropToLargest g = (g', .ok ()) ∧ g'.WF ∧
      g'.directed = g.directed ∧ g'.multi = g.multi ∧ g'.attrs = g.attrs ∧
      (r = none → g' = g) ∧
      ∀ c, r = some c → g'.node = g.node.filter (fun q => decide (q.1 ∈ c)) ∧
        g'.edgesKeys = g.edgesKeys.filter (fun e => decide (e.1 ∈ c)) ∧
        g'.edgesKeys = g.edgesKeys.filter (fun e => decide (e.2.1 ∈ c)) := by
  obtain ⟨r, hr, _, hcomp⟩ := largestConnectedComponent_component h
  unfold cropToLargest
  rw [hr]
  rcases r with _ | c
  · exact ⟨none, g, rfl, rfl, h, rfl, rfl, rfl, fun _ => rfl, by simp⟩
  · obtain ⟨_, n, _, hc⟩ := hcomp c rfl
    have hdrop : g.removeNodesFrom (g.nodes.filter (fun n => !decide (n ∈ c))) = g.induced (fun n => decide (n ∈ c)) := by
      rw [removeNodesFrom_eq]
      have hiff : ∀ x ∈ g.nodes, decide (x ∉ g.nodes.filter (fun n => !decide (n ∈ c))) = decide (x ∈ c) := by
        intro x hx
        by_cases hxc : x ∈ c <;> simp [hx, hxc]
      unfold Graph.induced
      congr 1
      · apply List.filter_congr
        intro q hq
        exact hiff q.1 (List.mem_map_of_mem hq)
      · apply List.filter_congr
        intro l hl
        beta_reduce
        rw [hiff _ (h.ends l hl).1, hiff _ (h.ends l hl).2]
    refine ⟨some c, _, rfl, rfl, ?_, ?_, ?_, ?_, by simp, ?_⟩ <;> simp only [hdrop]
    · exact h.induced _
    · rfl
    · rfl
    · rfl
    · intro c' hc'
      cases hc'
      have hends : ∀ e ∈ g.edgesKeys, (e.1 ∈ c ↔ e.2.1 ∈ c) := by
        intro e he
        exact edge_in_component h hc (List.mem_map.2 ⟨e, he, rfl⟩)
      refine ⟨rfl, ?_, ?_⟩ <;> rw [edgesKeys_induced h] <;> apply List.filter_congr <;> intro e he <;>
        have := hends e he <;> by_cases h1 : e.1 ∈ c <;> simp_all

example : (cropToLargest twoComponents).1.nodes = [0, 2, 4] := by decide +kernel

theorem addNodes_self {g : Graph V A} (hkw : ∀ q ∈ g.node, NodeKwSafe q.2)
    (ns : Dict V (Attrs A)) (s : Graph V A) (hs : s.WF) (hns : ∀ q ∈ ns, q ∈ g.node) (hsn : s.node = g.node) :
    addNodes ns s = .ok s := by
  induction ns with
  | nil => rfl
  | cons q ns ih =>
    obtain ⟨n, a⟩ := q
    have hmem := hns (n, a) (by simp)
    have hget : s.node.get? n = some a := Dict.get?_of_mem hs.nodup (by rw [hsn]; exact hmem)
    have hnd : a.keys.Nodup := hs.nodeAttrs (n, a) (by rw [hsn]; exact hmem)
    have : s.addNodeCore n a = s := by
      unfold addNodeCore
      rw [hget]
      simp only [Option.getD_some, Dict.update_self hnd]
      rw [Dict.set_get?_self hget]
    simp only [addNodes, addNode_ok (hkw _ hmem), this]
    exact ih (fun q hq => hns q (by simp [hq]))

theorem addComponentEdges_ok [AttrVal A] (c : List V) (es : List (V × V × Attrs A)) (s : Graph V A)
    (hkw : ∀ e ∈ es, e.1 ∈ c → EdgeKwSafe s.multi e.2.2) :
    addComponentEdges c es s = .ok (addAll s (es.filter (fun e => decide (e.1 ∈ c)))) := by
  induction es generalizing s with
  | nil => rfl
  | cons e es ih =>
    obtain ⟨u, v, a⟩ := e
    unfold addComponentEdges
    by_cases hu : u ∈ c
    · rw [if_neg (by simpa using hu), List.filter_cons_of_pos (by simpa using hu)]
      simp only [addEdge_ok (hkw (u, v, a) (by simp) hu)]
      rw [ih _ (by
        intro e he hc
        rw [addEdgeCore_multi]
        exact hkw e (by simp [he]) hc)]
      rfl
    · rw [if_pos (by simpa using hu), List.filter_cons_of_neg (by simpa using hu)]
      exact ih s (fun e he => hkw e (by simp [he]))

/-- C17 with `as_view=True`: the subgraph induced by the component (all its nodes and all its edges). -/
theorem largestComponentSubgraph_view [AttrVal A] {g : Graph V A} (h : g.WF) :
    ∃ r g', largestConnectedComponent g = .ok r ∧ largestComponentSubgraph g true = .ok g' ∧
      Same g' (g.induced (fun n => decide (n ∈ r.getD []))) ∧
      (∀ e, e ∈ g'.edgesKeys ↔ e ∈ g.edgesKeys ∧ e.1 ∈ r.getD []) := by
  obtain ⟨r, hr, _, hcomp⟩ := largestConnectedComponent_component h
  refine ⟨r, g.subgraph (r.getD []), hr, ?_, ?_, ?_⟩
  · unfold largestComponentSubgraph; rw [hr]; rfl
  · rw [subgraph_eq_induced]
    exact ⟨rfl, rfl, rfl, fun _ => rfl, fun _ _ _ => rfl⟩
  · intro e
    rw [subgraph_eq_induced, edgesKeys_induced h, List.mem_filter]
    rcases r with _ | c
    · simp
    · obtain ⟨_, n, _, hc⟩ := hcomp c rfl
      simp only [Option.getD_some, Bool.and_eq_true, decide_eq_true_iff]
      constructor
      · rintro ⟨h1, h2, _⟩; exact ⟨h1, h2⟩
      · rintro ⟨h1, h2⟩
        exact ⟨h1, h2, (edge_in_component h hc (List.mem_map.2 ⟨e, h1, rfl⟩)).1 h2⟩

/-- C17 with `as_view=False`: same kind and attributes, the edges are exactly those of the component, in
listing order; but the nodes are all those of the graph.  Missing for the full claim: the nodes (refuted
below). -/
theorem largestComponentSubgraph_copy_partial [AttrVal A] {g : Graph V A} (h : g.WF)
    (hnkw : ∀ q ∈ g.node, NodeKwSafe q.2) (hekw : ∀ e ∈ g.edgesData, EdgeKwSafe g.multi e.2.2) :
    ∃ r g', largestConnectedComponent g = .ok r ∧ largestComponentSubgraph g false = .ok g' ∧ g'.WF ∧
      g'.directed = g.directed ∧ g'.multi = g.multi ∧ g'.attrs = g.attrs ∧ g'.node = g.node ∧
      g'.edgesData = g.edgesData.filter (fun e => decide (e.1 ∈ r.getD [])) := by
  obtain ⟨r, hr, hnone, hcomp⟩ := largestConnectedComponent_component h
  obtain ⟨h1, h2, h3⟩ := rebuild h (fun u _ _ => decide (u ∈ r.getD []))
  refine ⟨r, addAll g.createEmptyCopy (g.edgesData.filter (fun e => decide (e.1 ∈ r.getD []))), hr, ?_, h2,
    by rw [h1], by rw [h1], by rw [h1], by rw [h1], h3⟩
  unfold largestComponentSubgraph
  rw [hr]
  simp only [Bool.false_eq_true, if_false, addNodes_self hnkw g.node g.createEmptyCopy h.createEmptyCopy (fun q hq => hq) rfl]
  split
  · rename_i he
    rw [List.isEmpty_iff.1 he]
    simp [addAll]
  · exact addComponentEdges_ok _ _ _ (fun e he _ => hekw e he)

/-- C17 is false with `as_view=False`: a node outside of the component is kept, which the view drops. -/
theorem largestComponentSubgraph_copy_wrong :
    ∃ g v c : Graph Int Int, g.WF ∧ largestConnectedComponent g = .ok (some [0, 1]) ∧
      largestComponentSubgraph g true = .ok v ∧ largestComponentSubgraph g false = .ok c ∧
      v.nodes = [0, 1] ∧ c.nodes = [0, 1, 2] := by
  refine ⟨⟨false, false, [], [(0, []), (1, []), (2, [])], [⟨0, 1, [(.int 0, [])]⟩]⟩,
    ⟨false, false, [], [(0, []), (1, [])], [⟨0, 1, [(.int 0, [])]⟩]⟩,
    ⟨false, false, [], [(0, []), (1, []), (2, [])], [⟨0, 1, [(.int 0, [])]⟩]⟩,
    ?_, by decide +kernel, rfl, rfl, rfl, rfl⟩
  constructor <;> decide

end Pelote
