import Verif.Model.Disparity
import Verif.Spec.Disparity
import Verif.Lemmas.Strength

/-! Lemmas about edge disparity. -/
namespace Pelote

section sums
variable {V A : Type} [DecidableEq V] {M : Type} [AddCommMonoid M]

theorem sum_filterMap' {α β : Type} (f : α → Option β) (w : β → M) (l : List α) :
    ((l.filterMap f).map w).sum = (l.map (fun a => ((f a).map w).getD 0)).sum := by
  induction l with
  | nil => rfl
  | cons a l ih =>
    rw [List.filterMap_cons]
    rcases h : f a with _ | b
    · simp [h, ih]
    · simp [h, ih]

theorem sum_flatMap'' {α β : Type} (f : α → List β) (w : β → M) (l : List α) :
    ((l.flatMap f).map w).sum = (l.map (fun a => ((f a).map w).sum)).sum := by
  induction l with
  | nil => rfl
  | cons a l ih => simp [ih]

theorem sum_edges_links' {g : Graph V A} (h : g.WF) (w : V × V → M)
    (hw : g.directed = false → ∀ u v, w (u, v) = w (v, u)) :
    (g.edges.map w).sum = (g.links.map (fun l => (l.data.map (fun _ => w (l.u, l.v))).sum)).sum := by
  unfold Graph.edges
  rw [Graph.edgesKeys_eq g h.nodup, List.map_map, sum_flatMap'', ((Graph.groups_perm g h).map _).sum_eq,
    List.map_map]
  congr 1
  apply List.map_congr_left
  intro l _
  simp only [Function.comp, Graph.expand, List.map_map, Graph.orient_data]
  rcases g.orient_cases l with e | ⟨hd, e⟩ <;> rw [e]
  · rfl
  · rw [hw hd]
    rfl

/-- Summing over the edges seen from a node (its self loop twice) is summing over the edge ends at it. -/
theorem sum_edgesOf {g : Graph V A} (h : g.WF) (hd : g.directed = false) (w : V → V → M)
    (hw : ∀ u v, w u v = w v u) (n : V) :
    ((g.edgesOf n).map (fun e => w n e.2.1)).sum +
      (((g.edgesOf n).filter (fun e => e.2.1 = n)).map (fun e => w n e.2.1)).sum =
    (g.edges.map (fun e => (if e.1 = n then w e.1 e.2 else 0) + (if e.2 = n then w e.1 e.2 else 0))).sum := by
  rw [sum_edges_links' h]
  · have h1 : ((g.edgesOf n).map (fun e => w n e.2.1)).sum =
        (g.links.map (fun l => ((Graph.Link.from? false n l).map
          (fun p => (p.2.map (fun _ => w n p.1)).sum)).getD 0)).sum := by
      unfold Graph.edgesOf Graph.adj
      rw [sum_flatMap'', hd, ← sum_filterMap']
      simp [List.map_map, Function.comp_def]
    have h2 : (((g.edgesOf n).filter (fun e => e.2.1 = n)).map (fun e => w n e.2.1)).sum =
        (g.links.map (fun l => ((Graph.Link.from? false n l).map
          (fun p => if p.1 = n then (p.2.map (fun _ => w n p.1)).sum else 0)).getD 0)).sum := by
      unfold Graph.edgesOf Graph.adj
      rw [List.filter_flatMap, sum_flatMap'', hd, ← sum_filterMap']
      congr 1
      apply List.map_congr_left
      intro p _
      rw [List.filter_map]
      by_cases hp : p.1 = n
      · simp [hp, List.map_map, Function.comp_def]
      · simp [hp, Function.comp_def]
    rw [h1, h2, ← List.sum_map_add]
    congr 1
    apply List.map_congr_left
    intro l _
    simp only [Graph.Link.from?, Bool.not_false, Bool.true_and, decide_eq_true_eq]
    by_cases e1 : l.u = n <;> by_cases e2 : l.v = n
    · simp [e1, e2, nsmul_add]
    · simp [e1, e2]
    · simp [e1, e2, hw l.u n]
    · simp [e1, e2]
  · intro _ u v
    simp only
    rw [hw u v, add_comm]

end sums

section generic
variable {V N : Type} [Zero N] [One N]

theorem weightsOf_eq (attr : String) (w : V → N) (es : List (V × Attrs (Val N)))
    (h : ∀ e ∈ es, weightOf attr e.2 = .ok (w e.1)) :
    weightsOf attr (es.map Prod.snd) = .ok (es.map (fun e => w e.1)) := by
  induction es with
  | nil => rfl
  | cons e es ih =>
    simp only [List.map_cons, weightsOf, h e (by simp), ih (fun e he => h e (by simp [he]))]

/-- The weights of the edges seen from a node, added up by `sum`; self loops are added again at the end. -/
def _root_.Pelote.Graph.strengthN [DecidableEq V] (ops : NumOps N) (g : Graph V (Val N)) (w : V → V → N) (n : V) : N :=
  ((g.edgesOf n).filter (fun e => e.2.1 = n)).foldl (fun s e => ops.add s (w n e.2.1))
    (ops.sum ((g.edgesOf n).map (fun e => w n e.2.1)))

theorem weightedDegree_eq [DecidableEq V] (ops : NumOps N) {g : Graph V (Val N)} (h : g.WF) (hd : g.directed = false)
    {attr : String} {w : V → V → N} (hw : ∀ u v, w u v = w v u)
    (hok : ∀ e ∈ g.edgesData, weightOf attr e.2.2 = .ok (w e.1 e.2.1)) (n : V) :
    weightedDegree ops g attr n = .ok (g.strengthN ops w n) := by
  have hof : ∀ e ∈ g.edgesOf n, weightOf attr e.2.2.2 = .ok (w n e.2.1) := by
    rintro ⟨u, m, k, a⟩ he
    have hu : u = n := ((mem_edgesOf h).1 he).1
    subst hu
    rcases (edgesOf_listed h hd).1 ⟨k, he⟩ with h1 | h1
    · exact hok _ h1
    · have := hok _ h1
      simp only at this
      rw [this, hw]
  unfold weightedDegree
  have e1 := weightsOf_eq attr (w n) ((g.edgesOf n).map (fun e => (e.2.1, e.2.2.2)))
    (by
      intro e he
      obtain ⟨e', he', rfl⟩ := List.mem_map.1 he
      exact hof e' he')
  have e2 := weightsOf_eq attr (w n)
    (((g.edgesOf n).filter (fun e => e.2.1 = n)).map (fun e => (e.2.1, e.2.2.2)))
    (by
      intro e he
      obtain ⟨e', he', rfl⟩ := List.mem_map.1 he
      exact hof e' (List.mem_filter.1 he').1)
  simp only [List.map_map, Function.comp_def, List.foldl_map] at e1 e2
  simp only [e1, e2, List.foldl_map]
  rfl

theorem weightedDegrees_eq [DecidableEq V] (ops : NumOps N) {g : Graph V (Val N)} {attr : String} {S : V → N} (ns : List V)
    (hS : ∀ n ∈ ns, weightedDegree ops g attr n = .ok (S n)) :
    weightedDegrees ops g attr ns = .ok (ns.map (fun n => (n, S n))) := by
  induction ns with
  | nil => rfl
  | cons n ns ih =>
    simp only [weightedDegrees, hS n (by simp), ih (fun m hm => hS m (by simp [hm])), List.map_cons]

omit [Zero N] [One N] in
theorem get?_map_self [DecidableEq V] (S : V → N) (ns : List V) (x : V) :
    Dict.get? (ns.map (fun n => (n, S n))) x = if x ∈ ns then some (S x) else none := by
  induction ns with
  | nil => rfl
  | cons n ns ih =>
    rw [List.map_cons, Dict.get?_cons, ih]
    by_cases h : n = x
    · subst h; simp
    · have h' : ¬ x = n := fun e => h e.symm
      simp [h, h']

variable [LinearOrder V]

theorem disparityEdges_eq [PyOrd V] (ops : NumOps N) (ho : OrderedKeys V) {g : Graph V (Val N)} {attr : String}
    {reverse : Bool} {wd : Dict V N} {source : V} {S : V → N} {f : V → V → N}
    (es : List (V × V × PyKey × Attrs (Val N)))
    (hwd : ∀ e ∈ es, wd.get? e.2.1 = some (S e.2.1))
    (hf : ∀ e ∈ es, disparityScore ops reverse ((e.2.2.2.get? (.str attr)).getD .none) (g.degree source)
        (g.degree e.2.1) (S source) (S e.2.1) = .ok (f source e.2.1))
    (d : Dict (V × V) N) (hd : d.keys.Nodup) :
    ∃ d', disparityEdges ops g attr reverse wd source (S source) es d = .ok d' ∧ d'.keys.Nodup ∧
      ∀ u v, d'.get? (u, v) = if u = source ∧ u ≤ v ∧ v ∈ es.map (fun e => e.2.1) then some (f u v)
        else d.get? (u, v) := by
  induction es generalizing d with
  | nil => exact ⟨d, rfl, hd, by simp⟩
  | cons e es ih =>
    obtain ⟨x, target, k, a⟩ := e
    have ih := ih (fun e he => hwd e (by simp [he])) (fun e he => hf e (by simp [he]))
    have h1 := hwd _ (List.mem_cons_self ..)
    have h2 := hf _ (List.mem_cons_self ..)
    simp only at h1 h2
    simp only [disparityEdges, ho source target, Dict.getItem, h1, h2]
    by_cases hgt : target < source
    · obtain ⟨d', k1, k2, k3⟩ := ih d hd
      refine ⟨d', by simpa [hgt] using k1, k2, ?_⟩
      intro u v
      rw [k3]
      by_cases hu : u = source
      · subst hu
        by_cases hle : u ≤ v
        · have : v ≠ target := by rintro rfl; exact absurd hgt (not_lt.2 hle)
          simp only [List.map_cons, List.mem_cons, this, false_or]
        · simp only [hle, false_and, and_false, if_false]
      · simp only [hu, false_and, if_false]
    · obtain ⟨d', k1, k2, k3⟩ := ih (d.set (source, target) (f source target)) (Dict.nodup_set _ _ hd)
      refine ⟨d', by simpa [hgt] using k1, k2, ?_⟩
      intro u v
      rw [k3, Dict.get?_set]
      by_cases hu : u = source
      · subst hu
        by_cases hv : v = target
        · subst hv
          have : u ≤ v := not_lt.1 hgt
          simp [this]
        · have hv' : ¬ target = v := fun e => hv e.symm
          simp only [List.map_cons, List.mem_cons, hv, false_or, Prod.mk.injEq, hv', and_false, if_false]
      · have hu' : ¬ source = u := fun e => hu e.symm
        simp only [hu, hu', false_and, if_false, Prod.mk.injEq]

theorem disparityNodes_eq [PyOrd V] (ops : NumOps N) (ho : OrderedKeys V) {g : Graph V (Val N)} {attr : String}
    {reverse : Bool} {wd : Dict V N} {S : V → N} {f : V → V → N} (ns : List V)
    (hns : ∀ n ∈ ns, wd.get? n = some (S n))
    (hwd : ∀ n ∈ ns, ∀ e ∈ g.edgesOf n, wd.get? e.2.1 = some (S e.2.1))
    (hf : ∀ n ∈ ns, ∀ e ∈ g.edgesOf n, disparityScore ops reverse ((e.2.2.2.get? (.str attr)).getD .none)
        (g.degree n) (g.degree e.2.1) (S n) (S e.2.1) = .ok (f n e.2.1))
    (d : Dict (V × V) N) (hd : d.keys.Nodup) :
    ∃ d', disparityNodes ops g attr reverse wd ns d = .ok d' ∧ d'.keys.Nodup ∧
      ∀ u v, d'.get? (u, v) = if u ∈ ns ∧ u ≤ v ∧ v ∈ (g.edgesOf u).map (fun e => e.2.1) then some (f u v)
        else d.get? (u, v) := by
  induction ns generalizing d with
  | nil => exact ⟨d, rfl, hd, by simp⟩
  | cons n ns ih =>
    obtain ⟨d1, a1, a2, a3⟩ := disparityEdges_eq ops ho (g := g) (attr := attr) (reverse := reverse) (wd := wd)
      (source := n) (S := S) (f := f) (g.edgesOf n) (hwd n (by simp)) (hf n (by simp)) d hd
    obtain ⟨d', b1, b2, b3⟩ := ih (fun m hm => hns m (by simp [hm])) (fun m hm => hwd m (by simp [hm]))
      (fun m hm => hf m (by simp [hm])) d1 a2
    refine ⟨d', ?_, b2, ?_⟩
    · simp only [disparityNodes, Dict.getItem, hns n (by simp), a1, b1]
    · intro u v
      rw [b3, a3]
      by_cases h1 : u ∈ ns
      · by_cases h2 : u ≤ v ∧ v ∈ (g.edgesOf u).map (fun e => e.2.1)
        · simp only [h1, h2, and_self, if_true, List.mem_cons, or_true]
        · have h3 : ¬ (u = n ∧ u ≤ v ∧ v ∈ (g.edgesOf n).map (fun e => e.2.1)) := by
            rintro ⟨rfl, h⟩; exact h2 h
          simp only [h2, h3, and_false, if_false]
      · by_cases h2 : u = n
        · subst h2; simp only [h1, false_and, if_false, true_and, List.mem_cons, true_or]
        · simp only [h1, h2, false_and, if_false, List.mem_cons, or_self]

end generic

variable {V K : Type} [Field K] [LinearOrder K]

omit [LinearOrder K] in
theorem foldl_add (es : List V) (w : V → K) (s : K) :
    es.foldl (fun s e => id (s + w e)) s = s + (es.map w).sum := by
  induction es generalizing s with
  | nil => simp
  | cons e es ih => rw [List.foldl_cons, ih, List.map_cons, List.sum_cons, id, add_assoc]

omit [LinearOrder K] in
theorem roundedStrength_id [DecidableEq V] {g : Graph V (Val K)} (h : g.WF) (hd : g.directed = false)
    {w : V → V → K} (hw : ∀ u v, w u v = w v u) (n : V) : g.roundedStrength id w n = g.nodeStrength w n := by
  unfold Graph.roundedStrength Graph.nodeStrength
  rw [← sum_edgesOf h hd w hw n, foldl_add, foldl_add, zero_add]

theorem strengthN_ops [DecidableEq V] (ar : Arith K) (g : Graph V (Val K)) (w : V → V → K) (n : V) :
    g.strengthN ar.ops w n = g.roundedStrength ar.rnd w n := by
  unfold Graph.strengthN Graph.roundedStrength
  simp only [Arith.ops, List.foldl_map]

end Pelote
