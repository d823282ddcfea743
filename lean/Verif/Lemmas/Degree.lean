import Verif.Lemmas.Graph
import Mathlib.Data.List.Count
import Mathlib.Algebra.BigOperators.Group.List.Basic
import Mathlib.Tactic.Ring

/-! Degrees and sizes in terms of the edge listing. -/
set_option linter.unusedSectionVars false
set_option linter.unnecessarySeqFocus false
namespace Pelote
variable {V A : Type} [DecidableEq V]
namespace Graph

/-- Number of ends of a link at a node. -/
def ends (n : V) (l : Link V A) : Nat := (if l.u = n then 1 else 0) + (if l.v = n then 1 else 0)

theorem sum_filterMap {α β : Type} (f : α → Option β) (w : β → Nat) (l : List α) :
    ((l.filterMap f).map w).sum = (l.map (fun a => ((f a).map w).getD 0)).sum := by
  induction l with
  | nil => rfl
  | cons a l ih =>
    rw [List.filterMap_cons]
    rcases h : f a with _ | b
    · simp [h, ih]
    · simp [h, ih]

theorem sum_flatMap' {α β : Type} (f : α → List β) (w : β → Nat) (l : List α) :
    ((l.flatMap f).map w).sum = (l.map (fun a => ((f a).map w).sum)).sum := by
  induction l with
  | nil => rfl
  | cons a l ih => simp [ih]

theorem degree_eq_links (g : Graph V A) (n : V) :
    g.degree n = (g.links.map (fun l => l.data.length * ends n l)).sum := by
  unfold degree
  split
  · rename_i hd
    unfold adj pred
    rw [sum_filterMap, sum_filterMap, ← List.sum_map_add]
    congr 1
    apply List.map_congr_left
    intro l _
    simp only [Link.from?, Link.to?, hd, if_true, ends]
    by_cases h1 : l.u = n <;> by_cases h2 : l.v = n <;> simp [h1, h2] <;> ring
  · rename_i hd
    simp only [Bool.not_eq_true] at hd
    unfold adj
    rw [List.filter_filterMap, sum_filterMap, sum_filterMap, ← List.sum_map_add]
    congr 1
    apply List.map_congr_left
    intro l _
    simp only [Link.from?, hd, ends, Bool.not_false, Bool.true_and]
    by_cases h1 : l.u = n <;> by_cases h2 : l.v = n <;> simp [h1, h2, Option.filter] <;> ring

theorem sum_edges_links {g : Graph V A} (h : g.WF) (w : V × V → Nat)
    (hw : g.directed = false → ∀ u v, w (u, v) = w (v, u)) :
    (g.edges.map w).sum = (g.links.map (fun l => l.data.length * w (l.u, l.v))).sum := by
  unfold edges
  rw [edgesKeys_eq g h.nodup, List.map_map, sum_flatMap']
  have h1 : ∀ l : Link V A, ((expand l).map (w ∘ fun e => (e.1, e.2.1))).sum = l.data.length * w (l.u, l.v) := by
    intro l
    unfold expand
    rw [List.map_map]
    have : ((w ∘ fun e : V × V × PyKey × Attrs A => (e.1, e.2.1)) ∘ fun ka : PyKey × Attrs A => (l.u, l.v, ka.1, ka.2)) =
        fun _ => w (l.u, l.v) := rfl
    rw [this, List.map_const', List.sum_replicate]; rfl
  simp only [h1]
  rw [((groups_perm g h).map _).sum_eq, List.map_map]
  congr 1
  apply List.map_congr_left
  intro l _
  simp only [Function.comp, orient_data]
  rcases g.orient_cases l with e | ⟨hd, e⟩ <;> rw [e]
  rw [hw hd]

/-- The degree of a node is the number of edge ends at it in the edge listing. -/
theorem degree_eq {g : Graph V A} (h : g.WF) (n : V) :
    g.degree n = (g.edges.map (fun e => (if e.1 = n then 1 else 0) + (if e.2 = n then 1 else 0))).sum := by
  rw [degree_eq_links, sum_edges_links h (fun e => (if e.1 = n then 1 else 0) + (if e.2 = n then 1 else 0))]
  · rfl
  · intro _ u v
    simp only
    omega

theorem sum_ends_nodes {ns : List V} (hn : ns.Nodup) (x : V) (hx : x ∈ ns) :
    (ns.map (fun n => if x = n then 1 else 0)).sum = 1 := by
  induction ns with
  | nil => simp at hx
  | cons m ns ih =>
    rw [List.nodup_cons] at hn
    rw [List.map_cons, List.sum_cons]
    by_cases h : x = m
    · subst h
      have : (ns.map (fun n => if x = n then 1 else 0)).sum = 0 := by
        apply List.sum_eq_zero
        intro y hy
        obtain ⟨n, hn', rfl⟩ := List.mem_map.1 hy
        rw [if_neg]
        rintro rfl; exact hn.1 hn'
      simp [this]
    · rcases List.mem_cons.1 hx with rfl | hx
      · exact absurd rfl h
      · simp [h, ih hn.2 hx]

theorem sum_mul_left' {α : Type} (c : Nat) (f : α → Nat) (l : List α) :
    (l.map (fun a => c * f a)).sum = c * (l.map f).sum := by
  induction l with
  | nil => rfl
  | cons a l ih => simp [ih, Nat.mul_add]

theorem sum_swap {α β : Type} (f : α → β → Nat) (l : List α) (m : List β) :
    (l.map (fun a => (m.map (f a)).sum)).sum = (m.map (fun b => (l.map (fun a => f a b)).sum)).sum := by
  induction l with
  | nil => simp
  | cons a l ih => simp [List.sum_map_add, ih]

theorem sum_degree {g : Graph V A} (h : g.WF) : (g.nodes.map g.degree).sum = 2 * g.edges.length := by
  have e : g.nodes.map g.degree =
      g.nodes.map (fun n => (g.links.map (fun l => l.data.length * ends n l)).sum) := by
    apply List.map_congr_left
    intro n _
    exact degree_eq_links g n
  rw [e, sum_swap]
  have e2 : g.edges.length = (g.edges.map (fun _ => 1)).sum := by simp
  rw [e2, sum_edges_links h (fun _ => 1) (fun _ _ _ => rfl), ← sum_mul_left']
  congr 1
  apply List.map_congr_left
  intro l hl
  have hends := h.ends l hl
  have e3 : (g.nodes.map (fun n => l.data.length * ends n l)) =
      g.nodes.map (fun n => l.data.length * (if l.u = n then 1 else 0) + l.data.length * (if l.v = n then 1 else 0)) := by
    apply List.map_congr_left
    intro n _
    unfold ends
    ring
  rw [e3, List.sum_map_add, sum_mul_left', sum_mul_left', sum_ends_nodes h.nodup _ hends.1,
    sum_ends_nodes h.nodup _ hends.2]
  ring

/-- `graph.size()` is the number of listed edges. -/
theorem size_eq {g : Graph V A} (h : g.WF) : g.size = g.edges.length := by
  have h1 := sum_degree h
  unfold size
  rw [h1]
  omega

end Graph
end Pelote
