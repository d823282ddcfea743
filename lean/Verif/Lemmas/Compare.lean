import Verif.Lemmas.Degree
import Verif.Lemmas.GraphOps
import Verif.Model.Graph
import Verif.Spec.Compare
import Mathlib.Data.List.Perm.Subperm

/-! Lemmas about graph comparison. -/
set_option linter.unusedSectionVars false
namespace Pelote
variable {V A : Type} [DecidableEq V] [DecidableEq A]
open Graph

theorem attrsEq_iff {a b : Attrs A} (ha : a.keys.Nodup) (hb : b.keys.Nodup) :
    attrsEq a b = true ↔ DictEq a b := by
  unfold attrsEq DictEq
  simp only [Bool.and_eq_true, beq_iff_eq, List.all_eq_true]
  constructor
  · rintro ⟨hl, hall⟩ k
    have hsub : a.keys ⊆ b.keys := by
      intro k hk
      obtain ⟨v, hv⟩ := Dict.exists_get?_of_mem_keys hk
      have := hall (k, v) (Dict.mem_of_get? hv)
      by_contra hnb
      rw [Dict.get?_eq_none_iff.2 hnb] at this
      cases this
    rcases hk : a.get? k with _ | v
    · symm
      rw [Dict.get?_eq_none_iff] at hk ⊢
      intro hkb
      have hperm : a.keys.Perm b.keys :=
        (ha.subperm hsub).perm_of_length_le (by simp [Dict.keys, hl])
      exact hk (hperm.mem_iff.2 hkb)
    · exact (hall (k, v) (Dict.mem_of_get? hk)).symm
  · intro h
    refine ⟨?_, ?_⟩
    · have hsub : ∀ {a b : Attrs A}, (∀ k, a.get? k = b.get? k) → a.keys ⊆ b.keys := by
        intro a b h k hk
        by_contra hnb
        have := h k
        rw [Dict.get?_eq_none_iff.2 hnb, Dict.get?_eq_none_iff] at this
        exact this hk
      have h1 := (ha.subperm (hsub h)).length_le
      have h2 := (hb.subperm (hsub (fun k => (h k).symm))).length_le
      simp only [Dict.keys, List.length_map] at h1 h2
      omega
    · intro kv hkv
      rw [← h, Dict.get?_of_mem ha (k := kv.1) (v := kv.2) hkv]

theorem haveSameNodesLoop_ok (b : Graph V A) (check : Bool) (ns : Dict V (Attrs A)) :
    ∃ r, haveSameNodesLoop b check ns = .ok r ∧
      (r = true ↔ ∀ q ∈ ns, ∃ a, b.node.get? q.1 = some a ∧ (check = true → attrsEq q.2 a = true)) := by
  induction ns with
  | nil => exact ⟨true, rfl, by simp⟩
  | cons q ns ih =>
    obtain ⟨n, a⟩ := q
    obtain ⟨r, hr, hiff⟩ := ih
    simp only [haveSameNodesLoop]
    rcases hb : b.node.get? n with _ | a'
    · have : b.hasNode n = false := by
        cases hh : b.hasNode n with
        | false => rfl
        | true =>
          have := hasNode_iff.1 hh
          exact absurd this (Dict.get?_eq_none_iff.1 hb)
      refine ⟨false, by simp [this], ?_⟩
      simp [hb]
    · have hh : b.hasNode n = true := by
        unfold hasNode Dict.has; rw [hb]; rfl
      simp only [hh, Bool.not_true, Bool.false_eq_true, if_false]
      cases check with
      | false =>
        simp only [Bool.false_eq_true, if_false, Bool.false_and]
        refine ⟨r, hr, ?_⟩
        rw [hiff]
        simp [hb]
      | true =>
        simp only [if_true, nodeData, Dict.getItem, hb, Bool.true_and]
        cases hq : attrsEq a a' with
        | false =>
          refine ⟨false, by simp, ?_⟩
          simp [hb, hq]
        | true =>
          refine ⟨r, by simpa using hr, ?_⟩
          rw [hiff]
          simp [hb, hq]

theorem haveSameEdgesLoop_ok (b : Graph V A) (check : Bool) (es : List (V × V × Attrs A)) :
    ∃ r, haveSameEdgesLoop b check es = .ok r ∧
      (r = true ↔ ∀ e ∈ es, b.hasEdge e.1 e.2.1 = true ∧
        (check = true → edgeDataEq b e.2.2 e.1 e.2.1 = .ok true)) := by
  induction es with
  | nil => exact ⟨true, rfl, by simp⟩
  | cons e es ih =>
    obtain ⟨u, v, a⟩ := e
    obtain ⟨r, hr, hiff⟩ := ih
    simp only [haveSameEdgesLoop]
    cases hb : b.hasEdge u v with
    | false => exact ⟨false, by simp, by simp [hb]⟩
    | true =>
      simp only [Bool.not_true, Bool.false_eq_true, if_false]
      cases check with
      | false =>
        simp only [Bool.false_eq_true, if_false, Bool.false_and]
        refine ⟨r, hr, ?_⟩
        rw [hiff]
        simp [hb]
      | true =>
        have hex : ∃ x, edgeDataEq b a u v = .ok x := by
          unfold edgeDataEq
          unfold hasEdge at hb
          obtain ⟨d, hd⟩ := Option.isSome_iff_exists.1 hb
          rw [hd]
          simp only
          split <;> exact ⟨_, rfl⟩
        obtain ⟨x, hx⟩ := hex
        simp only [if_true, hx, Bool.true_and]
        cases x with
        | false =>
          refine ⟨false, by simp, ?_⟩
          simp only [Bool.false_eq_true, false_iff]
          intro h
          have := (h (u, v, a) (by simp)).2 trivial
          simp only [hx] at this
          cases this
        | true =>
          refine ⟨r, by simpa using hr, ?_⟩
          rw [hiff]
          simp [hb, hx]

/-- Two equally long lists of distinct pairs, one included in the other. -/
theorem links_cover {d : Bool} {L M : List (Link V A)}
    (hL : L.Pairwise (fun l m => samePair d l.u l.v m.u m.v = false))
    (hM : M.Pairwise (fun l m => samePair d l.u l.v m.u m.v = false))
    (hlen : L.length = M.length)
    (hsub : ∀ l ∈ L, ∃ m ∈ M, samePair d l.u l.v m.u m.v = true) :
    ∀ m ∈ M, ∃ l ∈ L, samePair d l.u l.v m.u m.v = true := by
  induction L generalizing M with
  | nil =>
    intro m hm
    have : M = [] := List.length_eq_zero_iff.1 hlen.symm
    rw [this] at hm; cases hm
  | cons l L ih =>
    rw [List.pairwise_cons] at hL
    intro m hm
    cases hs : samePair d l.u l.v m.u m.v with
    | true => exact ⟨l, by simp, hs⟩
    | false =>
      obtain ⟨m0, hm0, hs0⟩ := hsub l (by simp)
      have hone : ∀ N : List (Link V A), N.Pairwise (fun l m => samePair d l.u l.v m.u m.v = false) →
          (N.filter (fun m => samePair d l.u l.v m.u m.v)).length ≤ 1 := by
        intro N hN
        have h1 := hN.filter (fun m => samePair d l.u l.v m.u m.v)
        by_contra hlt
        push Not at hlt
        have h2 := List.pairwise_iff_getElem.1 h1 0 1 (by omega) (by omega) (by omega)
        have h3 := (List.mem_filter.1 (List.getElem_mem
          (show 0 < (N.filter (fun m => samePair d l.u l.v m.u m.v)).length by omega))).2
        have h4 := (List.mem_filter.1 (List.getElem_mem
          (show 1 < (N.filter (fun m => samePair d l.u l.v m.u m.v)).length by omega))).2
        rw [← samePair_trans h3, h4] at h2
        cases h2
      have hpos : 0 < (M.filter (fun m => samePair d l.u l.v m.u m.v)).length :=
        List.length_pos_iff.2 (List.ne_nil_of_mem (List.mem_filter.2 ⟨hm0, hs0⟩))
      have hsplit : (M.filter (fun m => samePair d l.u l.v m.u m.v)).length +
          (M.filter (fun m => !samePair d l.u l.v m.u m.v)).length = M.length := by
        clear * -
        induction M with
        | nil => rfl
        | cons a M ih =>
          rw [List.filter_cons, List.filter_cons, List.length_cons, ← ih]
          cases samePair d l.u l.v a.u a.v <;> simp <;> omega
      have h1 := hone M hM
      obtain ⟨l', hl', hs'⟩ := ih (M := M.filter (fun m => !samePair d l.u l.v m.u m.v)) hL.2 (hM.filter _)
        (by simp only [List.length_cons] at hlen; omega)
        (by
          intro l' hl'
          obtain ⟨m', hm', hs'⟩ := hsub l' (by simp [hl'])
          refine ⟨m', List.mem_filter.2 ⟨hm', ?_⟩, hs'⟩
          simp only [Bool.not_eq_true']
          cases h : samePair d l.u l.v m'.u m'.v with
          | false => rfl
          | true =>
            have h2 := hL.1 l' hl'
            rw [samePair_trans h, samePair_comm, hs'] at h2
            cases h2)
        m (List.mem_filter.2 ⟨hm, by simp [hs]⟩)
      exact ⟨l', by simp [hl'], hs'⟩

theorem size_simple {g : Graph V A} (h : g.WF) (hs : g.multi = false) : g.size = g.links.length := by
  rw [size_eq h]
  have h1 : g.edges.length = (g.edges.map (fun _ => 1)).sum := by simp
  rw [h1, sum_edges_links h (fun _ => 1) (fun _ _ _ => rfl)]
  have h2 : g.links.map (fun l => l.data.length * 1) = g.links.map (fun _ => 1) := by
    apply List.map_congr_left
    intro l hl
    have := congrArg List.length (h.simple hs l hl)
    simp only [Dict.keys, List.length_map, List.length_cons, List.length_nil] at this
    omega
  rw [h2]; simp

end Pelote
