import Verif.Lemmas.Frame
import Verif.Lemmas.Rebuild
import Verif.Spec.ToTabular
import Verif.Props.Tables

/-! Lemmas about the records of a graph. -/
namespace Pelote

theorem asNode_ofKey (k : PyKey) : (Data.ofKey k).asNode = .ok k := by cases k <;> rfl

theorem nodeRecord_get? {key n : PyKey} {a : Attrs Data} (ha : a.keys.Nodup) (c : PyKey) :
    (nodeRecord key n a).get? c = (a.get? c).or (if c = key then some (Data.ofKey n) else none) := by
  unfold nodeRecord
  rw [Dict.get?_update _ _ ha, Dict.get?_cons, Dict.get?_nil]
  simp only [eq_comm (a := c)]

theorem addNodeData_get? {r a : Attrs Data} {m : Dict PyKey PyKey} (c : PyKey) :
    (addNodeData r a (some m)).get? c =
      (((m.filter (fun p => decide (p.2 = c))).getLast?).map (fun p => (a.get? p.1).getD .none)).or (r.get? c) := by
  unfold addNodeData
  simp only
  induction m generalizing r with
  | nil => simp
  | cons p m ih =>
    rw [List.foldl_cons, ih, Dict.get?_set, List.filter_cons]
    by_cases hp : p.2 = c
    · simp only [hp, if_true, decide_true]
      rw [List.getLast?_cons]
      cases (m.filter (fun p => decide (p.2 = c))).getLast? <;> simp
    · simp [hp]

theorem update_pairs_keys {l : List PyKey} :
    (Dict.update [] (l.map (fun k => (k, k))) : Dict PyKey PyKey).keys.Nodup ∧
      (∀ p ∈ (Dict.update [] (l.map (fun k => (k, k))) : Dict PyKey PyKey), p.1 = p.2) ∧
      ∀ c, c ∈ (Dict.update [] (l.map (fun k => (k, k))) : Dict PyKey PyKey).keys ↔ c ∈ l := by
  have nd : (Dict.update [] (l.map (fun k => (k, k))) : Dict PyKey PyKey).keys.Nodup :=
    Dict.nodup_update _ (by simp [Dict.keys])
  refine ⟨nd, ?_, ?_⟩
  · have gen : ∀ (l : List PyKey) (d : Dict PyKey PyKey), (∀ k v, d.get? k = some v → k = v) →
        ∀ k v, (d.update (l.map (fun k => (k, k)))).get? k = some v → k = v := by
      intro l
      induction l with
      | nil => intro d hd; exact hd
      | cons x l ih =>
        intro d hd
        rw [List.map_cons, Dict.update_cons]
        apply ih
        intro k v hv
        rw [Dict.get?_set] at hv
        split at hv
        · rename_i hx; cases hv; exact hx.symm
        · exact hd k v hv
    intro p hp
    exact gen l [] (by simp) p.1 p.2 (Dict.get?_of_mem nd hp)
  · intro c
    rw [Dict.mem_keys_update]
    simp [Dict.keys]

theorem addNodeData_requested {r a : Attrs Data} {spec : Option NodeDataSpec} {s : Option (Dict PyKey PyKey)}
    (h : NodeDataSpec.columns spec = .ok s) (c : PyKey) :
    (addNodeData r a s).get? c = (requested spec a c).or (r.get? c) := by
  cases spec with
  | none => cases h; simp [addNodeData, requested]
  | some spec =>
    cases spec with
    | mapping m => cases h; exact addNodeData_get? c
    | other => cases h
    | iterable l =>
      cases h
      rw [addNodeData_get?]
      congr 1
      unfold requested
      obtain ⟨nd, hid, hmem⟩ := update_pairs_keys (l := l)
      generalize (Dict.update [] (l.map (fun k => (k, k))) : Dict PyKey PyKey) = m at nd hid hmem
      by_cases hc : c ∈ l
      · simp only [if_pos hc]
        cases hl : (m.filter (fun p => decide (p.2 = c))).getLast? with
        | none =>
          rw [List.getLast?_eq_none_iff, List.filter_eq_nil_iff] at hl
          obtain ⟨p, hp, rfl⟩ := List.mem_map.1 ((hmem c).2 hc)
          exact absurd (by simpa using (hid p hp).symm) (hl p hp)
        | some p =>
          have := List.mem_filter.1 (List.mem_of_getLast? hl)
          have e : p.1 = c := by rw [hid p this.1]; simpa using this.2
          simp [e]
      · simp only [if_neg hc]
        have : m.filter (fun p => decide (p.2 = c)) = [] := by
          rw [List.filter_eq_nil_iff]
          intro p hp hpc
          apply hc
          rw [← hmem]
          have e : p.1 = c := by rw [hid p hp]; simpa using hpc
          exact List.mem_map.2 ⟨p, hp, e⟩
        rw [this]; rfl

theorem edgeRecord_get? {sourceCol targetCol : PyKey} {sd td : Option NodeDataSpec} {s t : Option (Dict PyKey PyKey)}
    (hs : NodeDataSpec.columns sd = .ok s) (ht : NodeDataSpec.columns td = .ok t) (g : Graph PyKey Data)
    {e : PyKey × PyKey × Attrs Data} (he : e.2.2.keys.Nodup) (c : PyKey) :
    (edgeRecord sourceCol targetCol s t g e).get? c = edgeCell sourceCol targetCol sd td g e c := by
  unfold edgeRecord edgeCell
  simp only
  rw [addNodeData_requested ht, addNodeData_requested hs, Dict.get?_update _ _ he, Dict.get?_set, Dict.get?_cons,
    Dict.get?_nil]
  simp only [eq_comm (a := c)]

/-! ### The edges of a simple graph -/

theorem edgesData_nodup {g : Graph PyKey Data} (h : g.WF) {e : PyKey × PyKey × Attrs Data} (he : e ∈ g.edgesData) :
    e.2.2.keys.Nodup := by
  obtain ⟨u, v, a⟩ := e
  obtain ⟨l, hl, _, _, k, hk⟩ := (Graph.mem_edgesData h).1 he
  exact h.edgeAttrs l hl (k, a) hk

theorem edgesData_eq_groups {g : Graph PyKey Data} (h : g.WF) :
    g.edgesData = g.groups.flatMap (fun l => l.data.map (fun p => (l.u, l.v, p.2))) := by
  unfold Graph.edgesData
  rw [Graph.edgesKeys_eq g h.nodup, List.map_flatMap]
  congr 1
  funext l
  unfold Graph.expand
  rw [List.map_map]; rfl

theorem simple_data {g : Graph PyKey Data} (h : g.WF) (hm : g.multi = false) {l : Link PyKey Data}
    (hl : l ∈ g.links) : ∃ a, l.data = [(.int 0, a)] := by
  have hk := h.simple hm l hl
  unfold Dict.keys at hk
  match hd : l.data with
  | [] => rw [hd] at hk; cases hk
  | [(k, a)] =>
    rw [hd] at hk
    simp only [List.map_cons, List.map_nil, List.cons.injEq, and_true] at hk
    exact ⟨a, by rw [← hk]⟩
  | _ :: _ :: _ => rw [hd] at hk; simp at hk

theorem simple_edgesData_pairwise {g : Graph PyKey Data} (h : g.WF) (hm : g.multi = false) :
    g.edgesData.Pairwise (fun e f => samePair g.directed e.1 e.2.1 f.1 f.2.1 = false) := by
  rw [edgesData_eq_groups h]
  have hp := Graph.groups_uniq h
  have hd : ∀ l ∈ g.groups, ∃ a, l.data = [(.int 0, a)] := by
    intro l hl
    obtain ⟨m, hm', rfl⟩ := (Graph.mem_groups h).1 hl
    rw [Graph.orient_data]
    exact simple_data h hm hm'
  generalize g.groups = L at hp hd
  generalize g.directed = d at hp
  induction L with
  | nil => exact .nil
  | cons l L ih =>
    rw [List.pairwise_cons] at hp
    obtain ⟨a, ha⟩ := hd l List.mem_cons_self
    rw [List.flatMap_cons, ha]
    simp only [List.map_cons, List.map_nil, List.cons_append, List.nil_append]
    rw [List.pairwise_cons]
    refine ⟨?_, ih (fun l hl => hd l (List.mem_cons_of_mem _ hl)) hp.2⟩
    intro f hf
    obtain ⟨m, hm', hf'⟩ := List.mem_flatMap.1 hf
    obtain ⟨p, _, rfl⟩ := List.mem_map.1 hf'
    exact hp.1 m hm'

theorem simple_edgesData_keydict {g : Graph PyKey Data} (h : g.WF) (hm : g.multi = false)
    {e : PyKey × PyKey × Attrs Data} (he : e ∈ g.edgesData) :
    g.keydict? e.1 e.2.1 = some [(.int 0, e.2.2)] := by
  obtain ⟨u, v, a⟩ := e
  obtain ⟨l, hl, rfl, rfl, k, hk⟩ := (Graph.mem_edgesData h).1 he
  obtain ⟨b, hb⟩ := simple_data h hm hl
  rw [hb, List.mem_singleton] at hk
  have e : a = b := (Prod.mk.inj hk).2
  subst e
  exact (Graph.keydict?_eq_some h).2 ⟨l, hl, g.orient_samePair l, hb⟩

theorem hasEdge_edgesData {g : Graph PyKey Data} (h : g.WF) (u v : PyKey) :
    g.hasEdge u v = true ↔ ∃ e ∈ g.edgesData, samePair g.directed e.1 e.2.1 u v = true := by
  constructor
  · intro he
    unfold Graph.hasEdge at he
    obtain ⟨d, hd⟩ := Option.isSome_iff_exists.1 he
    obtain ⟨l, hl, hs, _⟩ := (Graph.keydict?_eq_some h).1 hd
    obtain ⟨p, L, hp⟩ := List.exists_cons_of_ne_nil (h.nonempty l hl)
    refine ⟨((g.orient l).u, (g.orient l).v, p.2), (Graph.mem_edgesData h).2 ⟨l, hl, rfl, rfl, p.1, by rw [hp]; simp⟩, ?_⟩
    rw [samePair_trans (g.orient_samePair l), samePair_comm]; exact hs
  · rintro ⟨⟨x, y, a⟩, he, hs⟩
    obtain ⟨l, hl, rfl, rfl, _⟩ := (Graph.mem_edgesData h).1 he
    have := g.orient_samePair l
    rw [samePair_comm] at this
    have hl' := samePair_trans (z := u) (w := v) this
    rw [hs] at hl'
    rw [samePair_comm] at hl'
    unfold Graph.hasEdge
    rw [(Graph.keydict?_eq_some h).2 ⟨l, hl, hl', rfl⟩]
    rfl

end Pelote
