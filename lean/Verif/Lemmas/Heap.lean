import Verif.Spec.Heap
import Verif.Lemmas.Dict
import Mathlib.Data.List.Perm.Basic
import Mathlib.Data.List.Nodup
import Mathlib.Order.Nat

/-! Operations on graphs whose attribute dicts are in a heap: they do what the operations without a heap do, and only modify or
create dicts of the graph they are applied to. -/
namespace Pelote
open scoped List
variable {V A κ : Type} [DecidableEq V] [DecidableEq κ]

namespace Heap
omit [DecidableEq V] [DecidableEq κ]

theorem read_write_self {H : Heap A} {l : Loc} (h : l < H.length) (a : Attrs A) : (H.write l a).read l = a := by
  simp [read, write, h]

theorem read_write_ne {H : Heap A} {l m : Loc} (h : l ≠ m) (a : Attrs A) : (H.write l a).read m = H.read m := by
  simp [read, write, h]

@[simp] theorem length_write (H : Heap A) (l : Loc) (a : Attrs A) : (H.write l a).length = H.length := by simp [write]

@[simp] theorem length_alloc (H : Heap A) (a : Attrs A) : (H.alloc a).1.length = H.length + 1 := by simp [alloc]

theorem read_alloc_new (H : Heap A) (a : Attrs A) : (H.alloc a).1.read H.length = a := by simp [read, alloc]

theorem read_alloc_old {H : Heap A} {l : Loc} (h : l < H.length) (a : Attrs A) : (H.alloc a).1.read l = H.read l := by
  simp [read, alloc, List.getElem?_append, h]

end Heap

/-- The dicts `L` of a graph become `L'`: those which are added are new, and no other dict is modified. -/
structure Grow (H H' : Heap A) (L L' : List Loc) : Prop where
  len : H.length ≤ H'.length
  frame : ∀ l, l < H.length → l ∉ L → H'.read l = H.read l
  fresh : ∃ F : List Loc, L' ~ L ++ F ∧ F.Nodup ∧ ∀ l ∈ F, H.length ≤ l ∧ l < H'.length

namespace Grow
omit [DecidableEq V] [DecidableEq κ]
variable {H H' H'' : Heap A} {L L' L'' C : List Loc}

theorem refl (H : Heap A) (L : List Loc) : Grow H H L L :=
  ⟨le_refl _, fun _ _ _ => rfl, [], by simp, by simp, by simp⟩

theorem perm (h : Grow H H' L L') (hp : L' ~ L'') : Grow H H' L L'' := by
  obtain ⟨h1, h2, F, h3, h4, h5⟩ := h
  exact ⟨h1, h2, F, hp.symm.trans h3, h4, h5⟩

theorem perm_left (h : Grow H H' L L') (hp : L ~ L'') : Grow H H' L'' L' := by
  obtain ⟨h1, h2, F, h3, h4, h5⟩ := h
  exact ⟨h1, fun l hl hn => h2 l hl (fun hm => hn (hp.mem_iff.1 hm)), F, h3.trans (hp.append_right F), h4, h5⟩

theorem trans (h : Grow H H' L L') (h' : Grow H' H'' L' L'') : Grow H H'' L L'' := by
  obtain ⟨h1, h2, F, h3, h4, h5⟩ := h
  obtain ⟨k1, k2, F', k3, k4, k5⟩ := h'
  refine ⟨h1.trans k1, fun l hl hn => ?_, F ++ F', ?_, ?_, ?_⟩
  · rw [k2 l (hl.trans_le h1), h2 l hl hn]
    intro hm
    rcases List.mem_append.1 (h3.mem_iff.1 hm) with hm | hm
    · exact hn hm
    · exact absurd hl (not_lt_of_ge (h5 l hm).1)
  · rw [← List.append_assoc]
    exact k3.trans (h3.append_right F')
  · rw [List.nodup_append']
    refine ⟨h4, k4, fun l hl hl' => ?_⟩
    exact absurd (h5 l hl).2 (not_lt_of_ge (k5 l hl').1)
  · intro l hl
    rcases List.mem_append.1 hl with hl | hl
    · exact ⟨(h5 l hl).1, (h5 l hl).2.trans_le k1⟩
    · exact ⟨h1.trans (k5 l hl).1, (k5 l hl).2⟩

theorem write {l : Loc} (h : l ∈ L) (a : Attrs A) : Grow H (H.write l a) L L :=
  ⟨by simp, fun m _ hn => Heap.read_write_ne (by rintro rfl; exact hn h) a, [], by simp, by simp, by simp⟩

theorem alloc (H : Heap A) (L : List Loc) (a : Attrs A) : Grow H (H.alloc a).1 L (L ++ [H.length]) :=
  ⟨by simp, fun l hl _ => Heap.read_alloc_old hl a, [H.length], List.Perm.refl _, by simp, by simp⟩

/-- Other dicts of the graph. -/
theorem context (h : Grow H H' L L') (C : List Loc) : Grow H H' (C ++ L) (C ++ L') := by
  obtain ⟨h1, h2, F, h3, h4, h5⟩ := h
  refine ⟨h1, fun l hl hn => h2 l hl (fun hm => hn (List.mem_append_right _ hm)), F, ?_, h4, h5⟩
  rw [List.append_assoc]
  exact h3.append_left C

theorem context_right (h : Grow H H' L L') (C : List Loc) : Grow H H' (L ++ C) (L' ++ C) :=
  ((h.context C).perm List.perm_append_comm).perm_left List.perm_append_comm

theorem nodup (h : Grow H H' L L') (hn : L.Nodup) (hl : ∀ l ∈ L, l < H.length) : L'.Nodup := by
  obtain ⟨-, -, F, h3, h4, h5⟩ := h
  rw [h3.nodup_iff, List.nodup_append']
  refine ⟨hn, h4, fun l h1 h2 => ?_⟩
  exact absurd (hl l h1) (not_lt_of_ge (h5 l h2).1)

theorem bound (h : Grow H H' L L') {b : Nat} (hb : b ≤ H.length) (hl : ∀ l ∈ L, b ≤ l ∧ l < H.length) :
    ∀ l ∈ L', b ≤ l ∧ l < H'.length := by
  obtain ⟨h1, -, F, h3, h4, h5⟩ := h
  intro l hm
  rcases List.mem_append.1 (h3.mem_iff.1 hm) with hm | hm
  · exact ⟨(hl l hm).1, (hl l hm).2.trans_le h1⟩
  · exact ⟨hb.trans (h5 l hm).1, (h5 l hm).2⟩

end Grow

/-! ### Dicts of dicts -/

/-- The content of the dicts of a dict. -/
def derefD (H : Heap A) (d : Dict κ Loc) : Dict κ (Attrs A) := d.map (fun p => (p.1, H.read p.2))

omit [DecidableEq V] [DecidableEq κ] in
@[simp] theorem keys_derefD (H : Heap A) (d : Dict κ Loc) : (derefD H d).keys = d.keys := by
  simp [derefD, Dict.keys]

omit [DecidableEq V] in
theorem get?_derefD (H : Heap A) (d : Dict κ Loc) (k : κ) : (derefD H d).get? k = (d.get? k).map H.read := by
  induction d with
  | nil => rfl
  | cons p d ih =>
    obtain ⟨k', l⟩ := p
    show (if k' = k then some (H.read l) else Dict.get? (derefD H d) k) = _
    rw [ih, Dict.get?_cons]
    split <;> rfl

omit [DecidableEq V] [DecidableEq κ] in
theorem derefD_congr {H H' : Heap A} {d : Dict κ Loc} (h : ∀ l ∈ d.map Prod.snd, H'.read l = H.read l) :
    derefD H' d = derefD H d := by
  unfold derefD
  refine List.map_congr_left (fun p hp => ?_)
  rw [h p.2 (List.mem_map_of_mem hp)]

omit [DecidableEq V] in
theorem derefD_write {H : Heap A} {d : Dict κ Loc} {k : κ} {l : Loc} (hn : (d.map Prod.snd).Nodup)
    (hl : ∀ l ∈ d.map Prod.snd, l < H.length) (hk : d.get? k = some l) (a : Attrs A) :
    derefD (H.write l a) d = (derefD H d).set k a := by
  induction d with
  | nil => cases hk
  | cons p d ih =>
    obtain ⟨k', m⟩ := p
    rw [List.map_cons, List.nodup_cons] at hn
    show (k', (H.write l a).read m) :: derefD (H.write l a) d =
      if k' = k then (k', a) :: derefD H d else (k', H.read m) :: Dict.set (derefD H d) k a
    rw [Dict.get?_cons] at hk
    by_cases e : k' = k
    · rw [if_pos e] at hk ⊢
      cases hk
      rw [Heap.read_write_self (hl l (by simp)), derefD_congr]
      intro x hx
      exact Heap.read_write_ne (by rintro rfl; exact hn.1 hx) a
    · rw [if_neg e] at hk ⊢
      rw [ih hn.2 (fun x hx => hl x (List.mem_cons_of_mem _ hx)) hk]
      rw [Heap.read_write_ne _ a]
      rintro rfl
      exact hn.1 (List.mem_map.2 ⟨_, Dict.mem_of_get? hk, rfl⟩)

omit [DecidableEq V] in
theorem derefD_alloc {H : Heap A} {d : Dict κ Loc} {k : κ} (hl : ∀ l ∈ d.map Prod.snd, l < H.length)
    (hk : d.get? k = none) (a : Attrs A) :
    derefD (H.alloc a).1 (d ++ [(k, H.length)]) = (derefD H d).set k a := by
  rw [Dict.set_of_not_mem _ (by rw [keys_derefD]; exact Dict.get?_eq_none_iff.1 hk)]
  show List.map _ _ = _
  rw [List.map_append]
  show derefD (H.alloc a).1 d ++ [(k, (H.alloc a).1.read H.length)] = _
  rw [Heap.read_alloc_new, derefD_congr (fun l h => Heap.read_alloc_old (hl l h) a)]

/-! ### Graphs -/

namespace HGraph

omit [DecidableEq V] in
theorem deref_eq (H : Heap A) (g : HGraph V) :
    g.deref H = ⟨g.directed, g.multi, H.read g.attrs, derefD H g.node, g.links.map (derefLink H)⟩ := rfl

omit [DecidableEq V] in
theorem derefLink_eq (H : Heap A) (l : HLink V) : derefLink H l = ⟨l.u, l.v, derefD H l.data⟩ := rfl

/-- The dicts of the edges. -/
def linkLocs (ls : List (HLink V)) : List Loc := ls.flatMap (fun l => l.data.map Prod.snd)

omit [DecidableEq V] in
theorem locs_eq (g : HGraph V) : g.locs = g.attrs :: (g.node.map Prod.snd ++ linkLocs g.links) := rfl

omit [DecidableEq V] in
theorem derefLinks_congr {H H' : Heap A} {ls : List (HLink V)} (h : ∀ l ∈ linkLocs ls, H'.read l = H.read l) :
    ls.map (derefLink H') = ls.map (derefLink H) := by
  refine List.map_congr_left (fun l hl => ?_)
  rw [derefLink_eq, derefLink_eq, derefD_congr]
  exact fun m hm => h m (List.mem_flatMap.2 ⟨l, hl, hm⟩)

omit [DecidableEq V] in
theorem deref_congr {H H' : Heap A} {g : HGraph V} (h : ∀ l ∈ g.locs, H'.read l = H.read l) : g.deref H' = g.deref H := by
  rw [deref_eq, deref_eq, h _ (by simp [locs_eq]), derefD_congr (fun l hl => h l (by simp only [locs_eq, List.mem_cons, List.mem_append]; tauto)),
    derefLinks_congr (fun l hl => h l (by simp only [locs_eq, List.mem_cons, List.mem_append]; tauto))]

omit [DecidableEq V] in
theorem addToData_spec {H : Heap A} {data : Dict PyKey Loc} (hn : (data.map Prod.snd).Nodup)
    (hl : ∀ l ∈ data.map Prod.snd, l < H.length) (multi : Bool) (key : Option PyKey) (attr : Attrs A) :
    Grow H (addToData H multi data key attr).1 (data.map Prod.snd) ((addToData H multi data key attr).2.map Prod.snd) ∧
      derefD (addToData H multi data key attr).1 (addToData H multi data key attr).2 =
        Graph.addToData multi (derefD H data) key attr := by
  have hk : Graph.newEdgeKey (derefD H data) = newEdgeKey data := by
    unfold Graph.newEdgeKey newEdgeKey
    rw [keys_derefD]
    simp [derefD]
  unfold addToData Graph.addToData
  rw [hk]
  generalize (if multi then key.getD (newEdgeKey data) else PyKey.int 0) = k
  simp only [get?_derefD]
  cases hg : data.get? k with
  | some l =>
    have hm : l ∈ data.map Prod.snd := List.mem_map_of_mem (f := Prod.snd) (Dict.mem_of_get? hg)
    exact ⟨Grow.write hm _, derefD_write hn hl hg _⟩
  | none =>
    refine ⟨?_, derefD_alloc hl hg _⟩
    rw [List.map_append]
    exact Grow.alloc H _ _

theorem addLink_spec {H : Heap A} (ls : List (HLink V)) (hn : (linkLocs ls).Nodup) (hl : ∀ l ∈ linkLocs ls, l < H.length)
    (directed multi : Bool) (u v : V) (key : Option PyKey) (attr : Attrs A) :
    Grow H (addLink H directed multi u v key attr ls).1 (linkLocs ls) (linkLocs (addLink H directed multi u v key attr ls).2) ∧
      (addLink H directed multi u v key attr ls).2.map (derefLink (addLink H directed multi u v key attr ls).1) =
        Graph.addLink directed multi u v key attr (ls.map (derefLink H)) := by
  induction ls with
  | nil =>
    have h := addToData_spec (H := H) (data := []) (by simp) (by simp) multi key attr
    refine ⟨?_, ?_⟩
    · simpa [addLink, linkLocs] using h.1
    · show [derefLink _ _] = [_]
      rw [derefLink_eq]
      show [(⟨u, v, derefD (addToData H multi [] key attr).1 (addToData H multi [] key attr).2⟩ : Link V A)] = _
      rw [h.2]
      rfl
  | cons l ls ih =>
    have hn' : (l.data.map Prod.snd ++ linkLocs ls).Nodup := hn
    have hl' : ∀ m ∈ l.data.map Prod.snd ++ linkLocs ls, m < H.length := hl
    have hd := List.nodup_append'.1 hn'
    have h1 : ∀ m ∈ l.data.map Prod.snd, m < H.length := fun m hm => hl' m (List.mem_append_left _ hm)
    have h2 : ∀ m ∈ linkLocs ls, m < H.length := fun m hm => hl' m (List.mem_append_right _ hm)
    by_cases e : samePair directed u v l.u l.v = true
    · have h := addToData_spec hd.1 h1 multi key attr
      have e1 : addLink H directed multi u v key attr (l :: ls) =
          ((addToData H multi l.data key attr).1, { l with data := (addToData H multi l.data key attr).2 } :: ls) := by
        simp only [addLink, e, if_true]
      have e2 : Graph.addLink directed multi u v key attr ((l :: ls).map (derefLink H)) =
          ⟨l.u, l.v, Graph.addToData multi (derefD H l.data) key attr⟩ :: ls.map (derefLink H) := by
        show (if samePair directed u v l.u l.v then _ else _) = _
        rw [if_pos e]
        rfl
      rw [e1, e2]
      refine ⟨h.1.context_right (linkLocs ls), ?_⟩
      show derefLink _ _ :: List.map _ ls = _
      rw [derefLink_eq]
      show (⟨l.u, l.v, derefD _ _⟩ : Link V A) :: _ = _
      rw [h.2, derefLinks_congr (fun m hm => h.1.frame m (h2 m hm) (fun hm' => hd.2.2 hm' hm))]
    · have h := ih hd.2.1 h2
      have e1 : addLink H directed multi u v key attr (l :: ls) =
          ((addLink H directed multi u v key attr ls).1, l :: (addLink H directed multi u v key attr ls).2) := by
        simp only [addLink, e, Bool.false_eq_true, if_false]
      have e2 : Graph.addLink directed multi u v key attr ((l :: ls).map (derefLink H)) =
          derefLink H l :: Graph.addLink directed multi u v key attr (ls.map (derefLink H)) := by
        show (if samePair directed u v l.u l.v then _ else _) = _
        rw [if_neg e]
      rw [e1, e2]
      refine ⟨h.1.context (l.data.map Prod.snd), ?_⟩
      show derefLink _ l :: List.map _ _ = _
      rw [h.2, derefLink_eq, derefLink_eq, derefD_congr (fun m hm => h.1.frame m (h1 m hm) (fun hm' => hd.2.2 hm hm'))]

/-- What an operation on a graph does. -/
structure Step (H : Heap A) (g : HGraph V) (r : Heap A × HGraph V) (v : Graph V A) : Prop where
  grow : Grow H r.1 g.locs r.2.locs
  eq : r.2.deref r.1 = v

/-- The dicts of the graph exist and are distinct. -/
structure Own (H : Heap A) (g : HGraph V) : Prop where
  nodup : g.locs.Nodup
  lt : ∀ l ∈ g.locs, l < H.length

omit [DecidableEq V] in
theorem Own.step {H : Heap A} {g : HGraph V} {r : Heap A × HGraph V} {v : Graph V A} (o : Own H g) (s : Step H g r v) :
    Own r.1 r.2 :=
  ⟨s.grow.nodup o.nodup o.lt, fun l hl => (s.grow.bound (Nat.zero_le _) (fun m hm => ⟨Nat.zero_le _, o.lt m hm⟩) l hl).2⟩

omit [DecidableEq V] in
theorem Step.trans {H : Heap A} {g : HGraph V} {r r' : Heap A × HGraph V} {v v' : Graph V A} (s : Step H g r v)
    (s' : Step r.1 r.2 r' v') : Step H g r' v' := ⟨s.grow.trans s'.grow, s'.eq⟩

section
omit [DecidableEq V]
variable {H : Heap A} {g : HGraph V}

theorem Own.node (o : Own H g) : (g.node.map Prod.snd).Nodup ∧ (∀ l ∈ g.node.map Prod.snd, l < H.length) := by
  have h := o.nodup
  rw [locs_eq, List.nodup_cons, List.nodup_append'] at h
  exact ⟨h.2.1, fun l hl => o.lt l (by simp only [locs_eq, List.mem_cons, List.mem_append]; tauto)⟩

theorem Own.links (o : Own H g) : (linkLocs g.links).Nodup ∧ (∀ l ∈ linkLocs g.links, l < H.length) := by
  have h := o.nodup
  rw [locs_eq, List.nodup_cons, List.nodup_append'] at h
  exact ⟨h.2.2.1, fun l hl => o.lt l (by simp only [locs_eq, List.mem_cons, List.mem_append]; tauto)⟩

theorem Own.attrs (o : Own H g) : g.attrs < H.length := o.lt _ (by simp [locs_eq])

theorem Own.apart (o : Own H g) : g.attrs ∉ g.node.map Prod.snd ∧ g.attrs ∉ linkLocs g.links ∧
    List.Disjoint (g.node.map Prod.snd) (linkLocs g.links) := by
  have h := o.nodup
  rw [locs_eq, List.nodup_cons, List.nodup_append', List.mem_append] at h
  exact ⟨fun m => h.1 (.inl m), fun m => h.1 (.inr m), h.2.2.2⟩

/-- A modification of the nodes only. -/
theorem step_node (o : Own H g) {H' : Heap A} {d : Dict V Loc} {d' : Dict V (Attrs A)}
    (hg : Grow H H' (g.node.map Prod.snd) (d.map Prod.snd)) (he : derefD H' d = d') :
    Step H g (H', { g with node := d }) { g.deref H with node := d' } := by
  obtain ⟨a1, a2, a3⟩ := o.apart
  refine ⟨?_, ?_⟩
  · exact (hg.context_right (linkLocs g.links)).context [g.attrs]
  · show deref H' _ = _
    rw [deref_eq]
    show (⟨g.directed, g.multi, H'.read g.attrs, derefD H' d, g.links.map (derefLink H')⟩ : Graph V A) = _
    rw [hg.frame _ o.attrs a1, he,
      derefLinks_congr (fun m hm => hg.frame m (o.links.2 m hm) (fun hm' => a3 hm' hm))]
    rfl

/-- A modification of the edges only. -/
theorem step_links (o : Own H g) {H' : Heap A} {ls : List (HLink V)} {ls' : List (Link V A)}
    (hg : Grow H H' (linkLocs g.links) (linkLocs ls)) (he : ls.map (derefLink H') = ls') :
    Step H g (H', { g with links := ls }) { g.deref H with links := ls' } := by
  obtain ⟨a1, a2, a3⟩ := o.apart
  refine ⟨?_, ?_⟩
  · exact hg.context (g.attrs :: g.node.map Prod.snd)
  · show deref H' _ = _
    rw [deref_eq]
    show (⟨g.directed, g.multi, H'.read g.attrs, derefD H' g.node, ls.map (derefLink H')⟩ : Graph V A) = _
    rw [hg.frame _ o.attrs a2, he,
      derefD_congr (fun m hm => hg.frame m (o.node.2 m hm) (fun hm' => a3 hm hm'))]
    rfl

end

theorem addNodeCore_step {H : Heap A} {g : HGraph V} (o : Own H g) (n : V) (attr : Attrs A) :
    Step H g (addNodeCore H g n attr) ((g.deref H).addNodeCore n attr) := by
  have hv : (g.deref H).addNodeCore n attr =
      { g.deref H with node := (derefD H g.node).set n ((((g.node.get? n).map H.read).getD []).update attr) } := by
    unfold Graph.addNodeCore
    rw [← get?_derefD]
    rfl
  rw [hv]
  unfold addNodeCore
  cases hg : g.node.get? n with
  | some l =>
    have hm : l ∈ g.node.map Prod.snd := List.mem_map_of_mem (f := Prod.snd) (Dict.mem_of_get? hg)
    exact step_node o (Grow.write hm _) (derefD_write o.node.1 o.node.2 hg _)
  | none =>
    refine step_node o ?_ (derefD_alloc o.node.2 hg _)
    rw [List.map_append]
    exact Grow.alloc H _ _

theorem ensureNode_step {H : Heap A} {g : HGraph V} (o : Own H g) (n : V) :
    Step H g (ensureNode H g n) ((g.deref H).ensureNode n) := by
  have hh : (g.deref H).hasNode n = g.node.has n := by
    show (Dict.get? (derefD H g.node) n).isSome = _
    rw [get?_derefD]
    simp [Dict.has]
  unfold ensureNode Graph.ensureNode
  rw [hh]
  by_cases h : g.node.has n = true
  · rw [if_pos h, if_pos h]
    exact ⟨Grow.refl _ _, rfl⟩
  · rw [if_neg h, if_neg h]
    have hk : g.node.get? n = none := by
      rw [Dict.get?_eq_none_iff]
      exact fun hm => h (Dict.has_iff.2 hm)
    have e := derefD_alloc o.node.2 hk []
    rw [Dict.set_of_not_mem _ (by rw [keys_derefD]; exact Dict.get?_eq_none_iff.1 hk)] at e
    refine step_node o ?_ e
    rw [List.map_append]
    exact Grow.alloc H _ _

theorem addEdgeCore_step {H : Heap A} {g : HGraph V} (o : Own H g) (u v : V) (key : Option PyKey) (attr : Attrs A) :
    Step H g (addEdgeCore H g u v key attr) ((g.deref H).addEdgeCore u v key attr) := by
  have s1 := ensureNode_step o u
  have o1 := o.step s1
  have s2 := ensureNode_step o1 v
  have o2 := o1.step s2
  have h := addLink_spec (ensureNode (ensureNode H g u).1 (ensureNode H g u).2 v).2.links o2.links.1 o2.links.2
    (ensureNode (ensureNode H g u).1 (ensureNode H g u).2 v).2.directed
    (ensureNode (ensureNode H g u).1 (ensureNode H g u).2 v).2.multi u v key attr
  have s3 := step_links o2 h.1 h.2
  have := (s1.trans s2).trans s3
  rw [s2.eq, s1.eq] at this
  have e1 : ((ensureNode (ensureNode H g u).1 (ensureNode H g u).2 v).2.links.map
      (derefLink (ensureNode (ensureNode H g u).1 (ensureNode H g u).2 v).1)) =
      (((g.deref H).ensureNode u).ensureNode v).links := by
    rw [← s1.eq, ← s2.eq]; rfl
  have e2 : (ensureNode (ensureNode H g u).1 (ensureNode H g u).2 v).2.directed =
      (((g.deref H).ensureNode u).ensureNode v).directed := by
    rw [← s1.eq, ← s2.eq]; rfl
  have e3 : (ensureNode (ensureNode H g u).1 (ensureNode H g u).2 v).2.multi =
      (((g.deref H).ensureNode u).ensureNode v).multi := by
    rw [← s1.eq, ← s2.eq]; rfl
  refine ⟨this.grow, this.eq.trans ?_⟩
  rw [e1, e2, e3]
  rfl

end HGraph
end Pelote
