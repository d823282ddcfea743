import Verif.Model.Sparsification
import Verif.Lemmas.RemoveEdges
import Mathlib.Data.List.Pairwise

/-! Lemmas about the sparsifiers. -/
set_option linter.unusedSectionVars false
namespace Pelote
variable {V A : Type} [DecidableEq V]
open Graph

/-- Forget the key of an edge. -/
def stripKey (e : KeyedEdge V A) : V × V × Attrs A := (e.1, e.2.1, e.2.2.2)

theorem yieldWhen_ok {pred : EdgePred V A} {p : V → V → Attrs A → Bool} (want : Bool) {es : List (KeyedEdge V A)}
    (h : ∀ e ∈ es, pred e.1 e.2.1 e.2.2.2 = .ok (p e.1 e.2.1 e.2.2.2)) :
    yieldWhen want pred es = ⟨es.filter (fun e => p e.1 e.2.1 e.2.2.2 == want), none⟩ := by
  induction es with
  | nil => rfl
  | cons e es ih =>
    obtain ⟨u, v, k, a⟩ := e
    have h1 := h (u, v, k, a) (by simp)
    simp only at h1
    simp only [yieldWhen, h1, ih (fun e he => h e (by simp [he])), List.filter_cons, beq_iff_eq]

theorem yieldWhen_err (pred : EdgePred V A) (b c : Bool) (es : List (KeyedEdge V A)) :
    (yieldWhen b pred es).err = (yieldWhen c pred es).err := by
  induction es with
  | nil => rfl
  | cons e es ih =>
    obtain ⟨u, v, k, a⟩ := e
    simp only [yieldWhen]
    cases pred u v a with
    | error e => rfl
    | ok b => exact ih

/-- The loop of `Sparsifier.filter` over the default generator is the loop of `filter_edges`. -/
theorem filterLoop_eq [AttrVal A] (pred : EdgePred V A) (es : List (KeyedEdge V A)) (copy : Graph V A) :
    Sparsifier.filterLoop (yieldWhen true pred es).yields (yieldWhen true pred es).err copy =
      filterEdgesLoop pred (es.map stripKey) copy := by
  induction es generalizing copy with
  | nil => rfl
  | cons e es ih =>
    obtain ⟨u, v, k, a⟩ := e
    simp only [yieldWhen, List.map_cons, stripKey, filterEdgesLoop]
    cases pred u v a with
    | error e => rfl
    | ok b =>
      cases b with
      | false => simp only [Bool.false_eq_true, if_false]; exact ih copy
      | true =>
        simp only [if_true, Sparsifier.filterLoop]
        cases copy.addEdge u v a with
        | error e => rfl
        | ok copy => exact ih copy

theorem edgesToDrop_eq (pred : EdgePred V A) (es : List (KeyedEdge V A)) :
    edgesToDrop pred (es.map stripKey) =
      match (yieldWhen false pred es).err with
      | some e => .error e
      | none => .ok ((yieldWhen false pred es).yields.map (fun e => (e.1, e.2.1))) := by
  induction es with
  | nil => rfl
  | cons e es ih =>
    obtain ⟨u, v, k, a⟩ := e
    simp only [yieldWhen, List.map_cons, stripKey, edgesToDrop]
    cases hp : pred u v a with
    | error e => rfl
    | ok b =>
      rw [ih]
      cases (yieldWhen false pred es).err with
      | some e => rfl
      | none => cases b <;> simp

theorem edgesKeys_strip (g : Graph V A) : g.edgesKeys.map stripKey = g.edgesData := rfl

/-! ### Setting one attribute of edges -/

/-- `x` designates the same attribute dict as `e`. -/
def sameEdge (d : Bool) (x e : KeyedEdge V A) : Bool :=
  samePair d x.1 x.2.1 e.1 e.2.1 && decide (e.2.2.1 = x.2.2.1)

/-- What `a[attr] = value`, `a` being the dict of the edge `x`, does to the edge `e`. -/
def setIfSame (d : Bool) (attr : String) (x : KeyedEdge V A) (value : A) (e : KeyedEdge V A) : KeyedEdge V A :=
  if sameEdge d x e then (e.1, e.2.1, e.2.2.1, e.2.2.2.set (.str attr) value) else e

theorem adj_setEdgeAttr (g : Graph V A) (x : KeyedEdge V A) (attr : String) (value : A) (n : V) :
    (g.setEdgeAttr x.1 x.2.1 x.2.2.1 attr value).adj n =
      (g.adj n).map (fun p => (p.1,
        p.2.map (fun ka => (setIfSame g.directed attr x value (n, p.1, ka.1, ka.2)).2.2))) := by
  obtain ⟨u, v, k, a⟩ := x
  unfold adj setEdgeAttr
  simp only
  rw [List.filterMap_map, List.map_filterMap]
  apply List.filterMap_congr
  intro l hl
  simp only [Function.comp]
  unfold Link.from?
  have key : ∀ (m : V) , samePair g.directed u v l.u l.v = samePair g.directed u v n m →
      (if samePair g.directed u v l.u l.v then
        l.data.map (fun ka => if ka.1 = k then (ka.1, ka.2.set (.str attr) value) else ka) else l.data) =
      l.data.map (fun ka => (setIfSame g.directed attr (u, v, k, a) value (n, m, ka.1, ka.2)).2.2) := by
    intro m hm
    rw [hm]
    unfold setIfSame sameEdge
    by_cases hs : samePair g.directed u v n m = true
    · simp only [hs, if_true, Bool.true_and, decide_eq_true_eq]
      apply List.map_congr_left
      intro ka _
      split <;> rfl
    · simp [hs]
  split
  · rename_i hs
    simp only
    by_cases h1 : l.u = n
    · simp only [h1, if_true, Option.map_some]
      have := key l.v (by rw [h1])
      rw [if_pos hs] at this
      rw [← this]
    · simp only [h1, if_false]
      by_cases h2 : (!g.directed && decide (l.v = n)) = true
      · simp only [h2, if_true, Option.map_some]
        have := key l.u (by
          simp only [Bool.and_eq_true, Bool.not_eq_true', decide_eq_true_eq] at h2
          rw [h2.1, h2.2, samePair_comm, samePair_swap, samePair_comm])
        rw [if_pos hs] at this
        rw [← this]
      · simp only [h2]; rfl
  · rename_i hs
    by_cases h1 : l.u = n
    · simp only [h1, if_true, Option.map_some]
      have := key l.v (by rw [h1])
      rw [if_neg hs] at this
      rw [← this]
    · simp only [h1, if_false]
      by_cases h2 : (!g.directed && decide (l.v = n)) = true
      · simp only [h2, if_true, Option.map_some]
        have := key l.u (by
          simp only [Bool.and_eq_true, Bool.not_eq_true', decide_eq_true_eq] at h2
          rw [h2.1, h2.2, samePair_comm, samePair_swap, samePair_comm])
        rw [if_neg hs] at this
        rw [← this]
      · simp only [h2]; rfl

theorem setIfSame_fst (d : Bool) (attr : String) (x : KeyedEdge V A) (value : A) (e : KeyedEdge V A) :
    (setIfSame d attr x value e).1 = e.1 ∧ (setIfSame d attr x value e).2.1 = e.2.1 ∧
      (setIfSame d attr x value e).2.2.1 = e.2.2.1 := by
  unfold setIfSame; split <;> simp

theorem edgesKeys_setEdgeAttr (g : Graph V A) (x : KeyedEdge V A) (attr : String) (value : A) :
    (g.setEdgeAttr x.1 x.2.1 x.2.2.1 attr value).edgesKeys =
      g.edgesKeys.map (setIfSame g.directed attr x value) := by
  unfold edgesKeys
  have hn : (g.setEdgeAttr x.1 x.2.1 x.2.2.1 attr value).nodes = g.nodes := rfl
  rw [hn]
  generalize g.nodes = ns
  generalize ([] : List V) = seen
  induction ns generalizing seen with
  | nil => rfl
  | cons n ns ih =>
    simp only [edgesFrom]
    rw [ih, List.map_append, adj_setEdgeAttr, List.filter_map, List.flatMap_map, List.map_flatMap]
    congr 1
    apply List.flatMap_congr
    intro p hp
    simp only [List.map_map]
    apply List.map_congr_left
    intro ka _
    obtain ⟨h1, h2, h3⟩ := setIfSame_fst g.directed attr x value (n, p.1, ka.1, ka.2)
    simp only [Function.comp]
    ext <;> simp_all

theorem WF.setEdgeAttr {g : Graph V A} (h : g.WF) (u v : V) (k : PyKey) (attr : String) (value : A) :
    (g.setEdgeAttr u v k attr value).WF := by
  have hdata : ∀ d : Dict PyKey (Attrs A), Dict.keys (d.map (fun ka =>
      if ka.1 = k then (ka.1, ka.2.set (.str attr) value) else ka)) = Dict.keys d := by
    intro d
    unfold Dict.keys
    rw [List.map_map]
    apply List.map_congr_left
    intro ka _
    simp only [Function.comp]
    split <;> rfl
  constructor
  · exact h.attrs
  · exact h.nodup
  · exact h.nodeAttrs
  · intro l hl
    obtain ⟨m, hm, rfl⟩ := List.mem_map.1 hl
    have := h.ends m hm
    split <;> exact this
  · show (g.links.map _).Pairwise _
    rw [List.pairwise_map]
    refine h.uniq.imp ?_
    intro l m hs
    show samePair g.directed _ _ _ _ = false
    split <;> split <;> exact hs
  · intro l hl
    obtain ⟨m, hm, rfl⟩ := List.mem_map.1 hl
    have := h.nonempty m hm
    split
    · simpa using this
    · exact this
  · intro l hl
    obtain ⟨m, hm, rfl⟩ := List.mem_map.1 hl
    have := h.keys m hm
    split
    · simp only; rw [hdata]; exact this
    · exact this
  · intro l hl p hp
    obtain ⟨m, hm, rfl⟩ := List.mem_map.1 hl
    have := h.edgeAttrs m hm
    split at hp
    · obtain ⟨q, hq, rfl⟩ := List.mem_map.1 hp
      have := this q hq
      split
      · exact Dict.nodup_set _ _ this
      · exact this
    · exact this p hp
  · intro hs l hl
    obtain ⟨m, hm, rfl⟩ := List.mem_map.1 hl
    have := h.simple hs m hm
    split
    · simp only; rw [hdata]; exact this
    · exact this

/-- Set the attribute of several edges, each to its own value. -/
def setAll (attr : String) (l : List (KeyedEdge V A × A)) (g : Graph V A) : Graph V A :=
  l.foldl (fun g x => g.setEdgeAttr x.1.1 x.1.2.1 x.1.2.2.1 attr x.2) g

theorem setAll_frame (attr : String) (l : List (KeyedEdge V A × A)) (g : Graph V A) :
    (setAll attr l g).directed = g.directed ∧ (setAll attr l g).multi = g.multi ∧
      (setAll attr l g).attrs = g.attrs ∧ (setAll attr l g).node = g.node := by
  induction l generalizing g with
  | nil => exact ⟨rfl, rfl, rfl, rfl⟩
  | cons x l ih => exact ih _

theorem setAll_wf (attr : String) (l : List (KeyedEdge V A × A)) {g : Graph V A} (h : g.WF) :
    (setAll attr l g).WF := by
  induction l generalizing g with
  | nil => exact h
  | cons x l ih => exact ih (WF.setEdgeAttr h _ _ _ _ _)

theorem setAll_edgesKeys (attr : String) (l : List (KeyedEdge V A × A)) (g : Graph V A) :
    (setAll attr l g).edgesKeys =
      g.edgesKeys.map (fun e => l.foldl (fun e x => setIfSame g.directed attr x.1 x.2 e) e) := by
  induction l generalizing g with
  | nil => simp [setAll]
  | cons x l ih =>
    show (setAll attr l (g.setEdgeAttr _ _ _ _ _)).edgesKeys = _
    rw [ih, edgesKeys_setEdgeAttr, List.map_map]
    rfl

theorem sameEdge_self (d : Bool) (e : KeyedEdge V A) : sameEdge d e e = true := by
  simp [sameEdge, samePair_refl]

theorem foldl_setIfSame_none (d : Bool) (attr : String) (l : List (KeyedEdge V A × A)) (e : KeyedEdge V A)
    (h : ∀ x ∈ l, sameEdge d x.1 e = false) :
    l.foldl (fun e x => setIfSame d attr x.1 x.2 e) e = e := by
  induction l with
  | nil => rfl
  | cons x l ih =>
    have h1 := h x (by simp)
    have : setIfSame d attr x.1 x.2 e = e := by simp [setIfSame, h1]
    rw [List.foldl_cons, this]
    exact ih (fun x hx => h x (by simp [hx]))

theorem sameEdge_congr {d : Bool} {x e e' : KeyedEdge V A} (h1 : e.1 = e'.1) (h2 : e.2.1 = e'.2.1)
    (h3 : e.2.2.1 = e'.2.2.1) : sameEdge d x e = sameEdge d x e' := by
  simp [sameEdge, h1, h2, h3]

theorem foldl_setIfSame_mem (d : Bool) (attr : String) {l : List (KeyedEdge V A × A)} {e : KeyedEdge V A} {value : A}
    (hm : (e, value) ∈ l) (hpw : l.Pairwise (fun x y => sameEdge d x.1 y.1 = false ∧ sameEdge d y.1 x.1 = false)) :
    l.foldl (fun e x => setIfSame d attr x.1 x.2 e) e = (e.1, e.2.1, e.2.2.1, e.2.2.2.set (.str attr) value) := by
  induction l with
  | nil => cases hm
  | cons x l ih =>
    rw [List.pairwise_cons] at hpw
    rw [List.foldl_cons]
    rcases List.mem_cons.1 hm with rfl | hm
    · have : setIfSame d attr e value e = (e.1, e.2.1, e.2.2.1, e.2.2.2.set (.str attr) value) := by
        simp [setIfSame, sameEdge_self]
      simp only [this]
      apply foldl_setIfSame_none
      intro y hy
      rw [← (hpw.1 y hy).2]
      exact sameEdge_congr rfl rfl rfl
    · have : setIfSame d attr x.1 x.2 e = e := by
        have := (hpw.1 _ hm).1
        simp only at this
        simp [setIfSame, this]
      rw [this]
      exact ih hm hpw.2

theorem edgesKeys_distinct {g : Graph V A} (h : g.WF) :
    g.edgesKeys.Pairwise (fun x y => sameEdge g.directed x y = false ∧ sameEdge g.directed y x = false) := by
  rw [edgesKeys_eq g h.nodup, List.pairwise_flatMap]
  constructor
  · intro l hl
    unfold expand
    rw [List.pairwise_map]
    have hk : l.data.keys.Nodup := by
      obtain ⟨m, hm, rfl⟩ := (mem_groups h).1 hl
      rw [orient_data]; exact h.keys m hm
    unfold Dict.keys at hk
    rw [List.Nodup, List.pairwise_map] at hk
    refine hk.imp ?_
    intro a b hab
    simp [sameEdge, hab, Ne.symm hab]
  · refine (groups_uniq h).imp ?_
    intro l m hs x hx y hy
    obtain ⟨a, _, rfl⟩ := List.mem_map.1 hx
    obtain ⟨b, _, rfl⟩ := List.mem_map.1 hy
    have hs' := hs
    rw [samePair_comm] at hs'
    simp [sameEdge, hs, hs']

/-- Setting the attribute of some of the edges of the graph. -/
theorem setAll_listed {g : Graph V A} (h : g.WF) (attr : String) (p : KeyedEdge V A → Bool)
    (value : KeyedEdge V A → A) :
    (setAll attr ((g.edgesKeys.filter p).map (fun e => (e, value e))) g).edgesKeys =
      g.edgesKeys.map (fun e => if p e then (e.1, e.2.1, e.2.2.1, e.2.2.2.set (.str attr) (value e)) else e) := by
  rw [setAll_edgesKeys]
  apply List.map_congr_left
  intro e he
  have hd := edgesKeys_distinct h
  split
  · rename_i hp
    refine foldl_setIfSame_mem _ _ (List.mem_map.2 ⟨e, List.mem_filter.2 ⟨he, hp⟩, rfl⟩) ?_
    rw [List.pairwise_map]
    exact hd.filter _
  · rename_i hp
    apply foldl_setIfSame_none
    intro x hx
    obtain ⟨y, hy, rfl⟩ := List.mem_map.1 hx
    simp only [List.mem_filter] at hy
    have hne : y ≠ e := by rintro rfl; exact hp hy.2
    have hsym : Std.Symm (fun x y : KeyedEdge V A => sameEdge g.directed x y = false ∧ sameEdge g.directed y x = false) :=
      ⟨fun _ _ h => ⟨h.2, h.1⟩⟩
    exact (hd.forall hy.1 he hne).1

section
variable {K : Type} [Field K] [LinearOrder K]

theorem flagLoop_eq (attr : String) (es : List (KeyedEdge V (Val K))) (g : Graph V (Val K)) (err : Option PyErr) :
    Sparsifier.flagLoop attr es err g =
      (setAll attr (es.map (fun e => (e, .bool true))) g, match err with | none => .ok () | some e => .error e) := by
  induction es generalizing g with
  | nil => cases err <;> rfl
  | cons e es ih =>
    obtain ⟨u, v, k, a⟩ := e
    simp only [Sparsifier.flagLoop, ih]
    rfl

theorem flagFullLoop_ok (attr : String) (negate : Bool) {pred : EdgePred V (Val K)}
    {p : V → V → Attrs (Val K) → Bool} {es : List (KeyedEdge V (Val K))}
    (h : ∀ e ∈ es, pred e.1 e.2.1 e.2.2.2 = .ok (p e.1 e.2.1 e.2.2.2)) (g : Graph V (Val K)) :
    Sparsifier.flagFullLoop attr negate pred es g =
      (setAll attr (es.map (fun e => (e, .bool (p e.1 e.2.1 e.2.2.2 != negate)))) g, .ok ()) := by
  induction es generalizing g with
  | nil => rfl
  | cons e es ih =>
    obtain ⟨u, v, k, a⟩ := e
    have h1 := h (u, v, k, a) (by simp)
    simp only at h1
    simp only [Sparsifier.flagFullLoop, h1, ih (fun e he => h e (by simp [he]))]
    rfl

/-- The full flagging loop, raising or not, sets the attribute of some edges and does nothing else. -/
theorem flagFullLoop_sets (attr : String) (negate : Bool) (pred : EdgePred V (Val K))
    (es : List (KeyedEdge V (Val K))) (g : Graph V (Val K)) :
    ∃ l, (Sparsifier.flagFullLoop attr negate pred es g).1 = setAll attr l g := by
  induction es generalizing g with
  | nil => exact ⟨[], rfl⟩
  | cons e es ih =>
    obtain ⟨u, v, k, a⟩ := e
    simp only [Sparsifier.flagFullLoop]
    cases pred u v a with
    | error e => exact ⟨[], rfl⟩
    | ok b =>
      obtain ⟨l, hl⟩ := ih (g.setEdgeAttr u v k attr (.bool (b != negate)))
      exact ⟨((u, v, k, a), .bool (b != negate)) :: l, hl⟩
end

theorem erase_set (a : Attrs A) (k : PyKey) (x : A) : (a.set k x).erase k = a.erase k := by
  induction a with
  | nil => simp [Dict.set, Dict.erase]
  | cons kv a ih =>
    obtain ⟨k', v⟩ := kv
    unfold Dict.set
    split
    · rename_i h; subst h; simp [Dict.erase]
    · unfold Dict.erase at ih ⊢
      simp only [List.filter_cons, ih]

theorem setAll_erase (attr : String) (l : List (KeyedEdge V A × A)) (g : Graph V A) :
    (setAll attr l g).edgesKeys.map (fun e => (e.1, e.2.1, e.2.2.1, e.2.2.2.erase (.str attr))) =
      g.edgesKeys.map (fun e => (e.1, e.2.1, e.2.2.1, e.2.2.2.erase (.str attr))) := by
  rw [setAll_edgesKeys, List.map_map]
  apply List.map_congr_left
  intro e he
  clear he
  simp only [Function.comp]
  induction l generalizing e with
  | nil => rfl
  | cons x l ih =>
    rw [List.foldl_cons, ih]
    unfold setIfSame
    split
    · simp [erase_set]
    · rfl

end Pelote
