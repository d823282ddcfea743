import Verif.Props.GraphEdit
import Verif.Props.Graphology
import Verif.Lemmas.Reorder

/-! Property C75: comparing graphs is an equivalence relation, between simple graphs of the same kind. -/
namespace Pelote
variable {V A : Type} [DecidableEq V]
open Graph

section
variable [DecidableEq A] {a b c : Graph V A}

/-- C75.  A simple graph is the same as any listing of itself in another order. -/
theorem areSameGraphs_of_same (ha : a.WF) (hb : b.WF) (hm : a.multi = false) (s : a.Same b) (check : Bool) :
    areSameGraphs a b check = .ok true := by
  obtain ⟨r, h1, h2⟩ := areSameGraphs_iff ha hb hm (s.multi ▸ hm) s.directed check
  rw [h1, h2.2 ⟨⟨s.mem_nodes, fun u v => s.hasEdge ha hb u v⟩, fun _ => ⟨?_, ?_⟩⟩]
  · intro n x hx
    exact ⟨x, by rw [← s.node]; exact hx, fun _ => rfl⟩
  · intro u v k x hx
    exact ⟨x, by rw [← s.edge]; exact hx, fun _ => rfl⟩

/-- C75.  Reflexivity. -/
theorem areSameGraphs_refl (ha : a.WF) (hm : a.multi = false) (check : Bool) : areSameGraphs a a check = .ok true :=
  areSameGraphs_of_same ha ha hm ⟨rfl, rfl, rfl, fun _ => rfl, fun _ _ _ => rfl⟩ check

/-- C75.  Symmetry: both orders of the arguments give the same answer. -/
theorem areSameGraphs_comm (ha : a.WF) (hb : b.WF) (hma : a.multi = false) (hmb : b.multi = false)
    (hd : a.directed = b.directed) (check : Bool) : areSameGraphs a b check = areSameGraphs b a check := by
  have key : ∀ {a b : Graph V A}, a.WF → b.WF → a.multi = false → b.multi = false → SameShape a b → SameAttributes a b →
      SameAttributes b a := by
    intro a b ha hb hma hmb s t
    constructor
    · intro n x hx
      have hn : n ∈ a.nodes := (s.nodes n).2 (by by_contra hc; rw [Dict.get?_eq_none_iff.2 hc] at hx; cases hx)
      obtain ⟨y, hy⟩ : ∃ y, a.node.get? n = some y := by
        cases hg : a.node.get? n with
        | some y => exact ⟨y, rfl⟩
        | none => exact absurd hn (Dict.get?_eq_none_iff.1 hg)
      obtain ⟨z, hz, he⟩ := t.node n y hy
      rw [hx] at hz; cases hz
      exact ⟨y, hy, fun k => (he k).symm⟩
    · intro u v k x hx
      have hk : k = .int 0 := by
        by_contra hk
        rw [edge?_simple hb hmb hk] at hx; cases hx
      subst hk
      have hu : a.hasEdge u v = true := by rw [s.edges]; exact hasEdge_of_edge? hx
      obtain ⟨y, hy⟩ := edge?_of_hasEdge ha hma hu
      obtain ⟨z, hz, he⟩ := t.edge u v _ y hy
      rw [hx] at hz; cases hz
      exact ⟨y, hy, fun k => (he k).symm⟩
  obtain ⟨r, h1, h2⟩ := areSameGraphs_iff ha hb hma hmb hd check
  obtain ⟨r', h1', h2'⟩ := areSameGraphs_iff hb ha hmb hma hd.symm check
  rw [h1, h1']
  congr 1
  rw [Bool.eq_iff_iff, h2, h2']
  constructor
  · rintro ⟨s, t⟩
    exact ⟨⟨fun n => (s.nodes n).symm, fun u v => (s.edges u v).symm⟩, fun hc => key ha hb hma hmb s (t hc)⟩
  · rintro ⟨s, t⟩
    exact ⟨⟨fun n => (s.nodes n).symm, fun u v => (s.edges u v).symm⟩, fun hc => key hb ha hmb hma s (t hc)⟩

/-- C75.  Transitivity. -/
theorem areSameGraphs_trans (ha : a.WF) (hb : b.WF) (hc : c.WF) (hma : a.multi = false) (hmb : b.multi = false)
    (hmc : c.multi = false) (hab : a.directed = b.directed) (hbc : b.directed = c.directed) {check : Bool}
    (h1 : areSameGraphs a b check = .ok true) (h2 : areSameGraphs b c check = .ok true) :
    areSameGraphs a c check = .ok true := by
  obtain ⟨r, e1, k1⟩ := areSameGraphs_iff ha hb hma hmb hab check
  obtain ⟨r', e2, k2⟩ := areSameGraphs_iff hb hc hmb hmc hbc check
  obtain ⟨r'', e3, k3⟩ := areSameGraphs_iff ha hc hma hmc (hab.trans hbc) check
  rw [h1] at e1; cases e1
  rw [h2] at e2; cases e2
  obtain ⟨s1, t1⟩ := k1.1 rfl
  obtain ⟨s2, t2⟩ := k2.1 rfl
  rw [e3, k3.2 ⟨⟨fun n => (s1.nodes n).trans (s2.nodes n), fun u v => (s1.edges u v).trans (s2.edges u v)⟩, fun hk => ⟨?_, ?_⟩⟩]
  · intro n x hx
    obtain ⟨y, hy, hxy⟩ := (t1 hk).node n x hx
    obtain ⟨z, hz, hyz⟩ := (t2 hk).node n y hy
    exact ⟨z, hz, fun k => (hxy k).trans (hyz k)⟩
  · intro u v k x hx
    obtain ⟨y, hy, hxy⟩ := (t1 hk).edge u v k x hx
    obtain ⟨z, hz, hyz⟩ := (t2 hk).edge u v k y hy
    exact ⟨z, hz, fun k => (hxy k).trans (hyz k)⟩

/-- C75.  Attributes are only one more thing to compare. -/
theorem areSameGraphs_unchecked (ha : a.WF) (hb : b.WF) (hma : a.multi = false) (hmb : b.multi = false)
    (hd : a.directed = b.directed) (h : areSameGraphs a b true = .ok true) : areSameGraphs a b false = .ok true := by
  obtain ⟨r, e1, k1⟩ := areSameGraphs_iff ha hb hma hmb hd true
  obtain ⟨r', e2, k2⟩ := areSameGraphs_iff ha hb hma hmb hd false
  rw [h] at e1; cases e1
  rw [e2, k2.2 ⟨(k1.1 rfl).1, fun hc => by cases hc⟩]

end

/-- C75.  A simple graph whose keys are strings is the same as the one read from its own JSON. -/
theorem areSameGraphs_roundtrip [DecidableEq Data] {g : Graph PyKey Data} (hwf : g.WF) (hs : g.multi = false)
    (hk : ∀ n ∈ g.nodes, ∃ s, n = .str s) {m i : Bool} (hr : Readable g) (check : Bool) :
    ∃ doc h, writeGraphologyJson g m i = .ok doc ∧ readGraphologyJson (.dict doc) = .ok h ∧
      areSameGraphs g h check = .ok true := by
  obtain ⟨doc, h, h1, h2, h3, h4, -⟩ := graphology_roundtrip_str hwf hs hk (m := m) (i := i) hr
  exact ⟨doc, h, h1, h2, areSameGraphs_of_same hwf h3 hs h4.symm check⟩

/-! ### Graphs of different kinds -/

/-- One arc from 2 to 1. -/
def arc21 : Graph Int Int := ⟨true, false, [], [(1, []), (2, [])], [⟨2, 1, [(.int 0, [])]⟩]⟩

/-- One arc from 1 to 2. -/
def arc12 : Graph Int Int := ⟨true, false, [], [(1, []), (2, [])], [⟨1, 2, [(.int 0, [])]⟩]⟩

/-- One undirected edge. -/
def edge12 : Graph Int Int := ⟨false, false, [], [(1, []), (2, [])], [⟨1, 2, [(.int 0, [])]⟩]⟩

/-- C75 is false of graphs of different kinds: the comparison is then neither symmetric nor transitive. -/
theorem areSameGraphs_kinds :
    arc21.WF ∧ arc12.WF ∧ edge12.WF ∧
      areSameGraphs arc21 edge12 true = .ok true ∧ areSameGraphs edge12 arc21 true = .ok false ∧
      areSameGraphs edge12 arc12 true = .ok true ∧ areSameGraphs arc21 arc12 true = .ok false := by
  refine ⟨by constructor <;> decide, by constructor <;> decide, by constructor <;> decide, ?_, ?_, ?_, ?_⟩ <;> decide +kernel

end Pelote
