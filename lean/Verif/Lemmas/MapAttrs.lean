import Verif.Spec.TableProjection
import Verif.Lemmas.Graph
import Mathlib.Data.String.Basic
import Mathlib.Data.Prod.Lex
import Mathlib.Data.Finset.Image

/-! Changing the attribute values of a graph, and a linear order on node keys. -/
namespace Pelote

theorem get?_mapSnd {κ α β : Type} [DecidableEq κ] (f : α → β) (d : Dict κ α) (k : κ) :
    Dict.get? (d.map (fun p => (p.1, f p.2))) k = (Dict.get? d k).map f := by
  induction d with
  | nil => rfl
  | cons p d ih =>
    obtain ⟨k', x⟩ := p
    rw [List.map_cons, Dict.get?_cons, Dict.get?_cons, ih]
    split <;> rfl

theorem keys_mapSnd {κ α β : Type} (f : α → β) (d : Dict κ α) :
    Dict.keys (d.map (fun p => (p.1, f p.2))) = d.keys := by
  simp [Dict.keys]

namespace Graph
variable {V A B : Type} [DecidableEq V] (f : A → B)

theorem nodes_mapAttrs (g : Graph V A) : (g.mapAttrs f).nodes = g.nodes := by
  unfold nodes mapAttrs
  exact keys_mapSnd (fun a : Attrs A => a.map (fun q => (q.1, f q.2))) g.node

theorem node_mapAttrs (g : Graph V A) (n : V) :
    (g.mapAttrs f).node.get? n = (g.node.get? n).map (fun a => a.map (fun q => (q.1, f q.2))) :=
  get?_mapSnd _ _ _

theorem keydict?_mapAttrs (g : Graph V A) (u v : V) :
    (g.mapAttrs f).keydict? u v =
      (g.keydict? u v).map (fun d => d.map (fun p => (p.1, p.2.map (fun q => (q.1, f q.2))))) := by
  unfold keydict? mapAttrs
  rw [List.find?_map, Option.map_map, Option.map_map]
  rfl

theorem hasEdge_mapAttrs (g : Graph V A) (u v : V) : (g.mapAttrs f).hasEdge u v = g.hasEdge u v := by
  unfold hasEdge
  rw [keydict?_mapAttrs, Option.isSome_map]

theorem wf_mapAttrs {g : Graph V A} (h : g.WF) : (g.mapAttrs f).WF where
  attrs := by
    have := keys_mapSnd f g.attrs
    show (Dict.keys (g.attrs.map _)).Nodup
    rw [this]; exact h.attrs
  nodup := by rw [nodes_mapAttrs]; exact h.nodup
  nodeAttrs := by
    intro p hp
    obtain ⟨q, hq, rfl⟩ := List.mem_map.1 hp
    show (Dict.keys (q.2.map _)).Nodup
    rw [keys_mapSnd]; exact h.nodeAttrs q hq
  ends := by
    intro l hl
    obtain ⟨l', hl', rfl⟩ := List.mem_map.1 hl
    rw [nodes_mapAttrs]; exact h.ends l' hl'
  uniq := List.pairwise_map.2 h.uniq
  nonempty := by
    intro l hl
    obtain ⟨l', hl', rfl⟩ := List.mem_map.1 hl
    simp only [ne_eq, List.map_eq_nil_iff]
    exact h.nonempty l' hl'
  keys := by
    intro l hl
    obtain ⟨l', hl', rfl⟩ := List.mem_map.1 hl
    show (Dict.keys (l'.data.map _)).Nodup
    rw [keys_mapSnd]; exact h.keys l' hl'
  edgeAttrs := by
    intro l hl p hp
    obtain ⟨l', hl', rfl⟩ := List.mem_map.1 hl
    obtain ⟨q, hq, rfl⟩ := List.mem_map.1 hp
    show (Dict.keys (q.2.map _)).Nodup
    rw [keys_mapSnd]; exact h.edgeAttrs l' hl' q hq
  simple := by
    intro hm l hl
    obtain ⟨l', hl', rfl⟩ := List.mem_map.1 hl
    show Dict.keys (l'.data.map _) = _
    rw [keys_mapSnd]; exact h.simple hm l' hl'

end Graph

/-! ### A linear order on keys -/

/-- Integers before strings before the rest. -/
def keyRank : PyKey → ℕ ×ₗ ℤ ×ₗ String ×ₗ String
  | .int i => toLex (0, toLex (i, toLex ("", "")))
  | .str s => toLex (1, toLex (0, toLex (s, "")))
  | .bool b => toLex (2, toLex (if b then 1 else 0, toLex ("", "")))
  | .other t r => toLex (3, toLex (0, toLex (t, r)))

theorem keyRank_injective : Function.Injective keyRank := by
  intro a b h
  cases a <;> cases b <;> simp only [keyRank, toLex_inj, Prod.mk.injEq] at h
  all_goals first
    | (exfalso; omega)
    | (obtain ⟨_, h, h'⟩ := h; simp_all)
  rename_i x y
  cases x <;> cases y <;> simp_all

/-- A linear order agreeing with Python's on integers and on strings. -/
@[reducible] def keyOrder : LinearOrder PyKey :=
  { LinearOrder.lift' keyRank keyRank_injective with
    toDecidableEq := instDecidableEqPyKey
    compare_eq_compareOfLessAndEq := fun a b =>
      ((LinearOrder.lift' keyRank keyRank_injective).compare_eq_compareOfLessAndEq a b).trans (by congr!) }

theorem keyOrder_int (i j : Int) : keyOrder.lt (.int i) (.int j) ↔ i < j := by
  show keyRank (.int i) < keyRank (.int j) ↔ _
  simp [keyRank, Prod.Lex.toLex_lt_toLex]

theorem keyOrder_str (s t : String) : keyOrder.lt (.str s) (.str t) ↔ s < t := by
  show keyRank (.str s) < keyRank (.str t) ↔ _
  simp [keyRank, Prod.Lex.toLex_lt_toLex]

/-! ### Similarity along an injection -/

theorem similarity_image {V W K : Type} [DecidableEq V] [DecidableEq W] [Field K] [LinearOrder K] [PyMath K] (kind : Metric)
    (A B : Finset V) (f : V → W) (hf : Set.InjOn f (A ∪ B : Finset V)) {a b : V → K} {a' b' : W → K}
    (ha : ∀ t ∈ A, a' (f t) = a t) (hb : ∀ t ∈ B, b' (f t) = b t) :
    similarity kind (A.image f) (B.image f) a' b' = similarity kind A B a b := by
  have hA : Set.InjOn f A := hf.mono (by simp)
  have hB : Set.InjOn f B := hf.mono (by simp)
  have hi : A.image f ∩ B.image f = (A ∩ B).image f := by
    rw [Finset.image_inter_of_injOn]
    simpa using hf
  have hu : A.image f ∪ B.image f = (A ∪ B).image f := (Finset.image_union _ _).symm
  have hI : Set.InjOn f (A ∩ B : Finset V) := hf.mono (by
    intro x hx
    simp only [Finset.coe_inter, Set.mem_inter_iff, Finset.mem_coe] at hx
    simp [hx.1])
  have c1 : (A.image f).card = A.card := Finset.card_image_of_injOn hA
  have c2 : (B.image f).card = B.card := Finset.card_image_of_injOn hB
  have c3 : ((A ∩ B).image f).card = (A ∩ B).card := Finset.card_image_of_injOn hI
  have c4 : ((A ∪ B).image f).card = (A ∪ B).card := Finset.card_image_of_injOn hf
  have s1 : ∑ t ∈ A.image f, a' t * a' t = ∑ t ∈ A, a t * a t := by
    rw [Finset.sum_image hA]
    exact Finset.sum_congr rfl (fun t ht => by rw [ha t ht])
  have s2 : ∑ t ∈ B.image f, b' t * b' t = ∑ t ∈ B, b t * b t := by
    rw [Finset.sum_image hB]
    exact Finset.sum_congr rfl (fun t ht => by rw [hb t ht])
  have s3 : ∑ t ∈ (A ∩ B).image f, a' t * b' t = ∑ t ∈ A ∩ B, a t * b t := by
    rw [Finset.sum_image hI]
    exact Finset.sum_congr rfl (fun t ht => by
      rw [ha t (Finset.mem_inter.1 ht).1, hb t (Finset.mem_inter.1 ht).2])
  cases kind <;> simp only [similarity, hi, hu, c1, c2, c3, c4, s1, s2, s3]

end Pelote
