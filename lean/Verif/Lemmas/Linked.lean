import Verif.Spec.Linked
import Mathlib.Data.List.Basic

/-! Lemmas about `Linked`. -/
namespace Pelote
variable {α : Type}

theorem Linked.refl (ps : List (α × α)) (x : α) : Linked ps x x := Relation.EqvGen.refl _
theorem Linked.symm {ps : List (α × α)} {x y : α} (h : Linked ps x y) : Linked ps y x :=
  Relation.EqvGen.symm _ _ h
theorem Linked.trans {ps : List (α × α)} {x y z : α} (h : Linked ps x y) (h' : Linked ps y z) :
    Linked ps x z := Relation.EqvGen.trans _ _ _ h h'
theorem Linked.of_mem {ps : List (α × α)} {x y : α} (h : (x, y) ∈ ps) : Linked ps x y :=
  Relation.EqvGen.rel _ _ h

theorem linked_comm {ps : List (α × α)} {x y : α} : Linked ps x y ↔ Linked ps y x :=
  ⟨Linked.symm, Linked.symm⟩

theorem Linked.mono {ps qs : List (α × α)} (h : ∀ p ∈ ps, p ∈ qs) {x y : α} (hl : Linked ps x y) :
    Linked qs x y := by
  induction hl with
  | rel a b hab => exact .of_mem (h _ hab)
  | refl a => exact .refl _ _
  | symm a b _ ih => exact ih.symm
  | trans a b c _ _ ih1 ih2 => exact ih1.trans ih2

/-- A function constant along the pairs is constant along `Linked`. -/
theorem Linked.lift {β : Type} {ps : List (α × α)} (f : α → β) (h : ∀ a b, (a, b) ∈ ps → f a = f b)
    {x y : α} (hl : Linked ps x y) : f x = f y := by
  induction hl with
  | rel a b hab => exact h _ _ hab
  | refl a => rfl
  | symm a b _ ih => exact ih.symm
  | trans a b c _ _ ih1 ih2 => exact ih1.trans ih2

/-- If each pair of `ps` is linked by `qs`, `Linked ps` is contained in `Linked qs`. -/
theorem Linked.bind {ps qs : List (α × α)} (h : ∀ a b, (a, b) ∈ ps → Linked qs a b) {x y : α}
    (hl : Linked ps x y) : Linked qs x y := by
  induction hl with
  | rel a b hab => exact h _ _ hab
  | refl a => exact .refl _ _
  | symm a b _ ih => exact ih.symm
  | trans a b c _ _ ih1 ih2 => exact ih1.trans ih2

@[simp] theorem linked_nil {x y : α} : Linked ([] : List (α × α)) x y ↔ x = y := by
  constructor
  · intro h; exact h.lift id (by simp)
  · rintro rfl; exact .refl _ _

/-- Adding one pair merges two classes. -/
theorem linked_cons {ps : List (α × α)} {a b x y : α} :
    Linked ((a, b) :: ps) x y ↔
      Linked ps x y ∨ (Linked ps x a ∧ Linked ps b y) ∨ (Linked ps x b ∧ Linked ps a y) := by
  constructor
  · intro h
    induction h with
    | rel u v huv =>
      rcases List.mem_cons.1 huv with h | h
      · simp only [Prod.mk.injEq] at h
        obtain ⟨rfl, rfl⟩ := h
        exact .inr (.inl ⟨.refl _ _, .refl _ _⟩)
      · exact .inl (.of_mem h)
    | refl u => exact .inl (.refl _ _)
    | symm u v _ ih =>
      rcases ih with h | ⟨h, h'⟩ | ⟨h, h'⟩
      · exact .inl h.symm
      · exact .inr (.inr ⟨h'.symm, h.symm⟩)
      · exact .inr (.inl ⟨h'.symm, h.symm⟩)
    | trans u v w _ _ ih1 ih2 =>
      rcases ih1 with h | ⟨h, h'⟩ | ⟨h, h'⟩ <;> rcases ih2 with k | ⟨k, k'⟩ | ⟨k, k'⟩
      · exact .inl (h.trans k)
      · exact .inr (.inl ⟨h.trans k, k'⟩)
      · exact .inr (.inr ⟨h.trans k, k'⟩)
      · exact .inr (.inl ⟨h, h'.trans k⟩)
      · exact .inr (.inl ⟨h, k'⟩)
      · exact .inl (h.trans k')
      · exact .inr (.inr ⟨h, h'.trans k⟩)
      · exact .inl (h.trans k')
      · exact .inr (.inr ⟨h, k'⟩)
  · have hm : ∀ p ∈ ps, p ∈ (a, b) :: ps := fun _ hp => List.mem_cons_of_mem _ hp
    have hab : Linked ((a, b) :: ps) a b := .of_mem (by simp)
    rintro (h | ⟨h, h'⟩ | ⟨h, h'⟩)
    · exact h.mono hm
    · exact (h.mono hm).trans (hab.trans (h'.mono hm))
    · exact (h.mono hm).trans (hab.symm.trans (h'.mono hm))

theorem linked_cons_of_linked {ps : List (α × α)} {a b x y : α} (hab : Linked ps a b) :
    Linked ((a, b) :: ps) x y ↔ Linked ps x y := by
  constructor
  · intro h
    exact h.bind (fun u v huv => by
      rcases List.mem_cons.1 huv with h | h
      · simp only [Prod.mk.injEq] at h; obtain ⟨rfl, rfl⟩ := h; exact hab
      · exact .of_mem h)
  · exact Linked.mono (fun _ hp => List.mem_cons_of_mem _ hp)

/-- Only the endpoints of the pairs can be linked to something else. -/
theorem Linked.eq_or_mem {ps : List (α × α)} {x y : α} (h : Linked ps x y) :
    x = y ∨ ((∃ p ∈ ps, x = p.1 ∨ x = p.2) ∧ (∃ p ∈ ps, y = p.1 ∨ y = p.2)) := by
  induction h with
  | rel a b hab => exact .inr ⟨⟨_, hab, .inl rfl⟩, ⟨_, hab, .inr rfl⟩⟩
  | refl a => exact .inl rfl
  | symm a b _ ih =>
    rcases ih with h | ⟨h, h'⟩
    · exact .inl h.symm
    · exact .inr ⟨h', h⟩
  | trans a b c _ _ ih1 ih2 =>
    rcases ih1 with rfl | ⟨h, h'⟩
    · exact ih2
    · rcases ih2 with rfl | ⟨k, k'⟩
      · exact .inr ⟨h, h'⟩
      · exact .inr ⟨h, k'⟩

/-- Linking along an injective map. -/
theorem linked_map_iff {β : Type} {f : α → β} {ps : List (α × α)} {S : α → Prop}
    (hps : ∀ p ∈ ps, S p.1 ∧ S p.2) (hf : ∀ a b, S a → S b → f a = f b → a = b) {x y : α}
    (hx : S x) (hy : S y) :
    Linked (ps.map (fun p => (f p.1, f p.2))) (f x) (f y) ↔ Linked ps x y := by
  constructor
  · intro h
    -- every element linked to `f x` is `f z` for some `z` linked to `x`
    have key : ∀ u v, Linked (ps.map (fun p => (f p.1, f p.2))) u v →
        (∀ a, S a → f a = u → ∃ b, S b ∧ f b = v ∧ Linked ps a b) ∧
        (∀ b, S b → f b = v → ∃ a, S a ∧ f a = u ∧ Linked ps a b) := by
      intro u v h
      induction h with
      | rel u v huv =>
        obtain ⟨p, hp, hpe⟩ := List.mem_map.1 huv
        simp only [Prod.mk.injEq] at hpe
        obtain ⟨h1, h2⟩ := hpe
        constructor
        · intro a ha e
          have : a = p.1 := hf _ _ ha (hps p hp).1 (e.trans h1.symm)
          subst this
          exact ⟨p.2, (hps p hp).2, h2, .of_mem hp⟩
        · intro b hb e
          have : b = p.2 := hf _ _ hb (hps p hp).2 (e.trans h2.symm)
          subst this
          exact ⟨p.1, (hps p hp).1, h1, .of_mem hp⟩
      | refl u => exact ⟨fun a ha e => ⟨a, ha, e, .refl _ _⟩, fun a ha e => ⟨a, ha, e, .refl _ _⟩⟩
      | symm u v _ ih =>
        refine ⟨fun a ha e => ?_, fun a ha e => ?_⟩
        · obtain ⟨b, hb, e', l⟩ := ih.2 a ha e; exact ⟨b, hb, e', l.symm⟩
        · obtain ⟨b, hb, e', l⟩ := ih.1 a ha e; exact ⟨b, hb, e', l.symm⟩
      | trans u v w _ _ ih1 ih2 =>
        refine ⟨fun a ha e => ?_, fun a ha e => ?_⟩
        · obtain ⟨b, hb, e', l⟩ := ih1.1 a ha e
          obtain ⟨c, hc, e'', l'⟩ := ih2.1 b hb e'
          exact ⟨c, hc, e'', l.trans l'⟩
        · obtain ⟨b, hb, e', l⟩ := ih2.2 a ha e
          obtain ⟨c, hc, e'', l'⟩ := ih1.2 b hb e'
          exact ⟨c, hc, e'', l'.trans l⟩
    obtain ⟨b, hb, e, l⟩ := (key _ _ h).1 x hx rfl
    have : b = y := hf _ _ hb hy e
    exact this ▸ l
  · intro h
    induction h with
    | rel a b hab => exact .of_mem (List.mem_map.2 ⟨_, hab, rfl⟩)
    | refl a => exact .refl _ _
    | symm a b _ ih => exact (ih hy hx).symm
    | trans a b c h1 h2 ih1 ih2 =>
      have hb : S b := by
        rcases Linked.eq_or_mem h1 with rfl | ⟨_, ⟨p, hp, rfl | rfl⟩⟩
        · exact hx
        · exact (hps p hp).1
        · exact (hps p hp).2
      exact (ih1 hx hb).trans (ih2 hb hy)

end Pelote
