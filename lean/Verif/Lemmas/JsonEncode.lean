import Verif.Lemmas.Json
import Verif.Lemmas.Dict

/-! Lemmas on the JSON encoder. -/
namespace Pelote
namespace Json

theorem imageList_eq (l : List Data) : imageList l = l.map image := by
  induction l with
  | nil => rfl
  | cons x l ih => simp [imageList, ih]

theorem imagePairs_eq (d : List (PyKey × Data)) :
    imagePairs d = d.map (fun p => (PyKey.str (jsonName p.1), image p.2)) := by
  induction d with
  | nil => rfl
  | cons p d ih => obtain ⟨k, x⟩ := p; simp [imagePairs, ih]

/-! ### Strings -/

theorem hexChar_isHex {n : Nat} (h : n < 16) : IsHex (hexChar n) n := by
  obtain rfl | rfl | rfl | rfl | rfl | rfl | rfl | rfl | rfl | rfl | rfl | rfl | rfl | rfl | rfl | rfl :
    n = 0 ∨ n = 1 ∨ n = 2 ∨ n = 3 ∨ n = 4 ∨ n = 5 ∨ n = 6 ∨ n = 7 ∨ n = 8 ∨ n = 9 ∨ n = 10 ∨ n = 11 ∨ n = 12 ∨
      n = 13 ∨ n = 14 ∨ n = 15 := by omega
  all_goals exact Or.inl (by decide)

theorem escapeU_eq {n : Nat} (h : n < 0x10000) : ∃ t, escapeU n = '\\' :: 'u' :: t ∧ Hex4 n t :=
  ⟨_, rfl, _, _, _, _, n / 4096 % 16, n / 256 % 16, n / 16 % 16, n % 16, rfl, hexChar_isHex (by omega),
    hexChar_isHex (by omega), hexChar_isHex (by omega), hexChar_isHex (by omega), by omega⟩

theorem encodeChar_renders (c : Char) : RendersChar c (encodeChar c) := by
  unfold encodeChar
  split
  · next s h =>
    simp only [escapes, Dict.get?] at h
    repeat' split at h
    all_goals first
      | (cases h; done)
      | (simp only [Option.some.injEq] at h; subst h; subst_vars; exact .short (by decide))
  · next h =>
    split
    · next hr =>
      refine .raw ?_ ?_ hr.1
      · rintro rfl; revert h; decide
      · rintro rfl; revert h; decide
    · split
      · next hlt =>
        obtain ⟨t, ht, hh⟩ := escapeU_eq hlt
        rw [ht]
        exact .basic hh
      · next hge =>
        have hs := char_scalar c
        obtain ⟨t, ht, hh⟩ := escapeU_eq (n := 0xd800 + (c.toNat - 0x10000) / 1024 % 1024) (by omega)
        obtain ⟨u, hu, hl⟩ := escapeU_eq (n := 0xdc00 + (c.toNat - 0x10000) % 1024) (by omega)
        rw [ht, hu]
        rw [show (c.toNat - 0x10000) / 1024 % 1024 = (c.toNat - 0x10000) / 0x400 by omega] at hh
        have hc : 0x10000 ≤ c.toNat := by omega
        exact RendersChar.pair hc hh hl

theorem flatMap_renders (s : List Char) : RendersChars s (s.flatMap encodeChar) := by
  induction s with
  | nil => exact .nil
  | cons c s ih => exact .cons (encodeChar_renders c) ih

theorem encodeString_renders (s : String) : Renders (.str s) (encodeString s) := by
  have := Renders.str (flatMap_renders s.toList)
  rwa [String.ofList_toList] at this

/-! ### Numbers -/

theorem toDigits_head (n : Nat) (h : n ≠ 0) : (Nat.toDigits 10 n).head? ≠ some '0' := by
  induction n using Nat.strongRecOn with
  | _ n ih =>
    by_cases hb : 10 ≤ n
    · rw [Nat.toDigits_of_base_le (by omega) hb, List.head?_append]
      have h1 := ih (n / 10) (by omega) (by omega)
      cases hh : (Nat.toDigits 10 (n / 10)).head? with
      | none =>
        have := List.head?_eq_none_iff.1 hh
        exact absurd this Nat.toDigits_ne_nil
      | some c => rw [hh] at h1; simpa using h1
    · rw [Nat.toDigits_of_lt_base (by omega)]
      obtain rfl | rfl | rfl | rfl | rfl | rfl | rfl | rfl | rfl :
        n = 1 ∨ n = 2 ∨ n = 3 ∨ n = 4 ∨ n = 5 ∨ n = 6 ∨ n = 7 ∨ n = 8 ∨ n = 9 := by omega
      all_goals decide

theorem natText_toDigits (n : Nat) : NatText (Nat.toDigits 10 n) := by
  refine ⟨⟨Nat.toDigits_ne_nil, fun c hc => Nat.isDigit_of_mem_toDigits (by omega) (by omega) hc⟩, ?_⟩
  intro h
  by_cases hn : n = 0
  · subst hn
    exact Nat.toDigits_zero 10
  · exact absurd h (toDigits_head n hn)

theorem toString_renders (i : Int) : Renders (.int i) (toString i).toList := by
  cases i with
  | ofNat n =>
    have := Renders.int (neg := false) (natText_toDigits n)
    simp only [minus, Bool.false_eq_true, if_false, List.nil_append, Nat.ofDigitChars_ten_toDigits] at this
    have h2 : (toString (Int.ofNat n)).toList = Nat.toDigits 10 n := Nat.toList_repr
    rw [h2]
    exact this
  | negSucc n =>
    have := Renders.int (neg := true) (natText_toDigits (n + 1))
    simp only [minus, if_true, Nat.ofDigitChars_ten_toDigits] at this
    have h2 : (toString (Int.negSucc n)).toList = ['-'] ++ Nat.toDigits 10 (n + 1) := by
      show ("-" ++ Nat.repr (n + 1)).toList = _
      rw [String.toList_append, Nat.toList_repr]
      rfl
    rw [h2]
    exact this

theorem encodeFloat_eq (r : String) : encodeFloat r = (floatText r).toList := by
  unfold encodeFloat floatText
  by_cases h1 : r = "nan"
  · subst h1; rfl
  by_cases h2 : r = "inf"
  · subst h2; rfl
  by_cases h3 : r = "-inf"
  · subst h3; rfl
  have e1 : (r == "nan") = false := by simpa using h1
  have e2 : (r == "inf") = false := by simpa using h2
  have e3 : (r == "-inf") = false := by simpa using h3
  simp [h1, h2, h3, List.lookup, e1, e2, e3]

theorem encodeFloat_renders {r : String} (h : FloatRepr r) : Renders (.obj "float" r) (encodeFloat r) := by
  rcases h with h | ⟨neg, s, f, e, hr, hs, hf, he, hfe⟩
  · simp only [List.mem_cons, List.not_mem_nil, or_false] at h
    rcases h with rfl | rfl | rfl
    · exact .nan
    · exact .inf
    · exact .negInf
  · have h1 := Renders.float (neg := neg) hs hf he hfe
    rw [← hr, String.ofList_toList] at h1
    obtain ⟨c, s', rfl, hc⟩ := natText_head hs
    have hne : ∀ t : String, (∃ d u, t.toList = d :: u ∧ d ≠ '-' ∧ d.isDigit = false) ∨
        (∃ d u, t.toList = '-' :: d :: u ∧ d.isDigit = false) → r ≠ t := by
      rintro t ht rfl
      rw [hr] at ht
      cases neg with
      | true =>
        rcases ht with ⟨d, u, h, hd, -⟩ | ⟨d, u, h, hd⟩
        · simp [minus] at h
          exact hd h.1.symm
        · simp [minus] at h
          rw [← h.1, hc] at hd
          cases hd
      | false =>
        rcases ht with ⟨d, u, h, -, hd⟩ | ⟨d, u, h, hd⟩
        · simp [minus] at h
          rw [← h.1, hc] at hd
          cases hd
        · simp [minus] at h
          rw [h.1] at hc
          exact absurd hc (by decide)
    have : encodeFloat r = r.toList := by
      unfold encodeFloat
      rw [if_neg (hne _ (Or.inl ⟨'n', _, rfl, by decide, by decide⟩)),
        if_neg (hne _ (Or.inl ⟨'i', _, rfl, by decide, by decide⟩)),
        if_neg (hne _ (Or.inr ⟨'i', _, rfl, by decide⟩))]
    rwa [this]

theorem encodeKey_ok {k : PyKey} (h : WritableName k) : encodeKey k = .ok (jsonName k) := by
  cases k with
  | int i => rfl
  | str s => rfl
  | bool b => cases b <;> rfl
  | other ty r =>
    rcases h with rfl | rfl
    · simp [encodeKey, jsonName, encodeFloat_eq]
    · rfl

theorem encodeKey_error {k : PyKey} (h : ¬ WritableName k) : ∃ t, encodeKey k = .error (.typeError t) := by
  cases k with
  | int i => exact absurd trivial h
  | str s => exact absurd trivial h
  | bool b => exact absurd trivial h
  | other ty r =>
    simp only [WritableName, not_or] at h
    exact ⟨_, by simp only [encodeKey]; rw [if_neg h.1, if_neg h.2]⟩

/-! ### Values -/

/-- The items after the first: a comma and a space before each. -/
def AfterItems (l : List Data) (t : List Char) : Prop :=
  (l = [] ∧ t = []) ∨ ∃ u, RendersItems l u ∧ t = ',' :: ' ' :: u

/-- The fields after the first: a comma and a space before each. -/
def AfterPairs (ps : List (String × Data)) (t : List Char) : Prop :=
  (ps = [] ∧ t = []) ∨ ∃ u, RendersPairs ps u ∧ t = ',' :: ' ' :: u

theorem ws_nil : Ws [] := by intro c hc; cases hc

theorem ws_space : Ws [' '] := by intro c hc; simpa using Or.inl (by simpa using hc)

theorem rendersItems_after {x : Data} {s t : List Char} {l : List Data} (hs : Renders x s) (h : AfterItems l t) :
    RendersItems (x :: l) (s ++ t) := by
  rcases h with ⟨rfl, rfl⟩ | ⟨u, hu, rfl⟩
  · exact .last hs ws_nil
  · have := RendersItems.cons hs ws_nil ws_space hu
    simpa using this

theorem rendersPairs_after {k : String} {x : Data} {s t : List Char} {l : List (String × Data)} (hs : Renders x s)
    (h : AfterPairs l t) : RendersPairs ((k, x) :: l) (encodeString k ++ (':' :: ' ' :: s) ++ t) := by
  rcases h with ⟨rfl, rfl⟩ | ⟨u, hu, rfl⟩
  · have := RendersPairs.last (flatMap_renders k.toList) ws_nil ws_space hs ws_nil
    rw [String.ofList_toList] at this
    simpa [encodeString] using this
  · have := RendersPairs.cons (flatMap_renders k.toList) ws_nil ws_space hs ws_nil ws_space hu
    rw [String.ofList_toList] at this
    simpa [encodeString] using this

/-- The fields of a dict, as read. -/
def namedPairs (d : List (PyKey × Data)) : List (String × Data) := d.map (fun p => (jsonName p.1, image p.2))

theorem namedPairs_eq (d : List (PyKey × Data)) :
    (namedPairs d).map (fun p => (PyKey.str p.1, p.2)) = imagePairs d := by
  simp [namedPairs, imagePairs_eq]

mutual

theorem encode_ok : (x : Data) → Serializable x → ∃ s, encode x = .ok s ∧ (ProperFloats x → Renders (image x) s)
  | .none, _ => ⟨_, rfl, fun _ => .null⟩
  | .bool true, _ => ⟨_, rfl, fun _ => .true⟩
  | .bool false, _ => ⟨_, rfl, fun _ => .false⟩
  | .int i, _ => ⟨_, rfl, fun _ => toString_renders i⟩
  | .str s, _ => ⟨_, rfl, fun _ => encodeString_renders s⟩
  | .obj ty r, h => by
    cases h with
    | float => exact ⟨_, rfl, fun hp => by cases hp with | obj hp => exact encodeFloat_renders (hp rfl)⟩
  | .list [], _ => ⟨_, rfl, fun _ => Renders.emptyList ws_nil⟩
  | .list (x :: l), h => by
    cases h with
    | list h =>
      obtain ⟨s, hs, hr⟩ := encode_ok x (h x List.mem_cons_self)
      obtain ⟨t, ht, hi⟩ := encodeItems_ok l (fun y hy => h y (List.mem_cons_of_mem _ hy))
      refine ⟨'[' :: s ++ t ++ [']'], by simp [encode, hs, ht], fun hp => ?_⟩
      cases hp with
      | list hp =>
        have := Renders.list ws_nil
          (rendersItems_after (hr (hp x List.mem_cons_self)) (hi (fun y hy => hp y (List.mem_cons_of_mem _ hy))))
        simpa [image, imageList, imageList_eq] using this
  | .dict [], _ => ⟨_, rfl, fun _ => Renders.emptyDict ws_nil⟩
  | .dict ((k, x) :: d), h => by
    cases h with
    | dict hn h =>
      have hk := encodeKey_ok (hn _ List.mem_cons_self)
      obtain ⟨s, hs, hr⟩ := encode_ok x (h _ List.mem_cons_self)
      obtain ⟨t, ht, hi⟩ := encodePairs_ok d (fun y hy => hn y (List.mem_cons_of_mem _ hy))
        (fun y hy => h y (List.mem_cons_of_mem _ hy))
      refine ⟨'{' :: encodeString (jsonName k) ++ (':' :: ' ' :: s) ++ t ++ ['}'], ?_, fun hp => ?_⟩
      · simp only [encode, hs, ht, hk]
      cases hp with
      | dict hp =>
        have := Renders.dict ws_nil (rendersPairs_after (k := jsonName k) (hr (hp _ List.mem_cons_self))
          (hi (fun y hy => hp y (List.mem_cons_of_mem _ hy))))
        rw [List.map_cons, namedPairs_eq] at this
        simpa [image, imagePairs] using this

theorem encodeItems_ok : (l : List Data) → (∀ x ∈ l, Serializable x) →
    ∃ t, encodeItems l = .ok t ∧ ((∀ x ∈ l, ProperFloats x) → AfterItems (l.map image) t)
  | [], _ => ⟨[], rfl, fun _ => Or.inl ⟨rfl, rfl⟩⟩
  | x :: l, h => by
    obtain ⟨s, hs, hr⟩ := encode_ok x (h x List.mem_cons_self)
    obtain ⟨t, ht, hi⟩ := encodeItems_ok l (fun y hy => h y (List.mem_cons_of_mem _ hy))
    refine ⟨',' :: ' ' :: s ++ t, by simp [encodeItems, hs, ht], fun hp => Or.inr ⟨s ++ t, ?_, rfl⟩⟩
    exact rendersItems_after (hr (hp x List.mem_cons_self)) (hi (fun y hy => hp y (List.mem_cons_of_mem _ hy)))

theorem encodePairs_ok : (d : List (PyKey × Data)) → (∀ p ∈ d, WritableName p.1) → (∀ p ∈ d, Serializable p.2) →
    ∃ t, encodePairs d = .ok t ∧ ((∀ p ∈ d, ProperFloats p.2) → AfterPairs (namedPairs d) t)
  | [], _, _ => ⟨[], rfl, fun _ => Or.inl ⟨rfl, rfl⟩⟩
  | (k, x) :: d, hn, h => by
    have hk := encodeKey_ok (hn _ List.mem_cons_self)
    obtain ⟨s, hs, hr⟩ := encode_ok x (h _ List.mem_cons_self)
    obtain ⟨t, ht, hi⟩ := encodePairs_ok d (fun y hy => hn y (List.mem_cons_of_mem _ hy))
      (fun y hy => h y (List.mem_cons_of_mem _ hy))
    refine ⟨',' :: ' ' :: encodeString (jsonName k) ++ (':' :: ' ' :: s) ++ t, ?_,
      fun hp => Or.inr ⟨encodeString (jsonName k) ++ (':' :: ' ' :: s) ++ t, ?_, by simp⟩⟩
    · simp only [encodePairs, hs, ht, hk]
    exact rendersPairs_after (hr (hp _ List.mem_cons_self)) (hi (fun y hy => hp y (List.mem_cons_of_mem _ hy)))

end

mutual

theorem encode_error : (x : Data) → ¬ Serializable x → ∃ t, encode x = .error (.typeError t)
  | .none, h => absurd .none h
  | .bool b, h => absurd (.bool b) h
  | .int i, h => absurd (.int i) h
  | .str s, h => absurd (.str s) h
  | .obj ty r, h => by
    have : ty ≠ "float" := by rintro rfl; exact h (.float r)
    exact ⟨_, by simp only [encode]; rw [if_neg this]⟩
  | .list [], h => absurd (.list (by simp)) h
  | .list (x :: l), h => by
    by_cases hx : Serializable x
    · obtain ⟨s, hs, -⟩ := encode_ok x hx
      obtain ⟨t, ht⟩ := encodeItems_error l (fun hl => h (.list (by simpa using ⟨hx, hl⟩)))
      exact ⟨t, by simp only [encode, hs, ht]⟩
    · obtain ⟨t, ht⟩ := encode_error x hx
      exact ⟨t, by simp only [encode, ht]⟩
  | .dict [], h => absurd (.dict (by simp) (by simp)) h
  | .dict ((k, x) :: d), h => by
    by_cases hk : WritableName k
    · by_cases hx : Serializable x
      · obtain ⟨s, hs, -⟩ := encode_ok x hx
        obtain ⟨t, ht⟩ := encodePairs_error d (fun hd => h (.dict
          (fun p hp => (List.mem_cons.1 hp).elim (fun e => e ▸ hk) (hd.1 p))
          (fun p hp => (List.mem_cons.1 hp).elim (fun e => e ▸ hx) (hd.2 p))))
        exact ⟨t, by simp only [encode, encodeKey_ok hk, hs, ht]⟩
      · obtain ⟨t, ht⟩ := encode_error x hx
        exact ⟨t, by simp only [encode, encodeKey_ok hk, ht]⟩
    · obtain ⟨t, ht⟩ := encodeKey_error hk
      exact ⟨t, by simp only [encode, ht]⟩

theorem encodeItems_error : (l : List Data) → (¬ ∀ x ∈ l, Serializable x) →
    ∃ t, encodeItems l = .error (.typeError t)
  | [], h => absurd (by simp) h
  | x :: l, h => by
    by_cases hx : Serializable x
    · obtain ⟨s, hs, -⟩ := encode_ok x hx
      obtain ⟨t, ht⟩ := encodeItems_error l (fun hl => h (by simpa using ⟨hx, hl⟩))
      exact ⟨t, by simp only [encodeItems, hs, ht]⟩
    · obtain ⟨t, ht⟩ := encode_error x hx
      exact ⟨t, by simp only [encodeItems, ht]⟩

theorem encodePairs_error : (d : List (PyKey × Data)) →
    (¬ ((∀ p ∈ d, WritableName p.1) ∧ ∀ p ∈ d, Serializable p.2)) → ∃ t, encodePairs d = .error (.typeError t)
  | [], h => absurd (by simp) h
  | (k, x) :: d, h => by
    by_cases hk : WritableName k
    · by_cases hx : Serializable x
      · obtain ⟨s, hs, -⟩ := encode_ok x hx
        obtain ⟨t, ht⟩ := encodePairs_error d (fun hd => h ⟨
          (fun p hp => (List.mem_cons.1 hp).elim (fun e => e ▸ hk) (hd.1 p)),
          (fun p hp => (List.mem_cons.1 hp).elim (fun e => e ▸ hx) (hd.2 p))⟩)
        exact ⟨t, by simp only [encodePairs, encodeKey_ok hk, hs, ht]⟩
      · obtain ⟨t, ht⟩ := encode_error x hx
        exact ⟨t, by simp only [encodePairs, encodeKey_ok hk, ht]⟩
    · obtain ⟨t, ht⟩ := encodeKey_error hk
      exact ⟨t, by simp only [encodePairs, ht]⟩

end

end Json
end Pelote
