import Verif.Py.Basic
import Mathlib.Tactic.ByContra
import Mathlib.Data.List.Basic

set_option linter.unusedSectionVars false

/-! Lemmas about insertion-ordered dicts. -/
namespace Pelote
namespace Dict
variable {κ ν : Type} [DecidableEq κ]

@[simp] theorem get?_nil (k : κ) : get? ([] : Dict κ ν) k = none := rfl

theorem get?_cons (k' : κ) (v : ν) (d : Dict κ ν) (k : κ) :
    get? ((k', v) :: d) k = if k' = k then some v else get? d k := rfl

@[simp] theorem keys_nil : keys ([] : Dict κ ν) = [] := rfl
@[simp] theorem keys_cons (kv : κ × ν) (d : Dict κ ν) : keys (kv :: d) = kv.1 :: keys d := rfl
@[simp] theorem keys_append (d e : Dict κ ν) : keys (d ++ e) = keys d ++ keys e := by
  simp [keys]

theorem get?_eq_none_iff {d : Dict κ ν} {k : κ} : get? d k = none ↔ k ∉ keys d := by
  induction d with
  | nil => simp
  | cons kv d ih =>
    obtain ⟨k', v⟩ := kv
    rw [get?_cons]
    by_cases h : k' = k
    · simp [h]
    · simp [h, ih, Ne.symm h]

theorem has_iff {d : Dict κ ν} {k : κ} : has d k = true ↔ k ∈ keys d := by
  unfold has
  rcases h : get? d k with _ | v
  · simp [get?_eq_none_iff.1 h]
  · simp only [Option.isSome_some, true_iff]
    by_contra hk
    rw [get?_eq_none_iff.2 hk] at h
    cases h

theorem has_eq_decide (d : Dict κ ν) (k : κ) : has d k = decide (k ∈ keys d) := by
  rw [Bool.eq_iff_iff]; simp [has_iff]

theorem mem_of_get? {d : Dict κ ν} {k : κ} {v : ν} (h : get? d k = some v) : (k, v) ∈ d := by
  induction d with
  | nil => simp at h
  | cons kv d ih =>
    obtain ⟨k', v'⟩ := kv
    rw [get?_cons] at h
    by_cases hk : k' = k
    · simp [hk] at h; simp [hk, h]
    · simp [hk] at h; exact List.mem_cons_of_mem _ (ih h)

theorem mem_keys_of_mem {d : Dict κ ν} {k : κ} {v : ν} (h : (k, v) ∈ d) : k ∈ keys d :=
  List.mem_map_of_mem (f := Prod.fst) h

theorem get?_of_mem {d : Dict κ ν} {k : κ} {v : ν} (hn : (keys d).Nodup) (h : (k, v) ∈ d) :
    get? d k = some v := by
  induction d with
  | nil => cases h
  | cons kv d ih =>
    obtain ⟨k', v'⟩ := kv
    simp only [keys_cons, List.nodup_cons] at hn
    rw [get?_cons]
    rcases List.mem_cons.1 h with h | h
    · simp [Prod.ext_iff] at h; simp [h]
    · have : k' ≠ k := fun e => hn.1 (e ▸ mem_keys_of_mem h)
      simp [this, ih hn.2 h]

theorem get?_iff_mem {d : Dict κ ν} (hn : (keys d).Nodup) {k : κ} {v : ν} :
    get? d k = some v ↔ (k, v) ∈ d := ⟨mem_of_get?, get?_of_mem hn⟩

theorem exists_get?_of_mem_keys {d : Dict κ ν} {k : κ} (h : k ∈ keys d) : ∃ v, get? d k = some v := by
  rcases h' : get? d k with _ | v
  · exact absurd h (get?_eq_none_iff.1 h')
  · exact ⟨v, rfl⟩

theorem get?_set (d : Dict κ ν) (k : κ) (v : ν) (k' : κ) :
    get? (set d k v) k' = if k = k' then some v else get? d k' := by
  induction d with
  | nil => simp [set, get?_cons]
  | cons kv d ih =>
    obtain ⟨k₀, v₀⟩ := kv
    simp only [set]
    by_cases h : k₀ = k
    · subst h; simp only [if_true, get?_cons]; split <;> simp_all
    · simp only [h, if_false, get?_cons, ih]
      by_cases h1 : k₀ = k'
      · subst h1; simp [Ne.symm h]
      · simp [h1]

@[simp] theorem get?_set_self (d : Dict κ ν) (k : κ) (v : ν) : get? (set d k v) k = some v := by
  simp [get?_set]

theorem get?_set_ne (d : Dict κ ν) {k k' : κ} (v : ν) (h : k ≠ k') :
    get? (set d k v) k' = get? d k' := by
  simp [get?_set, h]

theorem set_of_not_mem {d : Dict κ ν} {k : κ} (v : ν) (h : k ∉ keys d) :
    set d k v = d ++ [(k, v)] := by
  induction d with
  | nil => rfl
  | cons kv d ih =>
    obtain ⟨k₀, v₀⟩ := kv
    simp only [keys_cons, List.mem_cons, not_or] at h
    simp [set, Ne.symm h.1, ih h.2]

theorem keys_set_of_mem {d : Dict κ ν} {k : κ} (v : ν) (h : k ∈ keys d) :
    keys (set d k v) = keys d := by
  induction d with
  | nil => simp at h
  | cons kv d ih =>
    obtain ⟨k₀, v₀⟩ := kv
    by_cases hk : k₀ = k
    · simp [set, hk]
    · simp only [keys_cons, List.mem_cons, Ne.symm hk, false_or] at h
      simp [set, hk, ih h]

theorem keys_set (d : Dict κ ν) (k : κ) (v : ν) :
    keys (set d k v) = if k ∈ keys d then keys d else keys d ++ [k] := by
  split
  · exact keys_set_of_mem v (by assumption)
  · rw [set_of_not_mem v (by assumption)]; simp

@[simp] theorem mem_keys_set {d : Dict κ ν} {k k' : κ} {v : ν} :
    k' ∈ keys (set d k v) ↔ k' ∈ keys d ∨ k' = k := by
  rw [keys_set]
  split
  · constructor
    · exact Or.inl
    · rintro (h | rfl) <;> assumption
  · simp

theorem nodup_set {d : Dict κ ν} (k : κ) (v : ν) (h : (keys d).Nodup) :
    (keys (set d k v)).Nodup := by
  rw [keys_set]
  split
  · exact h
  · rename_i hk
    rw [List.nodup_append]
    refine ⟨h, by simp, ?_⟩
    intro a ha b hb
    simp only [List.mem_singleton] at hb
    rintro rfl
    exact hk (hb ▸ ha)

theorem set_get?_self {d : Dict κ ν} {k : κ} {v : ν} (h : get? d k = some v) : set d k v = d := by
  induction d with
  | nil => simp at h
  | cons kv d ih =>
    obtain ⟨k₀, v₀⟩ := kv
    rw [get?_cons] at h
    by_cases hk : k₀ = k
    · simp [hk] at h; simp [set, hk, h]
    · simp [hk] at h; simp [set, hk, ih h]

theorem update_nil (d : Dict κ ν) : update d [] = d := rfl

theorem update_cons (d : Dict κ ν) (kv : κ × ν) (e : Dict κ ν) :
    update d (kv :: e) = update (set d kv.1 kv.2) e := rfl

theorem nodup_update {d : Dict κ ν} (e : Dict κ ν) (h : (keys d).Nodup) :
    (keys (update d e)).Nodup := by
  induction e generalizing d with
  | nil => exact h
  | cons kv e ih => rw [update_cons]; exact ih (nodup_set _ _ h)

theorem get?_update (d e : Dict κ ν) (he : (keys e).Nodup) (k : κ) :
    get? (update d e) k = (get? e k).or (get? d k) := by
  induction e generalizing d with
  | nil => simp [update_nil]
  | cons kv e ih =>
    obtain ⟨k₀, v₀⟩ := kv
    simp only [keys_cons, List.nodup_cons] at he
    rw [update_cons, ih _ he.2, get?_set, get?_cons]
    by_cases h : k₀ = k
    · subst h
      rw [get?_eq_none_iff.2 he.1]; simp
    · simp [h]

theorem mem_keys_update {d e : Dict κ ν} {k : κ} :
    k ∈ keys (update d e) ↔ k ∈ keys d ∨ k ∈ keys e := by
  induction e generalizing d with
  | nil => simp [update_nil]
  | cons kv e ih =>
    rw [update_cons, ih, mem_keys_set]; simp [or_assoc]

/-- `{}.update(e)` is `e`. -/
theorem update_nil_left {e : Dict κ ν} (he : (keys e).Nodup) : update [] e = e := by
  suffices H : ∀ (d e : Dict κ ν), (keys (d ++ e)).Nodup → update d e = d ++ e by
    simpa using H [] e (by simpa using he)
  intro d e
  induction e generalizing d with
  | nil => intro _; simp [update_nil]
  | cons kv e ih =>
    intro h
    obtain ⟨k₀, v₀⟩ := kv
    have hk : k₀ ∉ keys d := by
      simp only [keys_append, keys_cons, List.nodup_append] at h
      intro hm
      exact h.2.2 _ hm k₀ (by simp) rfl
    rw [update_cons, set_of_not_mem _ hk, ih]
    · simp
    · simpa using h

/-- `d.update(d)` is `d`. -/
theorem update_self {d : Dict κ ν} (hd : (keys d).Nodup) : update d d = d := by
  suffices H : ∀ (e : Dict κ ν), (∀ kv ∈ e, kv ∈ d) → update d e = d by
    exact H d (fun _ h => h)
  intro e
  induction e with
  | nil => intro _; rfl
  | cons kv e ih =>
    intro h
    rw [update_cons, set_get?_self (get?_of_mem hd (h _ (by simp))), ih]
    exact fun _ h' => h _ (by simp [h'])

theorem keys_erase (d : Dict κ ν) (k : κ) : keys (erase d k) = (keys d).filter (fun x => ¬ x = k) := by
  simp only [keys, erase, List.filter_map]
  rfl

theorem get?_filter_key (d : Dict κ ν) (p : κ → Bool) (k : κ) :
    get? (d.filter (fun kv => p kv.1)) k = if p k then get? d k else none := by
  induction d with
  | nil => simp
  | cons kv d ih =>
    obtain ⟨k₀, v₀⟩ := kv
    rw [get?_cons]
    by_cases hp : p k₀
    · rw [List.filter_cons_of_pos (by simpa using hp), get?_cons, ih]
      by_cases h : k₀ = k
      · subst h; simp [hp]
      · simp [h]
    · rw [List.filter_cons_of_neg (by simpa using hp), ih]
      by_cases h : k₀ = k
      · subst h; simp [hp]
      · simp [h]

theorem get?_erase (d : Dict κ ν) (k k' : κ) :
    get? (erase d k) k' = if k' = k then none else get? d k' := by
  have := get?_filter_key d (fun x => decide (¬ x = k)) k'
  unfold erase
  rw [this]
  by_cases h : k' = k <;> simp [h]

end Dict
end Pelote
