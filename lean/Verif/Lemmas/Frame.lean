import Verif.Lemmas.TableResult
import Verif.Model.ToTabular

/-! Lemmas about DataFrames: their rows, and DataFrames made from records. -/
namespace Pelote

/-! ### Rows of a DataFrame -/

theorem frameColumns_ok {f : Dict PyKey (List Data)} {cols : List PyKey} (h : ∀ c ∈ cols, c ∈ f.keys) :
    frameColumns f cols = .ok (cols.map (fun c => (f.get? c).getD [])) := by
  induction cols with
  | nil => rfl
  | cons c cols ih =>
    obtain ⟨v, hv⟩ := Dict.exists_get?_of_mem_keys (h c List.mem_cons_self)
    unfold frameColumns Dict.getItem
    rw [hv, ih (fun c hc => h c (List.mem_cons_of_mem _ hc))]
    simp [hv]

theorem frameColumns_missing {f : Dict PyKey (List Data)} {cols : List PyKey} (h : ∃ c ∈ cols, c ∉ f.keys) :
    frameColumns f cols = .error .keyError := by
  induction cols with
  | nil => obtain ⟨c, hc, _⟩ := h; cases hc
  | cons c cols ih =>
    unfold frameColumns Dict.getItem
    by_cases hc : c ∈ f.keys
    · obtain ⟨v, hv⟩ := Dict.exists_get?_of_mem_keys hc
      rw [hv]
      simp only
      rw [ih]
      obtain ⟨x, hx, hn⟩ := h
      rcases List.mem_cons.1 hx with rfl | hx
      · exact absurd hc hn
      · exact ⟨x, hx, hn⟩
    · rw [Dict.get?_eq_none_iff.2 hc]

theorem foldl_min_const {ls : List (List Data)} {n : Nat} (h : ∀ l ∈ ls, l.length = n) :
    ls.foldl (fun n l => min n l.length) n = n := by
  induction ls with
  | nil => rfl
  | cons l ls ih =>
    rw [List.foldl_cons, h l List.mem_cons_self, Nat.min_self]
    exact ih (fun l hl => h l (List.mem_cons_of_mem _ hl))

theorem zipLists_eq {ls : List (List Data)} {n : Nat} (hne : ls ≠ []) (h : ∀ l ∈ ls, l.length = n) :
    zipLists ls = (List.range n).map (fun i => ls.filterMap (fun l => l[i]?)) := by
  cases ls with
  | nil => exact absurd rfl hne
  | cons l ls =>
    rw [zipLists.eq_2, h l List.mem_cons_self, foldl_min_const (fun l hl => h l (List.mem_cons_of_mem _ hl))]

theorem update_zip_get? {cols : List PyKey} (f : PyKey → Data) (d : Attrs Data) (k : PyKey) :
    (d.update (cols.zip (cols.map f))).get? k = if k ∈ cols then some (f k) else d.get? k := by
  induction cols generalizing d with
  | nil => rfl
  | cons c cols ih =>
    rw [List.map_cons, List.zip_cons_cons, Dict.update_cons, ih, Dict.get?_set]
    by_cases hk : k ∈ cols
    · rw [if_pos hk, if_pos (List.mem_cons_of_mem _ hk)]
    · by_cases hc : c = k
      · subst hc; simp
      · rw [if_neg hk, if_neg hc, if_neg]
        simp [hk, Ne.symm hc]

/-- The rows of a DataFrame all of whose columns have the same length. -/
theorem frame_rows {f : Dict PyKey (List Data)} {cols : List PyKey} {n : Nat} (hne : cols ≠ [])
    (hc : ∀ c ∈ cols, c ∈ f.keys) (hn : ∀ c vs, f.get? c = some vs → vs.length = n) :
    ∃ rows, iteratorFromDataframe (.frame f) (some cols) = .ok rows ∧ rows.length = n ∧
      ∀ (i : Nat) (row : Row), rows[i]? = some row → ∀ c ∈ cols, ∃ vs v, f.get? c = some vs ∧ vs[i]? = some v ∧ row.item c = .ok v := by
  have hlen : ∀ l ∈ cols.map (fun c => (f.get? c).getD []), l.length = n := by
    intro l hl
    obtain ⟨c, hcc, rfl⟩ := List.mem_map.1 hl
    obtain ⟨vs, hv⟩ := Dict.exists_get?_of_mem_keys (hc c hcc)
    rw [hv]; exact hn c vs hv
  unfold iteratorFromDataframe
  simp only [Option.getD_some]
  rw [frameColumns_ok hc]
  refine ⟨_, rfl, ?_, ?_⟩
  · rw [zipLists_eq (by simpa using hne) hlen]; simp
  · intro i row hrow c hcc
    rw [zipLists_eq (by simpa using hne) hlen, List.map_map, List.getElem?_map] at hrow
    obtain ⟨j, hj, rfl⟩ := Option.map_eq_some_iff.1 hrow
    obtain ⟨hin, rfl⟩ : i < n ∧ i = j := by
      rw [List.getElem?_eq_some_iff] at hj
      obtain ⟨h1, h2⟩ := hj
      rw [List.getElem_range] at h2
      rw [List.length_range] at h1
      exact ⟨h1, h2⟩
    have hrow : (cols.map (fun c => (f.get? c).getD [])).filterMap (fun l => l[i]?) =
        cols.map (fun c => (((f.get? c).getD [])[i]?).getD Data.none) := by
      have gen : ∀ ls : List (List Data), (∀ l ∈ ls, l.length = n) →
          ls.filterMap (fun l => l[i]?) = ls.map (fun l => (l[i]?).getD Data.none) := by
        intro ls
        induction ls with
        | nil => intro _; rfl
        | cons l ls ih =>
          intro h
          have : i < l.length := by rw [h l List.mem_cons_self]; exact hin
          rw [List.filterMap_cons, List.getElem?_eq_getElem this, List.map_cons,
            ih (fun l hl => h l (List.mem_cons_of_mem _ hl)), List.getElem?_eq_getElem this]
          rfl
      rw [gen _ hlen, List.map_map]; rfl
    obtain ⟨vs, hv⟩ := Dict.exists_get?_of_mem_keys (hc c hcc)
    have hil : i < vs.length := by rw [hn c vs hv]; exact hin
    refine ⟨vs, vs[i], hv, List.getElem?_eq_getElem hil, ?_⟩
    simp only [Function.comp_apply, Row.item]
    unfold Dict.getItem
    rw [hrow, update_zip_get?, if_pos hcc, hv]
    simp [hil]

/-! ### DataFrames made from records -/

theorem mem_newColumns {seen ks : List PyKey} {c : PyKey} : c ∈ newColumns seen ks ↔ c ∈ seen ∨ c ∈ ks := by
  induction ks generalizing seen with
  | nil => simp [newColumns]
  | cons k ks ih =>
    rw [newColumns, ih]
    split
    · rename_i hk
      constructor
      · rintro (h | h)
        · exact .inl h
        · exact .inr (List.mem_cons_of_mem _ h)
      · rintro (h | h)
        · exact .inl h
        · rcases List.mem_cons.1 h with rfl | h
          · exact .inl hk
          · exact .inr h
    · simp only [List.mem_append, List.mem_singleton, List.mem_cons]
      tauto

theorem nodup_newColumns {seen ks : List PyKey} (h : seen.Nodup) : (newColumns seen ks).Nodup := by
  induction ks generalizing seen with
  | nil => exact h
  | cons k ks ih =>
    rw [newColumns]
    apply ih
    split
    · exact h
    · rename_i hk
      rw [List.nodup_append]
      refine ⟨h, List.nodup_singleton k, ?_⟩
      intro a ha b hb
      rw [List.mem_singleton] at hb
      rintro rfl
      exact hk (hb ▸ ha)

theorem mem_recordColumns {records : List (Attrs Data)} {c : PyKey} :
    c ∈ recordColumns records ↔ ∃ r ∈ records, c ∈ r.keys := by
  have gen : ∀ seen, c ∈ records.foldl (fun seen r => newColumns seen r.keys) seen ↔
      c ∈ seen ∨ ∃ r ∈ records, c ∈ r.keys := by
    induction records with
    | nil => simp
    | cons r records ih =>
      intro seen
      rw [List.foldl_cons, ih, mem_newColumns]
      simp only [List.mem_cons, exists_eq_or_imp, or_assoc]
  have := gen []
  simpa [recordColumns] using this

theorem nodup_recordColumns (records : List (Attrs Data)) : (recordColumns records).Nodup := by
  have gen : ∀ seen : List PyKey, seen.Nodup →
      (records.foldl (fun seen r => newColumns seen r.keys) seen).Nodup := by
    induction records with
    | nil => intro seen h; exact h
    | cons r records ih => intro seen h; exact ih _ (nodup_newColumns h)
  exact gen [] .nil

theorem get?_map_mk {β : Type} {cols : List PyKey} (f : PyKey → β) (c : PyKey) :
    Dict.get? (cols.map (fun c => (c, f c))) c = if c ∈ cols then some (f c) else none := by
  induction cols with
  | nil => rfl
  | cons x cols ih =>
    rw [List.map_cons, Dict.get?_cons, ih]
    by_cases hx : x = c
    · subst hx; simp
    · rw [if_neg hx]
      simp [Ne.symm hx]

/-- The columns of a DataFrame made from records. -/
theorem dataFrame_get? (records : List (Attrs Data)) (c : PyKey) :
    (dataFrame records).get? c =
      if ∃ r ∈ records, c ∈ r.keys then some (records.map (fun r => (r.get? c).getD nan)) else none := by
  unfold dataFrame
  rw [get?_map_mk]
  simp only [mem_recordColumns]

theorem dataFrame_keys (records : List (Attrs Data)) : (dataFrame records).keys = recordColumns records := by
  unfold dataFrame Dict.keys
  rw [List.map_map]
  have : (Prod.fst ∘ fun c => (c, records.map (fun r => (r.get? c).getD nan))) = id := rfl
  rw [this, List.map_id]

/-- The rows of a DataFrame made from records are the records. -/
theorem dataFrame_rows {records : List (Attrs Data)} {cols : List PyKey} (hne : cols ≠ [])
    (hc : ∀ c ∈ cols, ∃ r ∈ records, c ∈ r.keys) :
    ∃ rows, iteratorFromDataframe (.frame (dataFrame records)) (some cols) = .ok rows ∧
      List.Forall₂ (fun (row : Row) (r : Attrs Data) => ∀ c ∈ cols, row.item c = .ok ((r.get? c).getD nan))
        rows records := by
  obtain ⟨rows, h1, h2, h3⟩ := frame_rows (f := dataFrame records) (n := records.length) hne
    (fun c hcc => by rw [dataFrame_keys, mem_recordColumns]; exact hc c hcc)
    (fun c vs hv => by
      rw [dataFrame_get?] at hv
      split at hv
      · cases hv; simp
      · cases hv)
  refine ⟨rows, h1, ?_⟩
  rw [List.forall₂_iff_get]
  refine ⟨h2, ?_⟩
  intro i hi hi' c hcc
  obtain ⟨vs, v, hv, hvi, hit⟩ := h3 i rows[i] (List.getElem?_eq_getElem hi) c hcc
  rw [dataFrame_get?, if_pos (hc c hcc)] at hv
  cases hv
  simp only [List.get_eq_getElem]
  rw [hit]
  rw [List.getElem?_map, List.getElem?_eq_getElem hi'] at hvi
  simp only [Option.map_some, Option.some.injEq] at hvi
  rw [hvi]

end Pelote
