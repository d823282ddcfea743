import Verif.Model.Cells
import Verif.Lemmas.Dict
import Mathlib.Data.Rat.Encodable

/-! The table of cells is the table of what dicts see of them, with the texts in columns of their own. -/
namespace Pelote

/-- What dicts see of a cell, as a key of another kind. -/
def Cell.key : Cell → PyKey
  | .num a _ => .int (Encodable.encode (.inl a : ℚ ⊕ ℕ ⊕ ℕ))
  | .nan i => .int (Encodable.encode (.inr (.inl i) : ℚ ⊕ ℕ ⊕ ℕ))
  | .obj i _ => .int (Encodable.encode (.inr (.inr i) : ℚ ⊕ ℕ ⊕ ℕ))
  | .inf s => .bool s
  | .none => .other "NoneType" "None"
  | .str s => .str s
  | .unhashable => .other "" ""

theorem Cell.same_iff {x y : Cell} (hx : x.hashable = true) (hy : y.hashable = true) : x.same y = true ↔ x.key = y.key := by
  cases x <;> cases y <;> simp_all [Cell.same, Cell.key, Cell.hashable] <;> try omega
  constructor
  · rintro rfl; rfl
  · intro h; exact Encodable.encode_injective (by omega)

/-- A cell as a value of a table. -/
def Cell.data (x : Cell) : Data := if x.hashable then Data.ofKey x.key else .list []

theorem asHashable_ofKey (k : PyKey) : (Data.ofKey k).asHashable = .ok k := by cases k <;> rfl

theorem Cell.data_hashable {x : Cell} (h : x.hashable = true) : x.data.asHashable = .ok x.key := by
  rw [Cell.data, if_pos h, asHashable_ofKey]

/-- The row of two cells. -/
def cellRow (c : Cell × Cell) : Row := .list [c.1.data, c.2.data, .str c.1.text, .str c.2.text]

/-- The text of a row as a label. -/
def labelOf (i : Int) (row : Row) : Py Data :=
  match row.item (.int i) with
  | .error e => .error e
  | .ok t => .ok (.dict [(.str "label", t)])

/-- The options that collect the texts. -/
def CellOptions.encoded (o : CellOptions) : BipartiteOptions :=
  ⟨.int 0, .int 1, o.partAttr, o.weightAttr, some (.func (labelOf 2)), some (.func (labelOf 3)), some (o.firstName.getD o.firstCol),
    some (o.secondName.getD o.secondCol), false⟩

theorem Dict.set_set {κ ν : Type} [DecidableEq κ] (d : Dict κ ν) (k : κ) (v w : ν) : (d.set k v).set k w = d.set k w := by
  induction d with
  | nil => simp [Dict.set]
  | cons p d ih =>
    obtain ⟨k', v'⟩ := p
    by_cases h : k' = k
    · simp [Dict.set, h]
    · simp [Dict.set, h, ih]

theorem partAttributes_first (o : CellOptions) (c : Cell × Cell) (l : PyKey) :
    partAttributes o.encoded.nodePartAttr (o.encoded.firstName.getD o.encoded.firstCol) l o.encoded.firstData (cellRow c) =
      .ok (cellAttributes o.partAttr (o.firstName.getD o.firstCol) c.1) := by
  show Except.ok (Dict.set (Dict.set _ _ _) _ _) = _
  rw [Dict.set_set]
  rfl

theorem partAttributes_second (o : CellOptions) (c : Cell × Cell) (l : PyKey) :
    partAttributes o.encoded.nodePartAttr (o.encoded.secondName.getD o.encoded.secondCol) l o.encoded.secondData (cellRow c) =
      .ok (cellAttributes o.partAttr (o.secondName.getD o.secondCol) c.2) := by
  show Except.ok (Dict.set (Dict.set _ _ _) _ _) = _
  rw [Dict.set_set]
  rfl

/-- The registers answer in the same way. -/
structure SameRegister (o : CellOptions) (r : CellRegister) (s : IdRegister (PyKey × PyKey)) : Prop where
  counter : s.counter = r.counter
  columns : ∀ e ∈ r.index, (e.1.1 = o.firstCol ∨ e.1.1 = o.secondCol) ∧ e.1.2.hashable = true
  index : s.index = r.index.map (fun e => ((if e.1.1 = o.firstCol then .int 0 else .int 1, e.1.2.key), e.2))

theorem lookup_same {o : CellOptions} (hne : o.firstCol ≠ o.secondCol) {r : CellRegister} {s : IdRegister (PyKey × PyKey)}
    (h : SameRegister o r s) {col : PyKey} (hc : col = o.firstCol ∨ col = o.secondCol) {x : Cell} (hx : x.hashable = true) :
    (s.lookup (if col = o.firstCol then .int 0 else .int 1, x.key)).1 = (r.lookup col x).1 ∧
      SameRegister o (r.lookup col x).2 (s.lookup (if col = o.firstCol then .int 0 else .int 1, x.key)).2 := by
  have hcol : ∀ e ∈ r.index, ((if e.1.1 = o.firstCol then PyKey.int 0 else .int 1, e.1.2.key) =
      (if col = o.firstCol then PyKey.int 0 else .int 1, x.key)) ↔ (decide (e.1.1 = col) && e.1.2.same x) = true := by
    intro e he
    obtain ⟨h1, h2⟩ := h.columns e he
    rw [Prod.mk.injEq, Bool.and_eq_true, decide_eq_true_eq, Cell.same_iff h2 hx]
    refine and_congr ?_ Iff.rfl
    rcases h1 with h1 | h1 <;> rcases hc with rfl | rfl <;> simp [h1, hne, hne.symm]
  have hget : s.index.get? (if col = o.firstCol then .int 0 else .int 1, x.key) =
      (r.index.find? (fun e => decide (e.1.1 = col) && e.1.2.same x)).map (·.2) := by
    rw [h.index]
    have : ∀ l : List ((PyKey × Cell) × Nat), (∀ e ∈ l, ((if e.1.1 = o.firstCol then PyKey.int 0 else .int 1, e.1.2.key) =
        (if col = o.firstCol then PyKey.int 0 else .int 1, x.key)) ↔ (decide (e.1.1 = col) && e.1.2.same x) = true) →
        Dict.get? (l.map (fun e => ((if e.1.1 = o.firstCol then PyKey.int 0 else .int 1, e.1.2.key), e.2)))
          (if col = o.firstCol then .int 0 else .int 1, x.key) = (l.find? (fun e => decide (e.1.1 = col) && e.1.2.same x)).map (·.2) := by
      intro l
      induction l with
      | nil => intro _; rfl
      | cons e l ih =>
        intro hl
        have he := hl e (by simp)
        rw [List.map_cons, Dict.get?_cons, List.find?_cons]
        by_cases hb : (decide (e.1.1 = col) && e.1.2.same x) = true
        · rw [if_pos (he.2 hb), hb]; rfl
        · rw [if_neg (fun hh => hb (he.1 hh)), (Bool.not_eq_true _).mp hb]
          exact ih (fun e he => hl e (by simp [he]))
    exact this _ hcol
  unfold IdRegister.lookup CellRegister.lookup
  rw [hget]
  cases hf : r.index.find? (fun e => decide (e.1.1 = col) && e.1.2.same x) with
  | some e => exact ⟨rfl, h⟩
  | none =>
    rw [hf] at hget
    refine ⟨h.counter, ⟨by simp [h.counter], ?_, ?_⟩⟩
    · intro e he
      rcases List.mem_append.1 he with he | he
      · exact h.columns e he
      · rw [List.mem_singleton.1 he]; exact ⟨hc, hx⟩
    · simp only [List.map_append, List.map_cons, List.map_nil]
      show s.index.set _ _ = _
      rw [Dict.set_of_not_mem _ (Dict.get?_eq_none_iff.1 hget), h.index, h.counter]

/-- The loops do the same. -/
theorem cellLoop_encoded {o : CellOptions} (hne : o.firstCol ≠ o.secondCol) (rows : List (Cell × Cell)) {r : CellRegister}
    {s : IdRegister (PyKey × PyKey)} (h : SameRegister o r s) (g : Graph PyKey Data) :
    cellLoop o rows r g = bipartiteLoop o.encoded (rows.map cellRow) s g := by
  induction rows generalizing r s g with
  | nil => rfl
  | cons c rows ih =>
    obtain ⟨x, y⟩ := c
    have hl : rowLabels o.encoded (cellRow (x, y)) = .ok (x.data, y.data) := rfl
    rw [List.map_cons]
    unfold cellLoop bipartiteLoop
    rw [hl]
    simp only [show o.encoded.disjointKeys = false from rfl, Bool.false_eq_true, if_false]
    by_cases hx : x.hashable = true
    · rw [Cell.data_hashable hx]
      by_cases hy : y.hashable = true
      · rw [Cell.data_hashable hy]
        simp only [hx, hy, Bool.not_true, Bool.false_eq_true, if_false]
        obtain ⟨a1, a2⟩ := lookup_same hne h (.inl rfl) hx
        obtain ⟨b1, b2⟩ := lookup_same hne a2 (.inr rfl) hy
        rw [if_pos rfl] at a1 a2 b1 b2
        rw [if_neg hne.symm] at b1 b2
        simp only [show o.encoded.firstCol = .int 0 from rfl, show o.encoded.secondCol = .int 1 from rfl]
        rw [a1, b1]
        unfold bipartiteRow
        have e1 := partAttributes_first o (x, y) x.key
        have e2 := partAttributes_second o (x, y) y.key
        rw [e1, e2]
        simp only [show o.encoded.edgeWeightAttr = o.weightAttr from rfl]
        cases addPartNode g (.int (r.lookup o.firstCol x).1) (.ok (cellAttributes o.partAttr (o.firstName.getD o.firstCol) x)) with
        | error e => rfl
        | ok g1 =>
          simp only
          cases addPartNode g1 (.int ((r.lookup o.firstCol x).2.lookup o.secondCol y).1)
              (.ok (cellAttributes o.partAttr (o.secondName.getD o.secondCol) y)) with
          | error e => rfl
          | ok g2 =>
            simp only
            cases countEdge g2 (.int (r.lookup o.firstCol x).1) (.int ((r.lookup o.firstCol x).2.lookup o.secondCol y).1) o.weightAttr with
            | error e => rfl
            | ok g3 => exact ih b2 g3
      · rw [Bool.not_eq_true] at hy
        have : y.data.asHashable = .error (.typeError "unhashable type") := by rw [Cell.data, hy]; rfl
        rw [this]
        simp [hx, hy]
    · rw [Bool.not_eq_true] at hx
      have : x.data.asHashable = .error (.typeError "unhashable type") := by rw [Cell.data, hx]; rfl
      rw [this]
      simp [hx]

theorem cellTable_encoded {o : CellOptions} (hne : o.firstCol ≠ o.secondCol) (rows : List (Cell × Cell)) :
    cellTable rows o = tableToBipartiteGraph (.rows (rows.map cellRow)) o.encoded := by
  unfold cellTable tableToBipartiteGraph
  rw [if_neg hne, if_neg (by simp [CellOptions.encoded])]
  exact cellLoop_encoded hne rows ⟨rfl, by simp, rfl⟩ _

end Pelote
