import Verif.Props.Triangles

/-! C68: the strengths count every triangle three times. -/
namespace Pelote
variable {V A : Type}

theorem sum_set {κ : Type} [DecidableEq κ] (d : Dict κ Nat) (k : κ) (x : Nat) :
    ((d.set k x).map Prod.snd).sum + (d.get? k).getD 0 = (d.map Prod.snd).sum + x := by
  induction d with
  | nil => simp [Dict.set, Dict.get?]
  | cons p d ih =>
    obtain ⟨k', y⟩ := p
    by_cases hk : k' = k
    · subst hk
      simp [Dict.set, Dict.get?]
      omega
    · simp only [Dict.set, hk, Dict.get?_cons, if_false, List.map_cons, List.sum_cons] at ih ⊢
      omega

theorem sum_counterIncr {κ : Type} [DecidableEq κ] (d : Dict κ Nat) (k : κ) :
    ((counterIncr d k).map Prod.snd).sum = (d.map Prod.snd).sum + 1 := by
  have := sum_set d k ((d.get? k).getD 0 + 1)
  unfold counterIncr
  omega

theorem sum_countTriangles [DecidableEq V] [PyOrd V] {ts : List (V × V × V)} {d d' : Dict (V × V) Nat}
    (h : countTriangles ts d = .ok d') : (d'.map Prod.snd).sum = (d.map Prod.snd).sum + 3 * ts.length := by
  induction ts generalizing d with
  | nil => cases h; simp
  | cons t ts ih =>
    obtain ⟨u, v, w⟩ := t
    unfold countTriangles at h
    split at h
    · cases h
    · split at h
      · cases h
      · split at h
        · cases h
        · rw [ih h, sum_counterIncr, sum_counterIncr, sum_counterIncr, List.length_cons]
          omega

theorem sum_zeroStrengths [DecidableEq V] [PyOrd V] {es : List (V × V)} {d d' : Dict (V × V) Nat}
    (h : zeroStrengths es d = .ok d') (hd : (d.map Prod.snd).sum = 0) : (d'.map Prod.snd).sum = 0 := by
  induction es generalizing d with
  | nil => cases h; exact hd
  | cons e es ih =>
    obtain ⟨u, v⟩ := e
    unfold zeroStrengths at h
    split at h
    · cases h
    · rename_i k _
      refine ih h ?_
      have := sum_set d k 0
      omega

/-- C68.  On every graph, the strengths `triangular_strength` returns sum up to three times the number of triangles, with
`full` or without. -/
theorem triangularStrength_sum [DecidableEq V] [PyOrd V] {g : Graph V A} (h : g.WF) {full : Bool}
    {d : Dict (V × V) Nat} (hd : triangularStrength g full = .ok d) :
    (d.map Prod.snd).sum = 3 * {s | g.IsTriangle s}.ncard ∧ (triangles g).yields.length = {s | g.IsTriangle s}.ncard := by
  obtain ⟨he, hnd, hmem⟩ := triangles_exact h
  have hset : {s | g.IsTriangle s} = (((triangles g).yields.map tripleSet).toFinset : Set (Finset V)) := by
    ext s
    simp only [Set.mem_setOf_eq, List.coe_toFinset]
    exact (hmem s).symm
  have hlen : (triangles g).yields.length = {s | g.IsTriangle s}.ncard := by
    rw [hset, Set.ncard_coe_finset, List.toFinset_card_of_nodup hnd, List.length_map]
  refine ⟨?_, hlen⟩
  rw [← hlen]
  unfold triangularStrength triangularStrengthOf at hd
  split at hd
  · cases hd
  · rename_i d0 h0
    simp only at hd
    split at hd
    · cases hd
    · cases hd
    · rename_i d1 h1 _
      cases hd
      rw [sum_countTriangles h1]
      have : (d0.map Prod.snd).sum = 0 := by
        cases full
        · cases h0; rfl
        · exact sum_zeroStrengths h0 rfl
      rw [this, Nat.zero_add]
      rfl

/-- Four triangles on four mutually adjacent nodes. -/
theorem triangularStrength_sum_sample :
    (k4 false false).WF ∧ (triangularStrength (k4 false false) true).map (fun d => (d.map Prod.snd).sum) = .ok 12 ∧
      (triangles (k4 false false)).yields.length = 4 :=
  ⟨k4_wf _ _, by decide +kernel, by decide +kernel⟩

end Pelote
