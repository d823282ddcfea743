import Verif.Props.KeepConnected

/-! C69: sparsifying twice. -/
set_option linter.unusedSectionVars false
namespace Pelote
open Graph
variable {V K : Type} [DecidableEq V] [Field K] [LinearOrder K] [IsStrictOrderedRing K]

/-- An edge of some maximum spanning forest of a graph, when kept in a subgraph, belongs to some maximum spanning forest
of the subgraph. -/
theorem maxSpanningForest_subfamily {ι κ : Type} [Fintype ι] [Fintype κ] [DecidableEq ι] [DecidableEq κ]
    {ends : ι → V × V} {weight : ι → K} (f : κ → ι) {k : κ}
    (h : ∃ F, IsMaxSpanningForest ends weight F ∧ f k ∈ F) :
    ∃ F, IsMaxSpanningForest (fun j => ends (f j)) (fun j => weight (f j)) F ∧ k ∈ F := by
  rw [mem_some_maxSpanningForest_iff] at h ⊢
  intro hl
  apply h
  clear h
  generalize (ends (f k)).1 = x at hl ⊢
  generalize (ends (f k)).2 = y at hl ⊢
  unfold LinkedBy at hl ⊢
  induction hl with
  | rel a b hab =>
    obtain ⟨j, hj, he⟩ := hab
    exact .rel _ _ ⟨f j, hj, he⟩
  | refl a => exact .refl _
  | symm _ _ _ ih => exact .symm _ _ ih
  | trans _ _ _ _ _ i1 i2 => exact .trans _ _ _ i1 i2

/-- C69.  With `keep_connected`, sparsifying again with the same threshold changes nothing (weights read from
`"weight"`, equal or more than `1e-8` apart). -/
theorem globalThreshold_keepConnected_idempotent_partial [PyOrd V] [AttrVal (Val K)] {ulongMax : Nat} (hu : 2^32 - 1 ≤ ulongMax)
    {g : Graph V (Val K)} (h : g.WF) (hm : g.multi = false) (t : K) (reverse : Bool)
    {w : Fin g.edgesData.length → K} (hw : ∀ i, HasNumber "weight" g.edgesData[i].2.2 (w i))
    (hsep : NoNearTies w) (hord : SafeOrder ulongMax g.order)
    (hkw : ∀ e ∈ g.edgesData, EdgeKwSafe g.multi e.2.2) :
    ∃ g₁ g₂, globalThresholdSparsification ulongMax g t "weight" reverse true = .ok g₁ ∧
      globalThresholdSparsification ulongMax g₁ t "weight" reverse true = .ok g₂ ∧
      g₂.directed = g₁.directed ∧ g₂.multi = g₁.multi ∧ g₂.attrs = g₁.attrs ∧ g₂.node = g₁.node ∧
      g₂.edgesData = g₁.edgesData := by
  classical
  have hnum : ∀ {g : Graph V (Val K)} {w : Fin g.edgesData.length → K},
      (∀ i, HasNumber "weight" g.edgesData[i].2.2 (w i)) →
      (∀ e ∈ g.edgesData, ∃ w, HasNumber "weight" e.2.2 w) ∧ g.Weights "weight" w := by
    intro g w hw
    constructor
    · intro e he
      obtain ⟨i, hi, rfl⟩ := List.mem_iff_getElem.1 he
      exact ⟨_, hw ⟨i, hi⟩⟩
    · intro i
      rcases hw i with h | h | h
      · exact .inr (.inl h)
      · exact .inr (.inr (.inl h))
      · exact .inr (.inr (.inr h))
  obtain ⟨hn, hW⟩ := hnum hw
  have herr := (unionOfMaximumSpanningTrees_exact hu h hW hsep hord).1
  obtain ⟨g₁, a1, hwf₁, -, hm₁, -, hnode₁, -⟩ := globalThreshold_exact ulongMax h t reverse true hn (fun _ => herr) hkw
  obtain ⟨g₁', a1', -, hE₁⟩ := keepConnected_weight_partial hu h hm t reverse hw hsep hord hkw
  rw [a1] at a1'
  cases a1'
  -- the edges of the sparse graph, as edges of the graph
  have hf : ∀ j : Fin g₁.edgesData.length, ∃ i : Fin g.edgesData.length, g₁.edgesData[j] = g.edgesData[i] ∧
      ((if reverse then w i ≤ t else t ≤ w i) ∨ ∃ F, IsMaxSpanningForest g.endsAt w F ∧ i ∈ F) := by
    intro j
    have := List.getElem_mem (l := g₁.edgesData) j.2
    generalize g₁.edgesData[j.1] = e at this ⊢
    rw [hE₁] at this
    obtain ⟨i, hi, he⟩ := List.mem_map.1 this
    have hi := (List.mem_filter.1 hi).2
    simp only [decide_eq_true_eq] at hi
    refine ⟨i, ?_, hi⟩
    rw [he]
  choose f hf1 hf2 using hf
  have hends : g₁.endsAt = fun j => g.endsAt (f j) := by
    funext j
    simp only [Graph.endsAt, hf1]
  have hw₁ : ∀ j : Fin g₁.edgesData.length, HasNumber "weight" g₁.edgesData[j].2.2 (w (f j)) := by
    intro j
    rw [hf1 j]
    exact hw (f j)
  have hsub : ∀ e ∈ g₁.edgesData, e ∈ g.edgesData := by
    intro e he
    obtain ⟨j, hj, rfl⟩ := List.mem_iff_getElem.1 he
    have := hf1 ⟨j, hj⟩
    simp only [Fin.getElem_fin] at this
    rw [this]
    exact List.getElem_mem _
  have hord₁ : SafeOrder ulongMax g₁.order := by
    unfold Graph.order
    rw [hnode₁]
    exact hord
  have hkw₁ : ∀ e ∈ g₁.edgesData, EdgeKwSafe g₁.multi e.2.2 := fun e he => by rw [hm₁]; exact hkw e (hsub e he)
  have hsep₁ : NoNearTies (fun j => w (f j)) := fun i j => hsep (f i) (f j)
  obtain ⟨hn₁, hW₁⟩ := hnum hw₁
  have herr₁ := (unionOfMaximumSpanningTrees_exact hu hwf₁ hW₁ hsep₁ hord₁).1
  obtain ⟨g₂, b1, -, b2, b3, b4, b5, -⟩ := globalThreshold_exact ulongMax hwf₁ t reverse true hn₁ (fun _ => herr₁) hkw₁
  obtain ⟨g₂', b1', -, hE₂⟩ := keepConnected_weight_partial hu hwf₁ (hm₁.trans hm) t reverse hw₁ hsep₁ hord₁ hkw₁
  rw [b1] at b1'
  cases b1'
  refine ⟨g₁, g₂, a1, b1, b2, b3, b4, b5, ?_⟩
  rw [hE₂, List.filter_eq_self.2]
  · simp
  · intro j _
    simp only [decide_eq_true_eq]
    rcases hf2 j with h1 | h1
    · exact .inl h1
    · right
      rw [hends]
      exact maxSpanningForest_subfamily f h1

/-- A star of weights 8, 1 and 1. -/
def heavyStar : Graph Int (Val ℚ) :=
  ⟨false, false, [], [(0, []), (1, []), (2, []), (3, [])],
    [⟨0, 1, [(.int 0, [(.str "weight", .num 8)])]⟩, ⟨0, 2, [(.int 0, [(.str "weight", .num 1)])]⟩,
     ⟨0, 3, [(.int 0, [(.str "weight", .num 1)])]⟩]⟩

/-- C69 is false of the multiscale backbone: the first call keeps the heavy edge, the second one drops it, as both its
ends then have degree 1. -/
theorem multiscaleBackbone_not_idempotent :
    heavyStar.WF ∧ edgesOk (multiscaleBackbone (2^64-1) heavyStar (1/2) "weight" false) = some [(0, 1)] ∧
      edgesOk ((multiscaleBackbone (2^64-1) heavyStar (1/2) "weight" false).bind
        (fun g => multiscaleBackbone (2^64-1) g (1/2) "weight" false)) = some [] := by
  exact ⟨by constructor <;> decide, by decide +kernel, by decide +kernel⟩

/-- A self loop heading a bucket, an edge at the end of the bucket, and a triangle of nearby weights. -/
def slidingBuckets : Graph Int (Val ℚ) :=
  ⟨false, false, [], [(1, []), (2, []), (3, []), (4, []), (5, [])],
    [⟨1, 1, [(.int 0, [(.str "weight", .num 1)])]⟩,
     ⟨4, 5, [(.int 0, [(.str "weight", .num (1 - 9 / 10^9))])]⟩,
     ⟨1, 2, [(.int 0, [(.str "weight", .num (1 - 11 / 10^9))])]⟩,
     ⟨2, 3, [(.int 0, [(.str "weight", .num (1 - 11 / 10^9))])]⟩,
     ⟨1, 3, [(.int 0, [(.str "weight", .num (1 - 20 / 10^9))])]⟩]⟩

/-- C69 is false with `keep_connected` when weights differ by less than `1e-8` or so: once the self loop is dropped the
buckets of nearly equal weights start elsewhere, so that another edge is dropped by the second call. -/
theorem globalThreshold_keepConnected_near_ties :
    slidingBuckets.WF ∧
      edgesOk (globalThresholdSparsification (2^64-1) slidingBuckets 2 "weight" false true) =
        some [(1, 2), (1, 3), (2, 3), (4, 5)] ∧
      edgesOk ((globalThresholdSparsification (2^64-1) slidingBuckets 2 "weight" false true).bind
        (fun g => globalThresholdSparsification (2^64-1) g 2 "weight" false true)) = some [(1, 2), (2, 3), (4, 5)] := by
  exact ⟨by constructor <;> decide, by decide +kernel, by decide +kernel⟩

end Pelote
