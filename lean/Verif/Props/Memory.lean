import Verif.Lemmas.Memory
import Verif.Lemmas.Checked

/-! C84: predicates with memory, and what they are asked. -/
set_option linter.unusedSectionVars false
namespace Pelote
variable {V A σ : Type} [DecidableEq V]
open Graph

/-! ### Functions without memory are a special case -/

theorem edgesToDropM_pure (f : EdgePred V A) (es : List (V × V × Attrs A)) (s : σ) :
    edgesToDropM (fun u v a s => (f u v a, s)) es s = (edgesToDrop f es, s) := by
  induction es with
  | nil => rfl
  | cons e es ih =>
    obtain ⟨u, v, a⟩ := e
    simp only [edgesToDropM, edgesToDrop]
    rcases f u v a with x | b
    · rfl
    · simp only [ih]
      rcases edgesToDrop f es with x | l <;> rfl

/-- A predicate without memory: the functions are those of the other properties. -/
theorem removeEdgesM_pure (g : Graph V A) (f : EdgePred V A) (s : σ) :
    removeEdgesM g (fun u v a s => (f u v a, s)) s = (removeEdges g f, s) := by
  unfold removeEdgesM removeEdges
  rw [edgesToDropM_pure]
  rcases edgesToDrop f g.edgesData with x | l <;> rfl

theorem filterEdgesM_pure [AttrVal A] (g : Graph V A) (f : EdgePred V A) (s : σ) :
    filterEdgesM g (fun u v a s => (f u v a, s)) s = (filterEdges g f, s) := by
  unfold filterEdgesM filterEdges
  generalize g.createEmptyCopy = c
  induction g.edgesData generalizing c with
  | nil => rfl
  | cons e es ih =>
    obtain ⟨u, v, a⟩ := e
    simp only [filterEdgesLoopM, filterEdgesLoop]
    rcases f u v a with x | _ | _
    · rfl
    · exact ih c
    · simp only
      rcases c.addEdge u v a with x | c'
      · rfl
      · exact ih c'

theorem removeNodesM_pure (g : Graph V A) (f : NodePred V A) (s : σ) :
    removeNodesM g (fun n a s => (f n a, s)) s = (removeNodes g f, s) := by
  unfold removeNodesM removeNodes
  have : ∀ ns : Dict V (Attrs A), nodesToDropM (fun n a s => (f n a, s)) ns s = (nodesToDrop f ns, s) := by
    intro ns
    induction ns with
    | nil => rfl
    | cons e es ih =>
      obtain ⟨n, a⟩ := e
      simp only [nodesToDropM, nodesToDrop]
      rcases f n a with x | b
      · rfl
      · simp only [ih]
        rcases nodesToDrop f es with x | l <;> rfl
  rw [this]
  rcases nodesToDrop f g.node with x | l <;> rfl

theorem filterNodesM_pure [AttrVal A] [PyOrd V] (g : Graph V A) (f : NodePred V A) (s : σ) :
    filterNodesM g (fun n a s => (f n a, s)) s = (filterNodes g f, s) := by
  have h1 : ∀ (es : List (V × V × PyKey × Attrs A)) (c : Graph V A),
      filterNodesEdgesM g (fun n a s => (f n a, s)) es c s = (filterNodesEdges g f es c, s) := by
    intro es
    induction es with
    | nil => intro c; rfl
    | cons e es ih =>
      intro c
      obtain ⟨u, v, k, a⟩ := e
      simp only [filterNodesEdgesM, filterNodesEdges]
      rcases (if g.directed = true then (.ok true : Py Bool) else PyOrd.gt u v) with x | _ | _
      · rfl
      · exact ih c
      · simp only
        rcases g.nodeData v with x | av
        · rfl
        · simp only
          rcases f v av with x | _ | _
          · rfl
          · exact ih c
          · simp only
            rcases (if g.multi = true then c.addEdgeKey u v k a else c.addEdge u v a) with x | c'
            · rfl
            · exact ih c'
  have h2 : ∀ (ns : Dict V (Attrs A)) (c : Graph V A),
      filterNodesLoopM g (fun n a s => (f n a, s)) ns c s = (filterNodesLoop g f ns c, s) := by
    intro ns
    induction ns with
    | nil => intro c; rfl
    | cons e es ih =>
      intro c
      obtain ⟨n, a⟩ := e
      simp only [filterNodesLoopM, filterNodesLoop]
      rcases f n a with x | _ | _
      · rfl
      · exact ih c
      · simp only
        rcases c.addNode n a with x | c'
        · rfl
        · simp only [h1]
          rcases filterNodesEdges g f (g.edgesOf n) c' with x | c''
          · rfl
          · exact ih c''
  unfold filterNodesM filterNodes
  rcases createNullCopy g with x | c
  · rfl
  · exact h2 _ c

theorem connectedComponentOrdersM_pure (g : Graph V A) (f : EdgePred V A) (s : σ) :
    connectedComponentOrdersM g (fun u v a s => (f u v a, s)) s = (connectedComponentOrders g (some f), s) := by
  have h1 : ∀ (n : V) (es : List (V × V × PyKey × Attrs A)) (t : Traversal V V),
      pushNeighborsM (fun u v a s => (f u v a, s)) n es t s = (pushNeighbors (some f) n es t, s) := by
    intro n es
    induction es with
    | nil => intro t; rfl
    | cons e es ih =>
      intro t
      obtain ⟨u, v, k, a⟩ := e
      simp only [pushNeighborsM, pushNeighbors, follows]
      rcases f n v a with x | b
      · rfl
      · exact ih _
  have h2 : ∀ (fuel : Nat) (t : Traversal V V) (size : Nat),
      drainStackM g (fun u v a s => (f u v a, s)) fuel t size s = (drainStack g (some f) fuel t size, s) := by
    intro fuel
    induction fuel with
    | zero => intro t size; unfold drainStackM drainStack; split <;> rfl
    | succ fuel ih =>
      intro t size
      unfold drainStackM drainStack
      split
      · rfl
      · rcases t.pop with x | ⟨t', n⟩
        · rfl
        · simp only [h1]
          rcases pushNeighbors (some f) n (g.edgesOf n) t' with x | t''
          · rfl
          · exact ih _ _
  have h3 : ∀ (ns : List V) (t : Traversal V V),
      componentOrdersLoopM g (fun u v a s => (f u v a, s)) ns t s = (componentOrdersLoop g (some f) ns t, s) := by
    intro ns
    induction ns with
    | nil => intro t; rfl
    | cons n ns ih =>
      intro t
      unfold componentOrdersLoopM componentOrdersLoop
      split
      · rfl
      · split
        · exact ih t
        · rw [h2]
          rcases drainStack g (some f) g.order (t.append id n none).1 0 with x | ⟨m, t'⟩
          · rfl
          · simp only [ih]
  exact h3 _ _

/-! ### One question for each edge or node -/

/-- C84 for `remove_edges`, on a simple graph: the predicate is asked about each edge once, in listing order, and the edges
left are those it answered `True` to. -/
theorem removeEdges_asks_once {g : Graph V A} (h : g.WF) (hm : g.multi = false) {f : EdgePredM σ V A} {s s' : σ}
    {bs : List Bool} (hc : Consulted (fun e => f e.1 e.2.1 e.2.2) g.edgesData s bs s') :
    ∃ g', removeEdgesM g f s = ((g', .ok ()), s') ∧ g'.WF ∧ g'.directed = g.directed ∧ g'.multi = g.multi ∧
      g'.attrs = g.attrs ∧ g'.node = g.node ∧ g'.edgesKeys = kept g.edgesKeys bs := by
  obtain ⟨p, hp⟩ := exists_answer (fun e : V × V × Attrs A => (e.1, e.2.1)) hc.length (pairs_nodup h hm)
  obtain ⟨g', h1, h2, h3, h4, h5, h6, h7⟩ := removeEdges_simple h hm (pred := fun u v _ => .ok (p (u, v)))
    (p := fun u v _ => p (u, v)) (fun _ _ => rfl)
  refine ⟨g', ?_, h2, h3, h4, h5, h6, ?_⟩
  · have h8 : (removeEdges g (fun u v _ => .ok (p (u, v)))) = (g.removeEdgesFrom
        ((g.edgesData.filter (fun e => !p (e.1, e.2.1))).map (fun e => (e.1, e.2.1))), .ok ()) := by
      unfold removeEdges
      rw [edgesToDrop_ok (p := fun u v _ => p (u, v)) (fun _ _ => rfl)]
    rw [h8] at h1
    unfold removeEdgesM
    rw [edgesToDropM_ok hc, hp]
    simp only [List.map_map, Function.comp_def]
    rw [kept_map, h1]
  · rw [h7, hp]
    unfold edgesData
    rw [List.map_map]
    exact (kept_map g.edgesKeys _).symm

/-- C84 for `remove_edges`, on any graph: if the predicate raises, it is not asked further and the graph is unchanged. -/
theorem removeEdges_asks_raises {g : Graph V A} {f : EdgePredM σ V A} {s s₁ s₂ : σ} {bs : List Bool}
    {pre post : List (V × V × Attrs A)} {x : V × V × Attrs A} {e : PyErr} (hx : g.edgesData = pre ++ x :: post)
    (hc : Consulted (fun e => f e.1 e.2.1 e.2.2) pre s bs s₁) (hf : f x.1 x.2.1 x.2.2 s₁ = (.error e, s₂)) :
    removeEdgesM g f s = ((g, .error e), s₂) := by
  unfold removeEdgesM
  rw [hx, edgesToDropM_error hc hf]

/-- C84 for `filter_edges`, on any graph. -/
theorem filterEdges_asks_once [AttrVal A] {g : Graph V A} (h : g.WF) {f : EdgePredM σ V A} {s s' : σ}
    {bs : List Bool} (hc : Consulted (fun e => f e.1 e.2.1 e.2.2) g.edgesData s bs s')
    (hkw : ∀ e ∈ kept g.edgesData bs, EdgeKwSafe g.multi e.2.2) :
    ∃ g', filterEdgesM g f s = (.ok g', s') ∧ g'.WF ∧ g'.directed = g.directed ∧ g'.multi = g.multi ∧
      g'.attrs = g.attrs ∧ g'.node = g.node ∧ g'.edgesData = kept g.edgesData bs := by
  have hl : bs.length = g.edgesKeys.length := by rw [hc.length]; simp [edgesData]
  obtain ⟨p, hp⟩ := exists_answer (fun e : V × V × PyKey × Attrs A => (e.1, e.2.1, e.2.2.1)) hl (edgesKeys_nodup h)
  have hk : (g.selectEdges p).edgesData = kept g.edgesData bs := by
    unfold edgesData
    rw [selectEdges_edgesKeys h, kept_map_left, hp, kept_map]
  obtain ⟨h1, h2, h3⟩ := rebuild (selectEdges_wf h p) (fun _ _ _ => true)
  simp only [List.filter_true] at h1 h2 h3
  have hr : filterEdgesM g f s = (.ok (addAll (g.selectEdges p).createEmptyCopy (g.selectEdges p).edgesData), s') := by
    unfold filterEdgesM
    rw [filterEdgesLoopM_ok (copy := g.createEmptyCopy) hc hkw, hk]
    rfl
  refine ⟨_, hr, h2, ?_, ?_, ?_, ?_, h3.trans hk⟩ <;> rw [h1] <;> rfl

theorem filterEdges_asks_raises [AttrVal A] {g : Graph V A} {f : EdgePredM σ V A} {s s₁ s₂ : σ} {bs : List Bool}
    {pre post : List (V × V × Attrs A)} {x : V × V × Attrs A} {e : PyErr} (hx : g.edgesData = pre ++ x :: post)
    (hc : Consulted (fun e => f e.1 e.2.1 e.2.2) pre s bs s₁) (hf : f x.1 x.2.1 x.2.2 s₁ = (.error e, s₂))
    (hkw : ∀ e ∈ kept pre bs, EdgeKwSafe g.multi e.2.2) :
    filterEdgesM g f s = (.error e, s₂) := by
  unfold filterEdgesM
  rw [hx, filterEdgesLoopM_error (copy := g.createEmptyCopy) hc hkw hf]

/-- C84 for `remove_nodes`: the predicate is asked about each node once, in order, and the graph left is the one induced by
the nodes it answered `True` to. -/
theorem removeNodes_asks_once {g : Graph V A} (h : g.WF) {f : NodePredM σ V A} {s s' : σ}
    {bs : List Bool} (hc : Consulted (fun q => f q.1 q.2) g.node s bs s') :
    ∃ g', removeNodesM g f s = ((g', .ok ()), s') ∧ g'.WF ∧ g'.directed = g.directed ∧ g'.multi = g.multi ∧
      g'.attrs = g.attrs ∧ g'.node = kept g.node bs ∧
      g'.edgesKeys = g.edgesKeys.filter (fun e => decide (e.1 ∈ g'.nodes) && decide (e.2.1 ∈ g'.nodes)) := by
  obtain ⟨p, hp⟩ := exists_answer Prod.fst hc.length h.nodup
  obtain ⟨g', h1, h2, h3, h4, h5, h6, h7⟩ := removeNodes_exact h (pred := fun n _ => .ok (p n))
    (p := fun n _ => p n) (fun _ _ => rfl)
  refine ⟨g', ?_, h2, h3, h4, h5, ?_, h7⟩
  · have h8 : (removeNodes g (fun n _ => .ok (p n))) = (g.removeNodesFrom
        ((g.node.filter (fun e => !p e.1)).map Prod.fst), .ok ()) := by
      unfold removeNodes
      rw [nodesToDrop_ok (p := fun n _ => p n) (fun _ _ => rfl)]
    rw [h8] at h1
    unfold removeNodesM
    rw [nodesToDropM_ok hc, hp]
    simp only [List.map_map, Function.comp_def]
    rw [kept_map, h1]
  · rw [h6, hp, kept_map]

theorem removeNodes_asks_raises {g : Graph V A} {f : NodePredM σ V A} {s s₁ s₂ : σ} {bs : List Bool}
    {pre post : Dict V (Attrs A)} {x : V × Attrs A} {e : PyErr} (hx : g.node = pre ++ x :: post)
    (hc : Consulted (fun q => f q.1 q.2) pre s bs s₁) (hf : f x.1 x.2 s₁ = (.error e, s₂)) :
    removeNodesM g f s = ((g, .error e), s₂) := by
  unfold removeNodesM
  rw [hx, nodesToDropM_error hc hf]

/-- Consulting a function either gives an answer to each question, or an exception at the first question it raises on. -/
theorem consulted_or_raises {α : Type} (f : α → σ → Py Bool × σ) (xs : List α) (s : σ) :
    (∃ bs s', Consulted f xs s bs s') ∨
      ∃ pre x post bs s₁ e s₂, xs = pre ++ x :: post ∧ Consulted f pre s bs s₁ ∧ f x s₁ = (.error e, s₂) := by
  induction xs generalizing s with
  | nil => exact .inl ⟨[], s, .nil s⟩
  | cons x xs ih =>
    rcases hf : f x s with ⟨e | b, s₁⟩
    · exact .inr ⟨[], x, xs, [], s, e, s₁, rfl, .nil s, hf⟩
    · rcases ih s₁ with ⟨bs, s', h⟩ | ⟨pre, y, post, bs, s₂, e, s₃, h1, h2, h3⟩
      · exact .inl ⟨b :: bs, s', .cons hf h⟩
      · exact .inr ⟨x :: pre, y, post, b :: bs, s₂, e, s₃, by rw [h1]; rfl, .cons hf h2, h3⟩

/-! ### Lemmas on the traversal -/

theorem Consulted.append {α : Type} {f : α → σ → Py Bool × σ} {xs ys : List α} {s s₁ s₂ : σ} {bs cs : List Bool}
    (h : Consulted f xs s bs s₁) (h' : Consulted f ys s₁ cs s₂) : Consulted f (xs ++ ys) s (bs ++ cs) s₂ := by
  induction h with
  | nil => exact h'
  | cons h1 _ ih => exact .cons h1 (ih h')

/-- What the edge filter is asked when a node is visited: its edges, from it. -/
def Graph.questions (g : Graph V A) (n : V) : List (V × V × Attrs A) := (g.edgesOf n).map (fun e => (n, e.2.1, e.2.2.2))

theorem pushNeighborsM_cases (f : EdgePredM σ V A) (n : V) (es : List (V × V × PyKey × Attrs A)) (t : Traversal V V) (s : σ)
    (hn : t.seen.Nodup) :
    (∃ t' s' bs extra, pushNeighborsM f n es t s = (.ok t', s') ∧
        Consulted (fun e => f e.1 e.2.1 e.2.2) (es.map (fun e => (n, e.2.1, e.2.2.2))) s bs s' ∧
        t'.items = t.items ++ extra ∧ t'.seen = extra.reverse ++ t.seen ∧ t'.seen.Nodup ∧ t'.graph = t.graph ∧
        ∀ x ∈ extra, ∃ e ∈ es, e.2.1 = x) ∨
      ∃ x s', pushNeighborsM f n es t s = (.error x, s') ∧ ∃ e ∈ es, ∃ s₁, f n e.2.1 e.2.2.2 s₁ = (.error x, s') := by
  induction es generalizing t s with
  | nil => exact .inl ⟨t, s, [], [], rfl, .nil s, by simp, by simp, hn, rfl, by simp⟩
  | cons e es ih =>
    obtain ⟨u, v, k, a⟩ := e
    simp only [pushNeighborsM]
    rcases hf : f n v a s with ⟨x | b, s₁⟩
    · exact .inr ⟨x, s₁, rfl, (u, v, k, a), by simp, s, hf⟩
    · simp only
      have key : ∀ t₁ : Traversal V V, ∀ new : List V, t₁.items = t.items ++ new → t₁.seen = new.reverse ++ t.seen →
          t₁.seen.Nodup → t₁.graph = t.graph → (∀ x ∈ new, x = v) →
          (∃ t' s' bs extra, pushNeighborsM f n es t₁ s₁ = (.ok t', s') ∧
            Consulted (fun e => f e.1 e.2.1 e.2.2) (((u, v, k, a) :: es).map (fun e => (n, e.2.1, e.2.2.2))) s bs s' ∧
            t'.items = t.items ++ extra ∧ t'.seen = extra.reverse ++ t.seen ∧ t'.seen.Nodup ∧ t'.graph = t.graph ∧
            ∀ x ∈ extra, ∃ e ∈ (u, v, k, a) :: es, e.2.1 = x) ∨
          ∃ x s', pushNeighborsM f n es t₁ s₁ = (.error x, s') ∧
            ∃ e ∈ (u, v, k, a) :: es, ∃ s₁, f n e.2.1 e.2.2.2 s₁ = (.error x, s') := by
        intro t₁ new h1 h2 h3 h4 h5
        rcases ih t₁ s₁ h3 with ⟨t', s', bs, extra, p1, p2, p3, p4, p5, p6, p7⟩ | ⟨x, s', p1, e, p2, p3⟩
        · refine .inl ⟨t', s', b :: bs, new ++ extra, p1, .cons hf p2, ?_, ?_, p5, p6.trans h4, ?_⟩
          · rw [p3, h1, List.append_assoc]
          · rw [p4, h2, List.reverse_append, List.append_assoc]
          · intro x hx
            rcases List.mem_append.1 hx with hx | hx
            · exact ⟨(u, v, k, a), by simp, (h5 x hx).symm⟩
            · obtain ⟨e, he, hx⟩ := p7 x hx
              exact ⟨e, List.mem_cons_of_mem _ he, hx⟩
        · exact .inr ⟨x, s', p1, e, List.mem_cons_of_mem _ p2, p3⟩
      cases b with
      | false => exact key t [] (by simp) (by simp) hn rfl (by simp)
      | true =>
        by_cases hv : v ∈ t.seen
        · rw [if_pos rfl, append_seen hv]
          exact key t [] (by simp) (by simp) hn rfl (by simp)
        · rw [if_pos rfl]
          have hu : (t.append id v none).1 = { t with seen := v :: t.seen, items := t.items ++ [v] } := by
            unfold Traversal.append
            simp [hv]
          rw [hu]
          exact key _ [v] rfl rfl (List.nodup_cons.2 ⟨hv, hn⟩) rfl (by simp)

/-- The filter raised on some edge of the graph. -/
def RaisedOnM (g : Graph V A) (f : EdgePredM σ V A) (x : PyErr) (s' : σ) : Prop :=
  ∃ n ∈ g.nodes, ∃ e ∈ g.edgesOf n, ∃ s₁, f n e.2.1 e.2.2.2 s₁ = (.error x, s')

theorem drainStackM_cases {g : Graph V A} (h : g.WF) (f : EdgePredM σ V A) (fuel : Nat) (t : Traversal V V) (size : Nat)
    (s : σ) (hn : t.seen.Nodup) (hs : ∀ x ∈ t.seen, x ∈ g.nodes) (hi : ∀ x ∈ t.items, x ∈ g.nodes)
    (hf : g.nodes.length + t.items.length ≤ fuel + t.seen.length) :
    (∃ t' s' bs popped, drainStackM g f fuel t size s = (.ok (size + popped.length, t'), s') ∧
        Consulted (fun e => f e.1 e.2.1 e.2.2) (popped.flatMap g.questions) s bs s' ∧
        (popped ++ t.seen).Perm (t.items ++ t'.seen) ∧ t'.items = [] ∧ t'.graph = t.graph ∧ t'.seen.Nodup ∧
        (∀ x ∈ t'.seen, x ∈ g.nodes) ∧ ∀ x ∈ t.seen, x ∈ t'.seen) ∨
      ∃ x s', drainStackM g f fuel t size s = (.error x, s') ∧ RaisedOnM g f x s' := by
  induction fuel generalizing t size s with
  | zero =>
    have h0 : t.items.length = 0 := by
      have := (hn.subperm (fun x hx => hs x hx)).length_le
      omega
    have h1 := List.length_eq_zero_iff.1 h0
    refine .inl ⟨t, s, [], [], ?_, .nil s, by simp [h1], h1, rfl, hn, hs, fun _ hx => hx⟩
    unfold drainStackM
    rw [if_pos (show t.len = 0 from h0)]
    rfl
  | succ fuel ih =>
    by_cases h0 : t.items = []
    · refine .inl ⟨t, s, [], [], ?_, .nil s, by simp [h0], h0, rfl, hn, hs, fun _ hx => hx⟩
      unfold drainStackM
      rw [if_pos (by simp [Traversal.len, h0])]
      rfl
    · unfold drainStackM
      rw [if_neg (by simpa [Traversal.len] using h0)]
      have hlast := List.getLast?_eq_some_getLast h0
      have hpop : t.pop = .ok ({ t with items := t.items.dropLast }, t.items.getLast h0) := by
        unfold Traversal.pop; rw [hlast]
      simp only [hpop]
      generalize hl : t.items.getLast h0 = n at *
      have hsplit : t.items = t.items.dropLast ++ [n] := by
        rw [← hl]; exact (List.dropLast_append_getLast h0).symm
      generalize t.items.dropLast = init at *
      have hnm : n ∈ g.nodes := hi n (by rw [hsplit]; simp)
      rcases pushNeighborsM_cases f n (g.edgesOf n) { t with items := init } s hn with
        ⟨t', s', bs, extra, hp, hc, h1, h2, h3, h4, h5⟩ | ⟨x, s', hp, e, he, s₁, hfe⟩
      · rw [hp]
        simp only
        simp only at h1 h2 h4
        have hnew : ∀ x ∈ extra, x ∈ g.nodes := by
          intro x hx
          obtain ⟨⟨u, m, k, a⟩, he, rfl⟩ := h5 x hx
          exact (edgesOf_nodes h he).2
        rcases ih t' (size + 1) s' h3 (by
            intro x hx
            rw [h2, List.mem_append, List.mem_reverse] at hx
            exact hx.elim (hnew x) (hs x)) (by
            intro x hx
            rw [h1, List.mem_append] at hx
            exact hx.elim (fun hx => hi x (by rw [hsplit]; simp [hx])) (hnew x)) (by
            rw [h1, h2, List.length_append, List.length_append, List.length_reverse]
            rw [hsplit, List.length_append, List.length_singleton] at hf
            omega) with ⟨t'', s'', cs, popped, q1, q2, q3, q4, q5, q6, q7, q8⟩ | ⟨x, s'', q1, q2⟩
        · refine .inl ⟨t'', s'', bs ++ cs, n :: popped, ?_, ?_, ?_, q4, q5.trans h4, q6, q7,
            fun x hx => q8 x (by rw [h2]; simp [hx])⟩
          · rw [q1, List.length_cons, Nat.add_right_comm, Nat.add_assoc]
          · rw [List.flatMap_cons]
            exact hc.append q2
          · have e1 : (extra ++ (popped ++ t.seen)).Perm (extra ++ (init ++ t''.seen)) := by
              refine .trans ?_ (q3.trans ?_)
              · rw [h2]
                refine .trans ?_ (List.Perm.append_left popped ((List.reverse_perm extra).symm.append_right t.seen))
                rw [← List.append_assoc, ← List.append_assoc]
                exact List.perm_append_comm.append_right _
              · rw [h1, ← List.append_assoc]
                exact List.perm_append_comm.append_right _
            have e2 := (List.perm_append_left_iff extra).1 e1
            rw [hsplit, List.append_assoc, List.cons_append]
            exact (e2.cons n).trans List.perm_middle.symm
        · exact .inr ⟨x, s'', q1, q2⟩
      · rw [hp]
        exact .inr ⟨x, s', rfl, n, hnm, e, he, s₁, hfe⟩

theorem componentOrdersLoopM_cases {g : Graph V A} (h : g.WF) (f : EdgePredM σ V A) (ns : List V) (t : Traversal V V)
    (s : σ) (hn : t.seen.Nodup) (hs : ∀ x ∈ t.seen, x ∈ g.nodes) (hi : t.items = []) (hg : t.graph = g.nodes)
    (hcov : ∀ x ∈ g.nodes, x ∈ t.seen ∨ x ∈ ns) (hns : ∀ x ∈ ns, x ∈ g.nodes) :
    ((componentOrdersLoopM g f ns t s).1.err = none ∧ ∃ bs popped,
        Consulted (fun e => f e.1 e.2.1 e.2.2) (popped.flatMap g.questions) s bs (componentOrdersLoopM g f ns t s).2 ∧
        (popped ++ t.seen).Perm g.nodes ∧ (componentOrdersLoopM g f ns t s).1.yields.sum = popped.length) ∨
      ∃ x, (componentOrdersLoopM g f ns t s).1.err = some x ∧ RaisedOnM g f x (componentOrdersLoopM g f ns t s).2 := by
  induction ns generalizing t s with
  | nil =>
    refine .inl ⟨rfl, [], [], .nil s, ?_, rfl⟩
    exact (List.perm_ext_iff_of_nodup hn h.nodup).2 (fun x => ⟨hs x, fun hx => by simpa using hcov x hx⟩)
  | cons n ns ih =>
    unfold componentOrdersLoopM
    split
    · rename_i hall
      refine .inl ⟨rfl, [], [], .nil s, ?_, rfl⟩
      have hl : t.seen.length = g.nodes.length := by
        rw [← hg]
        simpa [Traversal.seenAll] using hall
      exact (hn.subperm (fun x hx => hs x hx)).perm_of_length_le (by omega)
    · split
      · rename_i hcon
        have hcon : n ∈ t.seen := by simpa [Traversal.contains] using hcon
        exact ih t s hn hs hi hg (fun x hx => by
          rcases hcov x hx with hx | hx
          · exact .inl hx
          · rcases List.mem_cons.1 hx with rfl | hx
            · exact .inl hcon
            · exact .inr hx) (fun x hx => hns x (List.mem_cons_of_mem _ hx))
      · rename_i hcon
        have hcon : n ∉ t.seen := by simpa [Traversal.contains] using hcon
        have hnm := hns n (by simp)
        have hu : (t.append id n none).1 = { t with seen := n :: t.seen, items := [n] } := by
          unfold Traversal.append
          simp [hcon, hi]
        rw [hu]
        rcases drainStackM_cases h f g.order { t with seen := n :: t.seen, items := [n] } 0 s
            (List.nodup_cons.2 ⟨hcon, hn⟩) (by
              intro x hx
              rcases List.mem_cons.1 hx with rfl | hx
              · exact hnm
              · exact hs x hx) (by
              intro x hx
              rw [List.mem_singleton.1 hx]
              exact hnm) (by
              simp [Graph.order, Graph.nodes, Dict.keys]) with
          ⟨t', s', bs, popped, p1, p2, p3, p4, p5, p6, p7, p8⟩ | ⟨x, s', p1, p2⟩
        · simp only [p1]
          have hp : (popped ++ t.seen).Perm t'.seen := by
            have := p3
            simp only [List.singleton_append] at this
            exact (List.perm_cons n).1 (List.perm_middle.symm.trans this)
          rcases ih t' s' p6 p7 p4 (p5.trans hg) (fun x hx => by
              rcases hcov x hx with hx | hx
              · exact .inl (hp.subset (by simp [hx]))
              · rcases List.mem_cons.1 hx with rfl | hx
                · exact .inl (p8 x (by simp))
                · exact .inr hx) (fun x hx => hns x (List.mem_cons_of_mem _ hx)) with
            ⟨q0, cs, popped', q1, q2, q3⟩ | ⟨x, q1, q2⟩
          · refine .inl ⟨q0, bs ++ cs, popped ++ popped', ?_, ?_, ?_⟩
            · rw [List.flatMap_append]
              exact p2.append q1
            · refine .trans ?_ q2
              refine .trans ?_ (hp.append_left popped')
              rw [← List.append_assoc]
              exact List.perm_append_comm.append_right _
            · simp only [List.sum_cons, q3, List.length_append, Nat.zero_add]
          · exact .inr ⟨x, q1, q2⟩
        · simp only [p1]
          exact .inr ⟨x, rfl, p2⟩

/-! ### `connected_component_orders` -/

/-- C84 for `connected_component_orders`: whatever the filter answers and remembers, the orders add up to the order of the
graph, and each node is visited once, the filter being then asked once about each of its edges; unless it raises. -/
theorem componentOrders_asks {g : Graph V A} (h : g.WF) (f : EdgePredM σ V A) (s : σ) :
    ((connectedComponentOrdersM g f s).1.err = none ∧ (connectedComponentOrdersM g f s).1.yields.sum = g.order ∧
        ∃ (visited : List V) (bs : List Bool), visited.Perm g.nodes ∧
          Consulted (fun e => f e.1 e.2.1 e.2.2) (visited.flatMap g.questions) s bs (connectedComponentOrdersM g f s).2) ∨
      ∃ x, (connectedComponentOrdersM g f s).1.err = some x ∧ ∃ n ∈ g.nodes, ∃ q ∈ g.questions n, ∃ s₁,
        f q.1 q.2.1 q.2.2 s₁ = (.error x, (connectedComponentOrdersM g f s).2) := by
  rcases componentOrdersLoopM_cases h f g.nodes (Traversal.init g.nodes) s (by simp [Traversal.init])
    (by simp [Traversal.init]) rfl rfl (fun x hx => .inr hx) (fun x hx => hx) with ⟨h1, bs, popped, h2, h3, h4⟩ | ⟨x, h1, n, hn, e, he, s₁, hs⟩
  · have h3 : popped.Perm g.nodes := by simpa [Traversal.init] using h3
    refine .inl ⟨h1, ?_, popped, bs, h3, h2⟩
    unfold connectedComponentOrdersM
    rw [h4, h3.length_eq]
    simp [Graph.order, Graph.nodes, Dict.keys]
  · exact .inr ⟨x, h1, n, hn, _, List.mem_map_of_mem he, s₁, hs⟩

/-! ### `filter_nodes` -/

/-- What `filter_nodes` asks a predicate without memory: about each node and, when it is kept, about the nodes its edges lead
to (in an undirected graph, only those it is greater than). -/
def Graph.filterQuestions [PyOrd V] (g : Graph V A) (p : V → Attrs A → Bool) : List (V × Attrs A) :=
  g.node.flatMap (fun q => q :: if p q.1 q.2 then
    ((g.edgesOf q.1).filter (fun e => g.directed || decide (PyOrd.gt e.1 e.2.1 = .ok true))).flatMap
      (fun e => g.node.filter (fun r => decide (r.1 = e.2.1)))
    else [])

theorem nodeData_filter {g : Graph V A} (h : g.WF) {v : V} {a : Attrs A} (hv : g.nodeData v = .ok a) :
    g.node.filter (fun r => decide (r.1 = v)) = [(v, a)] := by
  have hn := h.nodup
  unfold Graph.nodeData Dict.getItem at hv
  have hv : Dict.get? g.node v = some a := by
    rcases hd : Dict.get? g.node v with _ | b <;> simp [hd] at hv ⊢
    exact hv
  unfold Graph.nodes Dict.keys at hn
  generalize g.node = l at hn hv
  induction l with
  | nil => simp [Dict.get?] at hv
  | cons q l ih =>
    obtain ⟨w, b⟩ := q
    rw [List.map_cons, List.nodup_cons] at hn
    by_cases hq : w = v
    · subst hq
      have : l.filter (fun r => decide (r.1 = w)) = [] := by
        rw [List.filter_eq_nil_iff]
        intro r hr hd
        exact hn.1 (List.mem_map.2 ⟨r, hr, by simpa using hd⟩)
      rw [List.filter_cons_of_pos (by simp), this]
      simp [Dict.get?] at hv
      rw [← hv]
    · rw [List.filter_cons_of_neg (by simpa using hq)]
      refine ih hn.2 ?_
      simpa [Dict.get?, hq] using hv

theorem filterNodesEdgesM_noting [AttrVal A] [PyOrd V] {g : Graph V A} (h : g.WF) (p : V → Attrs A → Bool)
    (es : List (V × V × PyKey × Attrs A)) (c c' : Graph V A) (asked asked' : List (V × Attrs A))
    (hr : filterNodesEdgesM g (fun n a => noting (fun q => .ok (p q.1 q.2)) (n, a)) es c asked = (.ok c', asked')) :
    asked' = asked ++ (es.filter (fun e => g.directed || decide (PyOrd.gt e.1 e.2.1 = .ok true))).flatMap
      (fun e => g.node.filter (fun r => decide (r.1 = e.2.1))) := by
  induction es generalizing c asked with
  | nil =>
    simp only [filterNodesEdgesM, Prod.mk.injEq] at hr
    simp [hr.2]
  | cons e es ih =>
    obtain ⟨u, v, k, a⟩ := e
    simp only [filterNodesEdgesM] at hr
    rcases hgt : (if g.directed = true then (.ok true : Py Bool) else PyOrd.gt u v) with x | _ | _
    · simp [hgt] at hr
    · rw [hgt] at hr
      rw [List.filter_cons_of_neg]
      · exact ih _ _ hr
      · cases hd : g.directed <;> simp_all
    · rw [hgt] at hr
      rw [List.filter_cons_of_pos (by cases hd : g.directed <;> simp_all)]
      simp only at hr
      rcases hv : g.nodeData v with x | av
      · simp [hv] at hr
      · simp only [hv, noting] at hr
        rw [List.flatMap_cons, nodeData_filter h hv, ← List.append_assoc]
        cases hp : p v av with
        | false =>
          simp only [hp] at hr
          exact ih _ _ hr
        | true =>
          simp only [hp] at hr
          split at hr
          · simp at hr
          · exact ih _ _ hr

/-- C84 for `filter_nodes`: the exact list of calls of a predicate without memory, when the function returns. -/
theorem filterNodes_asks [AttrVal A] [PyOrd V] {g g' : Graph V A} (h : g.WF) (p : V → Attrs A → Bool)
    {asked : List (V × Attrs A)}
    (hr : filterNodesM g (fun n a => noting (fun q => .ok (p q.1 q.2)) (n, a)) [] = (.ok g', asked)) :
    asked = g.filterQuestions p := by
  have key : ∀ (ns : Dict V (Attrs A)) (c : Graph V A) (pre : List (V × Attrs A)),
      filterNodesLoopM g (fun n a => noting (fun q => .ok (p q.1 q.2)) (n, a)) ns c pre = (.ok g', asked) →
      asked = pre ++ ns.flatMap (fun q => q :: if p q.1 q.2 then
    ((g.edgesOf q.1).filter (fun e => g.directed || decide (PyOrd.gt e.1 e.2.1 = .ok true))).flatMap
      (fun e => g.node.filter (fun r => decide (r.1 = e.2.1)))
    else []) := by
    intro ns
    induction ns with
    | nil =>
      intro c pre hr
      simp only [filterNodesLoopM, Prod.mk.injEq] at hr
      simp [hr.2]
    | cons q ns ih =>
      intro c pre hr
      obtain ⟨n, a⟩ := q
      simp only [filterNodesLoopM, noting] at hr
      rw [List.flatMap_cons]
      cases hp : p n a with
      | false =>
        simp only [hp] at hr
        rw [ih _ _ hr]
        simp
      | true =>
        simp only [hp] at hr
        split at hr
        · simp at hr
        · split at hr
          · simp at hr
          · rename_i hc
            rw [ih _ _ hr, filterNodesEdgesM_noting h p _ _ _ _ _ hc]
            simp
  unfold filterNodesM at hr
  split at hr
  · simp at hr
  · rw [key _ _ _ hr]
    rfl

/-! ### Concrete cases -/

/-- Two nodes with attributes, 2 then 1, and an edge. -/
def demoMemory : Graph Int Int :=
  { directed := false, multi := false, attrs := [], node := [(2, [(.str "x", 5)]), (1, [(.str "x", 6)])],
    links := [⟨2, 1, [(.int 0, [])]⟩] }

/-- A sampler: `True` the first `k` times it is called. -/
def firstTimes (k : Nat) : NodePredM Nat Int Int := fun _ _ c => (.ok (decide (c < k)), c + 1)

set_option synthInstance.maxSize 2000 in
/-- C84 fails for `filter_nodes`: a sampler keeping the first two answers out of two nodes is asked three times; node 1, which
it kept when asked through the edge and dropped when asked in its turn, is in the result without its attributes. -/
theorem filterNodes_memory :
    demoMemory.WF ∧ (filterNodesM demoMemory (firstTimes 2) 0).1.map (fun g => (g.node, g.edgesData)) =
      .ok ([(2, [(.str "x", 5)]), (1, [])], [(2, 1, [])]) ∧ (filterNodesM demoMemory (firstTimes 2) 0).2 = 3 := by
  refine ⟨by constructor <;> decide, by decide +kernel, by decide +kernel⟩

/-- The same sampler with `remove_nodes`: two calls, both nodes kept with their attributes. -/
example : (removeNodesM demoMemory (firstTimes 2) 0).1.1.node = demoMemory.node ∧
    (removeNodesM demoMemory (firstTimes 2) 0).2 = 2 := by decide +kernel

example : Consulted (fun q : Int × Attrs Int => firstTimes 1 q.1 q.2) demoMemory.node 0 [true, false] 2 :=
  .cons rfl (.cons rfl (.nil _))

example : demoMemory.filterQuestions (fun _ _ => true) =
    [(2, [(.str "x", 5)]), (1, [(.str "x", 6)]), (1, [(.str "x", 6)])] := by decide +kernel

/-- A filter following only the first edge it is asked about: the path 1 - 2 - 3. -/
def demoMemoryPath : Graph Int Int :=
  { directed := false, multi := false, attrs := [], node := [(1, []), (2, []), (3, [])],
    links := [⟨1, 2, [(.int 0, [])]⟩, ⟨2, 3, [(.int 0, [])]⟩] }

example : demoMemoryPath.WF ∧
    (connectedComponentOrdersM demoMemoryPath (fun _ _ _ c => (.ok (decide (c < 1)), c + 1)) 0).1.yields = [2, 1] ∧
    (connectedComponentOrdersM demoMemoryPath (fun _ _ _ c => (.ok (decide (c < 1)), c + 1)) 0).2 = 4 := by
  refine ⟨by constructor <;> decide, by decide +kernel, by decide +kernel⟩

example : Consulted (fun e : Int × Int × Attrs Int => (fun _ _ _ c => (.ok (decide (c < 1)), c + 1) : EdgePredM Nat Int Int) e.1 e.2.1 e.2.2)
    demoMemoryPath.edgesData 0 [true, false] 2 := .cons rfl (.cons rfl (.nil _))

end Pelote
