import Verif.Props.C56_C58_DfsApps
import Verif.Props.C97_UndirectedDijkstra

/-!
# C98: `graph_copy` on an `UndirectedGraph`
-/

namespace PyBGL

/-- Specification: `dup` is a copy of the part of an undirected graph (edges `es`) connected to `s`: the vertices connected to `s` are in bijection with
those of `dup`, and so are the edges between them, with the same ends. -/
def IsUCopy (es : List (EdgeDesc Nat)) (s : Nat) (dup : Graph) : Prop :=
  ∃ (f : Nat → Nat) (φ : EdgeDesc Nat → EdgeDesc Nat),
    (∀ x, x ∈ dup.vertices ↔ ∃ v, Connected es s v ∧ f v = x) ∧
    (∀ v w, Connected es s v → Connected es s w → f v = f w → v = w) ∧
    (∀ e', e' ∈ UGraph.edges dup ↔ ∃ e ∈ es, Connected es s e.source ∧ φ e = e') ∧
    (∀ e ∈ es, ∀ e₁ ∈ es, Connected es s e.source → Connected es s e₁.source → φ e = φ e₁ → e = e₁) ∧
    (∀ e ∈ es, Connected es s e.source → (φ e).source = min (f e.source) (f e.target) ∧ (φ e).target = max (f e.source) (f e.target))

/-- `UndirectedGraph.add_edge` as seen by the copy. -/
theorem UGraph.edgeAdder : EdgeAdder UGraph.addEdge (fun g => AdjWF g.adj ∧ UGraph.Sym g) (fun g e => e ∈ UGraph.edges g)
    (fun x y e => e.source = min x y ∧ e.target = max x y) := by
  refine ⟨⟨⟨adjWF_nil, by intro u v n; simp [Graph.empty, lk, Dict.get?]⟩, by simp [UGraph.edges, Graph.empty]⟩, ?_, ?_⟩
  · rintro g ⟨hw, hsym⟩ hb
    have hz : ∀ v, lk g.adj g.lastVertexId v = [] := by
      intro v
      rw [List.eq_nil_iff_forall_not_mem]
      intro n hn
      obtain ⟨vs, _, h1, _⟩ := get?_some_of_lk hn
      have := hb _ ((Dict.mem_keys_iff _ _).mpr ⟨vs, h1⟩)
      omega
    have hlk : ∀ u v, lk g.addVertex.2.adj u v = lk g.adj u v := by
      intro u v
      show lk (g.adj.set g.lastVertexId []) _ _ = _
      rw [lk_addKey]
      split
      · rename_i h; subst h; rw [hz]
      · rfl
    refine ⟨⟨hw.addKey _, fun u v n => by rw [hlk, hlk]; exact hsym u v n⟩, fun e => ?_⟩
    rw [UGraph.mem_edges (hw.addKey _), UGraph.mem_edges hw]
    show e.distinguisher ∈ lk g.addVertex.2.adj _ _ ∧ _ ↔ _
    rw [hlk]
  · rintro g x y ⟨hw, hsym⟩ hx hy
    obtain ⟨n, g', h1, h2, h2', h3, h4, h5, h6⟩ := UGraph.addEdge_spec hw hsym x y hx hy
    have hc : (min x y = x ∧ max x y = y) ∨ (min x y = y ∧ max x y = x) := by omega
    refine ⟨_, g', h1, ⟨h2, h2'⟩, ?_, h4, h5, ?_, rfl, rfl⟩
    · rw [UGraph.mem_edges hw]
      rintro ⟨h7, -⟩
      simp only at h7
      rcases hc with ⟨a, b⟩ | ⟨a, b⟩ <;> rw [a, b] at h7
      · exact h3 h7
      · exact h3 ((hsym _ _ _).1 h7)
    · rintro ⟨a, b, m⟩
      rw [UGraph.mem_edges h2, UGraph.mem_edges hw]
      simp only [EdgeDesc.mk.injEq]
      rw [h6]
      constructor
      · rintro ⟨k | ⟨k1, k2⟩, k3⟩
        · exact Or.inl ⟨k, k3⟩
        · right; omega
      · rintro (⟨k1, k2⟩ | ⟨k1, k2, k3⟩)
        · exact ⟨Or.inl k1, k2⟩
        · refine ⟨Or.inr ⟨k3, ?_⟩, ?_⟩ <;> omega

/-- **C98**, full statement: the copy of an `UndirectedGraph` into an empty one is isomorphic to the component of `s`. -/
def C98_statement : Prop :=
  ∀ (g : Graph) (l : GLog) (s : Nat), History UGraph.exec .empty g l → s ∈ g.vertices →
    ∃ dup vm em, Returns (UGraph.graphCopy s (UGraph.toI g) Graph.empty) (.ok (dup, vm, em)) ∧ IsUCopy (liveUEdges l) s dup

/-- **C98, what the code does** (missing: each edge other than a loop is copied twice, once from each end): the vertices of the copy are in bijection with
the vertices connected to `s`; the edges of the copy are in bijection with the edges of the component of `s` seen from their ends, so that an edge and
its reverse descriptor have two distinct copies with the same ends. -/
theorem C98_copy_partial {g : Graph} {l : GLog} (h : History UGraph.exec .empty g l) {s : Nat} (hs : s ∈ g.vertices) :
    ∃ dup vm em, Returns (UGraph.graphCopy s (UGraph.toI g) Graph.empty) (.ok (dup, vm, em)) ∧
      (∀ v, Connected (liveUEdges l) s v ↔ ∃ x, vm.get? v = some x) ∧
      (∀ x, x ∈ dup.vertices ↔ ∃ v, vm.get? v = some x) ∧
      (∀ v w x, vm.get? v = some x → vm.get? w = some x → v = w) ∧
      (∀ e, (Connected (liveUEdges l) s e.source ∧ (e ∈ liveUEdges l ∨ e.flip ∈ liveUEdges l)) ↔ ∃ e', em.get? e = some e') ∧
      (∀ e', e' ∈ UGraph.edges dup ↔ ∃ e, em.get? e = some e') ∧
      (∀ e f e', em.get? e = some e' → em.get? f = some e' → e = f) ∧
      (∀ e e', em.get? e = some e' → ∃ x y, vm.get? e.source = some x ∧ vm.get? e.target = some y ∧ e'.source = min x y ∧ e'.target = max x y) ∧
      (∀ e ∈ liveUEdges l, Connected (liveUEdges l) s e.source → e.source ≠ e.target →
        ∃ a b, a ∈ UGraph.edges dup ∧ b ∈ UGraph.edges dup ∧ a ≠ b ∧ a.source = b.source ∧ a.target = b.target ∧
          em.get? e = some a ∧ em.get? e.flip = some b) := by
  have ht : (UGraph.toI g).through (relevant (UGraph.toI g) none none) = UGraph.toI g := UGraph.through_true _
  obtain ⟨dup, vm, em, h1, h2, h3, h4, h5, h6, h7, h8, h9⟩ := graphCopyWith_spec (g := UGraph.toI g) UGraph.edgeAdder
    (fun u e he => ((UGraph.mem_out h u e).1 he).1) (fun u => ((C06_edges_once h).2.2.2.1 u).1) s none none g.vertices (UGraph.reach_mem h hs)
  simp only [ht, UGraph.reach_iff h] at h3 h6
  have h6' : ∀ e, (Connected (liveUEdges l) s e.source ∧ (e ∈ liveUEdges l ∨ e.flip ∈ liveUEdges l)) ↔ ∃ e', em.get? e = some e' := by
    intro e
    rw [← h6]
    constructor
    · rintro ⟨k1, k2⟩; exact ⟨_, k1, (UGraph.mem_out h _ _).2 ⟨rfl, k2⟩⟩
    · rintro ⟨u, k1, k2⟩
      obtain ⟨rfl, k3⟩ := (UGraph.mem_out h _ _).1 k2
      exact ⟨k1, k3⟩
  refine ⟨dup, vm, em, h1, h3, h4, h5, h6', h7, h8, h9, ?_⟩
  intro e he hc hl
  obtain ⟨a, ha⟩ := (h6' e).1 ⟨hc, Or.inl he⟩
  obtain ⟨b, hb⟩ := (h6' e.flip).1 ⟨.forth hc he, Or.inr he⟩
  obtain ⟨x, y, k1, k2, k3, k4⟩ := h9 e a ha
  obtain ⟨x', y', k1', k2', k3', k4'⟩ := h9 e.flip b hb
  have e1 : x' = y := by
    have := k2.symm.trans (show vm.get? ((UGraph.toI g).target e) = some x' from k1')
    simpa using this.symm
  have e2 : y' = x := by
    have := k1.symm.trans (show vm.get? ((UGraph.toI g).source e) = some y' from k2')
    simpa using this.symm
  subst e1 e2
  refine ⟨a, b, (h7 a).2 ⟨e, ha⟩, (h7 b).2 ⟨_, hb⟩, ?_, by omega, by omega, ha, hb⟩
  rintro rfl
  have := h8 _ _ _ ha hb
  apply hl
  have h10 : e.source = e.flip.source := by rw [← this]
  exact h10

/-- **C98 is false of the code**: the copy of two vertices joined by one edge has two edges. -/
theorem C98_counterexample : ¬ C98_statement := by
  intro hst
  have h1 := History.start (exec := UGraph.exec) (s0 := .empty)
  have h2 := h1.call (op := .addVertex) rfl
  have h3 := h2.call (op := .addVertex) rfl
  have h4 := h3.call (op := .addEdge 0 1) rfl
  obtain ⟨dup, vm, em, hr, f, φ, -, -, hE, -, -⟩ := hst _ _ 0 h4 (by decide)
  obtain ⟨dup', vm', em', hr', -, -, -, -, -, -, -, hD⟩ := C98_copy_partial h4 (s := 0) (by decide)
  have he := returns_unique hr hr'
  simp only [Except.ok.injEq, Prod.mk.injEq] at he
  obtain ⟨rfl, -, -⟩ := he
  obtain ⟨a, b, ha, hb, hne, -⟩ := hD ⟨0, 1, 0⟩ (by decide) .refl (by decide)
  obtain ⟨e, k1, -, rfl⟩ := (hE a).1 ha
  obtain ⟨e', k2, -, rfl⟩ := (hE b).1 hb
  simp [liveUEdges] at k1 k2
  exact hne (by rw [k1, k2])

/-- The model run on this graph: two parallel edges. -/
example : (match UGraph.graphCopy 0 (UGraph.toI ⟨2, [(0, [(1, [0])]), (1, [(0, [0])])]⟩) Graph.empty 20 with
    | some (.ok (dup, _, _)) => decide (UGraph.edges dup = [⟨0, 1, 0⟩, ⟨0, 1, 1⟩])
    | _ => false) = true := by decide

end PyBGL
