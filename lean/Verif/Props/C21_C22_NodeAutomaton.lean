import Verif.Proofs.NodeAutomaton

/-!
# C21, C22: `NodeAutomaton` and `IncidenceNodeAutomaton`
-/

namespace PyBGL
open Automaton
variable {A : Type} [DecidableEq A]

/-- A node automaton produced by the public API. -/
def NodeAutomaton.Reachable (g : NodeAutomaton A) : Prop :=
  ∃ ops, Runs NodeAutomaton.exec NodeAutomaton.empty ops g

/-- An incidence node automaton produced by the public API. -/
def INodeAutomaton.Reachable (g : INodeAutomaton A) : Prop :=
  ∃ ops, Runs INodeAutomaton.exec INodeAutomaton.empty ops g

/-- Produced by the public API, edges being added only towards states that exist at that time. -/
inductive NodeAutomaton.SafeHistory : NodeAutomaton A → Prop
  | new : SafeHistory .empty
  | step {g g' : NodeAutomaton A} {op : NOp A} (h : SafeHistory g) (hs : NodeAutomaton.Safe g op)
      (he : g.exec op = .ok g') : SafeHistory g'

/-- Same restriction for an incidence node automaton. -/
inductive INodeAutomaton.SafeHistory : INodeAutomaton A → Prop
  | new : SafeHistory .empty
  | step {g g' : INodeAutomaton A} {op : NOp A} (h : SafeHistory g) (hs : INodeAutomaton.Safe g op)
      (he : g.exec op = .ok g') : SafeHistory g'

theorem NodeAutomaton.SafeHistory.wf {g : NodeAutomaton A} (h : SafeHistory g) : NodeAutomaton.WF g := by
  induction h with
  | new => exact NodeAutomaton.WF_empty
  | step _ hs he ih => exact NodeAutomaton.exec_WF ih hs he

theorem INodeAutomaton.SafeHistory.wf {g : INodeAutomaton A} (h : SafeHistory g) : INodeAutomaton.WF g := by
  induction h with
  | new => exact INodeAutomaton.WF_empty
  | step _ hs he ih => exact INodeAutomaton.exec_WF ih hs he

/-! ## C21 -/

/-- **C21, full statement** (the label part). -/
def C21_statement (A : Type) [DecidableEq A] : Prop :=
  ∀ g : NodeAutomaton A, g.Reachable → ∀ e ∈ g.edges, e.distinguisher = g.symbol e.target

/-- **C21 is false of the code** when an edge is added towards a state that does not exist yet: the edge
is filed under the symbol `None`, and the later `add_vertex` gives its target another symbol. -/
theorem C21_label_counterexample : ¬ C21_statement Char := by
  intro h
  have := h ⟨⟨2, [(0, [(none, 1)]), (1, [])], some 0, []⟩, [(0, 'a'), (1, 'b')]⟩
    ⟨[.addVertex (some 'a'), .addEdge 0 1, .addVertex (some 'b')], rfl⟩ ⟨0, 1, none⟩ (by decide)
  cases this

/-- **C21, partial** (missing: histories that add an edge towards a state that does not exist yet):
every transition is labelled by the symbol of its target, and two transitions leaving the same state
towards states carrying the same symbol are the same transition. -/
theorem C21_label_partial {g : NodeAutomaton A} (h : g.SafeHistory) :
    (∀ e ∈ g.edges, e.distinguisher = g.symbol e.target ∧ e.source ∈ g.vertices ∧ e.target ∈ g.vertices) ∧
    (∀ e ∈ g.edges, ∀ e' ∈ g.edges, e.source = e'.source → g.symbol e.target = g.symbol e'.target → e = e') ∧
    g.edges.Nodup := by
  have hw := h.wf
  refine ⟨?_, ?_, nodup_edges hw.out⟩
  · intro e he
    unfold NodeAutomaton.edges at he
    rw [mem_edges hw.out] at he
    exact ⟨hw.label _ _ _ he, delta_mem_vertices he, hw.closed _ _ _ he⟩
  · intro e he e' he' h1 h2
    unfold NodeAutomaton.edges at he he'
    rw [mem_edges hw.out] at he he'
    have l := hw.label _ _ _ he
    have l' := hw.label _ _ _ he'
    have l2 : e.distinguisher = e'.distinguisher := by rw [l, l', h2]
    rw [h1, l2, he'] at he
    injection he with he
    cases e; cases e'; simp_all

/-- **C21, partial** (same restriction on the history of the automaton; the call itself is arbitrary):
`add_edge(q, r)` returns `(None, False)` and changes nothing iff `q` already has a successor carrying the
symbol of `r`; otherwise it adds exactly the transition from `q` to `r`; an unknown `q` raises
`KeyError`. -/
theorem C21_add_edge_partial {g : NodeAutomaton A} (h : g.SafeHistory) (q r : Nat) :
    (q ∈ g.vertices → (∃ e ∈ g.edges, e.source = q ∧ g.symbol e.target = g.symbol r) →
      g.addEdge q r = .ok (none, false, g)) ∧
    (q ∈ g.vertices → (¬ ∃ e ∈ g.edges, e.source = q ∧ g.symbol e.target = g.symbol r) →
      ∃ g', g.addEdge q r = .ok (some ⟨q, r, g.symbol r⟩, true, g') ∧ g'.vertices = g.vertices ∧
        (∀ v, g'.symbol v = g.symbol v) ∧
        ∀ e, e ∈ g'.edges ↔ e ∈ g.edges ∨ e = ⟨q, r, g.symbol r⟩) ∧
    (q ∉ g.vertices → g.addEdge q r = .error .keyError) := by
  have hw := h.wf
  have key : (∃ e ∈ g.edges, e.source = q ∧ g.symbol e.target = g.symbol r) ↔
      ∃ r', g.a.delta q (g.symbol r) = some r' := by
    constructor
    · rintro ⟨e, he, rfl, h2⟩
      unfold NodeAutomaton.edges at he
      rw [mem_edges hw.out] at he
      have l := hw.label _ _ _ he
      rw [h2] at l
      exact ⟨e.target, l ▸ he⟩
    · rintro ⟨r', hr'⟩
      exact ⟨⟨q, r', g.symbol r⟩, (mem_edges hw.out).2 hr', rfl, (hw.label _ _ _ hr').symm⟩
  refine ⟨?_, ?_, NodeAutomaton.addEdge_absent r⟩
  · intro hq he
    obtain ⟨r', hr'⟩ := key.1 he
    exact (NodeAutomaton.addEdge_spec r hq).1 _ hr'
  · intro hq he
    have hn : g.a.delta q (g.symbol r) = none := by
      cases hd : g.a.delta q (g.symbol r) with
      | none => rfl
      | some r' => exact absurd (key.2 ⟨r', hd⟩) he
    refine ⟨_, (NodeAutomaton.addEdge_spec r hq).2 hn, vertices_setDelta _ _ hq, fun _ => rfl, ?_⟩
    intro e
    unfold NodeAutomaton.edges
    rw [mem_edges (AWF_setDelta hw.out _ _ hq), mem_edges hw.out, delta_setDelta]
    by_cases hc : q = e.source ∧ g.symbol r = e.distinguisher
    · rw [if_pos hc]
      obtain ⟨rfl, h2⟩ := hc
      rw [← h2, hn]
      cases e; simp at h2; simp [h2, eq_comm]
    · rw [if_neg hc]
      constructor
      · exact fun h => .inl h
      · rintro (h | rfl)
        · exact h
        · simp at hc

/-- **C21, partial**: `add_vertex(a)` creates a fresh state carrying exactly the symbol `a`, and changes
neither the transitions nor the other symbols; `remove_vertex` removes the state and exactly the
transitions from or to it. -/
theorem C21_vertices_partial {g : NodeAutomaton A} (h : g.SafeHistory) :
    (∀ a, (g.addVertex a).1 ∉ g.vertices ∧
      (∀ v, v ∈ (g.addVertex a).2.vertices ↔ v ∈ g.vertices ∨ v = (g.addVertex a).1) ∧
      (g.addVertex a).2.symbol (g.addVertex a).1 = a ∧
      (∀ v ∈ g.vertices, (g.addVertex a).2.symbol v = g.symbol v) ∧
      (∀ e, e ∈ (g.addVertex a).2.edges ↔ e ∈ g.edges)) ∧
    (∀ u ∈ g.vertices, ∃ g', g.removeVertex u = .ok g' ∧ (∀ v, g'.symbol v = g.symbol v) ∧
      (∀ v, v ∈ g'.vertices ↔ v ∈ g.vertices ∧ v ≠ u) ∧
      ∀ e, e ∈ g'.edges ↔ e ∈ g.edges ∧ e.source ≠ u ∧ e.target ≠ u) := by
  have hw := h.wf
  constructor
  · intro a
    have h1 : (g.addVertex a).1 = g.a.lastVertexId := by cases a <;> rfl
    have hfresh : ∀ v ∈ g.vertices, v ≠ g.a.lastVertexId := by
      intro v hv; have := hw.out.lt v hv; omega
    rw [h1]
    refine ⟨fun hv => hfresh _ hv rfl, ?_, NodeAutomaton.symbol_addVertex_self hw a, ?_, ?_⟩
    · intro v
      unfold NodeAutomaton.vertices
      rw [NodeAutomaton.addVertex_a, vertices_addVertex hw.out]; simp
    · intro v hv
      exact NodeAutomaton.symbol_addVertex_ne g a (hfresh v hv)
    · intro e
      unfold NodeAutomaton.edges
      rw [NodeAutomaton.addVertex_a, mem_edges (AWF_addVertex hw.out), mem_edges hw.out, delta_addVertex hw.out]
  · intro u hu
    obtain ⟨g', h1, h2, h3, h4, h5⟩ := NodeAutomaton.removeVertex_spec hw hu
    refine ⟨g', h1, fun v => by simp [NodeAutomaton.symbol, h3], ?_, ?_⟩
    · intro v
      unfold NodeAutomaton.vertices
      rw [h4]; simp
    · intro e
      unfold NodeAutomaton.edges
      rw [mem_edges h2.out, mem_edges hw.out, h5]
      by_cases hs : e.source = u
      · simp [hs]
      · by_cases ht : g.a.delta e.source e.distinguisher = some u
        · rw [if_pos (.inr ht), ht]
          simp only [reduceCtorEq, Option.some.injEq, false_iff, not_and, not_not]
          intro h _; exact h.symm
        · rw [if_neg (by simp [hs, ht])]
          constructor
          · intro h; exact ⟨h, hs, fun e' => ht (e' ▸ h)⟩
          · exact fun h => h.1

/-- A witness: states 0:a, 1:b, 2:a with transitions 0 → 1, 1 → 2, 0 → 0. -/
example : NodeAutomaton.SafeHistory (⟨⟨3, [(0, [(some 'b', 1), (some 'a', 0)]), (1, [(some 'a', 2)]), (2, [])],
    some 0, []⟩, [(0, 'a'), (1, 'b'), (2, 'a')]⟩ : NodeAutomaton Char) := by
  refine .step (op := .addEdge 0 0) (.step (op := .addEdge 1 2) (.step (op := .addEdge 0 1)
    (.step (op := .addVertex (some 'a')) (.step (op := .addVertex (some 'b'))
      (.step (op := .addVertex (some 'a')) .new trivial rfl) trivial rfl) trivial rfl)
    ?_ rfl) ?_ rfl) ?_ rfl <;> (show _ ∈ [0, 1, 2]; decide)

/-! ## C22 -/

/-- **C22, full statement** (the `in_edges` part). -/
def C22_statement (A : Type) [DecidableEq A] : Prop :=
  ∀ g : INodeAutomaton A, g.Reachable → ∀ r e, e ∈ g.inEdges r ↔ e ∈ g.n.edges ∧ e.target = r

/-- **C22 is false of the code** when an edge is added towards a state that does not exist yet. -/
theorem C22_in_edges_counterexample : ¬ C22_statement Char := by
  intro h
  have := (h ⟨⟨⟨2, [(0, [(none, 1)]), (1, [])], some 0, []⟩, [(0, 'a'), (1, 'b')]⟩, [(1, [0])]⟩
    ⟨[.addVertex (some 'a'), .addEdge 0 1, .addVertex (some 'b')], rfl⟩ 1
    ⟨0, 1, none⟩).2 (by decide)
  revert this; decide

/-- **C22, partial** (missing: histories that add an edge towards a state that does not exist yet):
`in_edges(r)` enumerates exactly, and once each, the transitions whose target is `r`. -/
theorem C22_in_edges_partial {g : INodeAutomaton A} (h : g.SafeHistory) (r : Nat) :
    (g.inEdges r).Nodup ∧ ∀ e, e ∈ g.inEdges r ↔ e ∈ g.n.edges ∧ e.target = r :=
  ⟨INodeAutomaton.nodup_inEdges h.wf r, fun e => by rw [INodeAutomaton.mem_inEdges h.wf, and_comm]⟩

/-- **C22, partial** (same restriction): `remove_vertex(u)` never raises, and removes the state and exactly
the transitions from or to it, in both directions. -/
theorem C22_remove_vertex_partial {g : INodeAutomaton A} (h : g.SafeHistory) (u : Nat) :
    ∃ g', g.removeVertex u = .ok g' ∧ g'.SafeHistory ∧
      (∀ v, v ∈ g'.n.vertices ↔ v ∈ g.n.vertices ∧ v ≠ u) ∧
      (∀ e, e ∈ g'.n.edges ↔ e ∈ g.n.edges ∧ e.source ≠ u ∧ e.target ≠ u) ∧
      (∀ r e, e ∈ g'.inEdges r ↔ e ∈ g.inEdges r ∧ e.source ≠ u ∧ r ≠ u) := by
  have hw := h.wf
  obtain ⟨g', h1, h2, h3, h4, h5⟩ := INodeAutomaton.removeVertex_spec hw u
  have he : ∀ e, e ∈ g'.n.edges ↔ e ∈ g.n.edges ∧ e.source ≠ u ∧ e.target ≠ u := by
    intro e
    unfold NodeAutomaton.edges
    rw [mem_edges h2.n.out, mem_edges hw.n.out, h5]
    by_cases hs : e.source = u
    · simp [hs]
    · by_cases ht : g.n.a.delta e.source e.distinguisher = some u
      · rw [if_pos (.inr ht), ht]
        simp only [reduceCtorEq, Option.some.injEq, false_iff, not_and, not_not]
        intro h _; exact h.symm
      · rw [if_neg (by simp [hs, ht])]
        constructor
        · intro h; exact ⟨h, hs, fun e' => ht (e' ▸ h)⟩
        · exact fun h => h.1
  refine ⟨g', h1, .step h (op := .removeVertex u) trivial h1, ?_, he, ?_⟩
  · intro v; rw [h4]; simp
  · intro r e
    rw [INodeAutomaton.mem_inEdges h2, INodeAutomaton.mem_inEdges hw, he]
    constructor
    · rintro ⟨rfl, a, b, c⟩; exact ⟨⟨rfl, a⟩, b, c⟩
    · rintro ⟨⟨rfl, a⟩, b, c⟩; exact ⟨rfl, a, b, c⟩

/-- A witness with a self-loop and two predecessors. -/
example : INodeAutomaton.SafeHistory (⟨⟨⟨2, [(0, [(some 'b', 1)]), (1, [(some 'b', 1)])],
    some 0, []⟩, [(0, 'a'), (1, 'b')]⟩, [(1, [0, 1])]⟩ : INodeAutomaton Char) := by
  refine .step (op := .addEdge 1 1) (.step (op := .addEdge 0 1)
    (.step (op := .addVertex (some 'b')) (.step (op := .addVertex (some 'a')) .new trivial rfl) trivial rfl)
    ?_ rfl) ?_ rfl <;> (show _ ∈ [0, 1]; decide)

end PyBGL
