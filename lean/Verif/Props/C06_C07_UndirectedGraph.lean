import Verif.Proofs.UndirectedGraph
import Verif.Props.C01_C05_DirectedGraph

/-!
# C06-C07: `UndirectedGraph`
-/

namespace PyBGL
open UGraph

/-- **C06** (symmetry). -/
theorem C06_symmetric {g : Graph} {l : GLog} (h : History UGraph.exec .empty g l) (u v n : Nat) :
    (⟨u, v, n⟩ ∈ outEdges g u ↔ ⟨v, u, n⟩ ∈ outEdges g v) ∧ inEdges g u = outEdges g u := by
  have hi := history_inv h
  refine ⟨?_, rfl⟩
  simp only [outEdges]
  rw [Graph.mem_outEdges hi.wf, Graph.mem_outEdges hi.wf]
  simpa using hi.sym u v n

/-- **C06** (`edges()` lists each undirected edge exactly once, smallest endpoint first; `out_edges`
lists exactly the incident edges, seen from the given vertex). -/
theorem C06_edges_once {g : Graph} {l : GLog} (h : History UGraph.exec .empty g l) :
    (edges g).Nodup ∧ (∀ e ∈ edges g, e.source ≤ e.target) ∧
    (∀ e, e ∈ edges g ↔ e ∈ liveUEdges l) ∧
    (∀ u, (outEdges g u).Nodup ∧ ∀ e, e ∈ outEdges g u ↔
      e.source = u ∧ (e ∈ edges g ∨ ⟨e.target, e.source, e.distinguisher⟩ ∈ edges g)) ∧
    (∀ u, u ∈ g.vertices ↔ u ∈ liveVertices l) ∧ g.vertices.Nodup := by
  have hi := history_inv h
  have hm : ∀ e, e ∈ edges g ↔ e ∈ liveUEdges l := by
    rintro ⟨x, y, m⟩
    rw [UGraph.mem_edges hi.wf]
    simp only
    rw [hi.eds]
    constructor
    · rintro ⟨h1 | h1, h2⟩
      · exact h1
      · have := hi.le _ h1
        simp only at this
        have : x = y := by omega
        subst this; exact h1
    · intro h1
      exact ⟨Or.inl h1, hi.le _ h1⟩
  refine ⟨UGraph.nodup_edges hi.wf, ?_, hm, ?_, hi.verts, hi.wf.outer⟩
  · intro e he
    exact ((UGraph.mem_edges hi.wf e).1 he).2
  · intro u
    refine ⟨Graph.nodup_outEdges hi.wf u, ?_⟩
    intro e
    simp only [outEdges]
    rw [Graph.mem_outEdges hi.wf, hm, hm, hi.eds]

/-- **C07** (`add_edge` adds exactly one new undirected edge; it raises `KeyError` iff an endpoint is
missing). -/
theorem C07_add_edge {g : Graph} {l : GLog} (h : History UGraph.exec .empty g l) (u v : Nat) :
    (¬ (u ∈ g.vertices ∧ v ∈ g.vertices) → UGraph.addEdge g u v = .error .keyError) ∧
    (u ∈ g.vertices → v ∈ g.vertices → ∃ e g', UGraph.addEdge g u v = .ok (e, g') ∧
      e.source = min u v ∧ e.target = max u v ∧
      e ∉ edges g ∧ (∀ e', e' ∈ edges g' ↔ e' ∈ edges g ∨ e' = e) ∧ g'.vertices = g.vertices) := by
  have hi := history_inv h
  refine ⟨addEdge_error hi.wf u v, ?_⟩
  intro hu hv
  obtain ⟨n, g', a, b, b', c, d, e, f⟩ := addEdge_spec hi.wf hi.sym u v hu hv
  have hcases : (min u v = u ∧ max u v = v) ∨ (min u v = v ∧ max u v = u) := by omega
  refine ⟨_, g', a, rfl, rfl, ?_, ?_, e⟩
  · rw [UGraph.mem_edges hi.wf]
    rintro ⟨h1, -⟩
    simp only at h1
    rcases hcases with ⟨h2, h3⟩ | ⟨h2, h3⟩ <;> rw [h2, h3] at h1
    · exact c h1
    · exact c ((hi.sym _ _ _).1 h1)
  · rintro ⟨x, y, m⟩
    rw [UGraph.mem_edges b, UGraph.mem_edges hi.wf]
    simp only [EdgeDesc.mk.injEq]
    rw [f]
    constructor
    · rintro ⟨h1 | ⟨h1, h2⟩, h3⟩
      · exact Or.inl ⟨h1, h3⟩
      · right; omega
    · rintro (⟨h1, h2⟩ | ⟨h1, h2, h3⟩)
      · exact ⟨Or.inl h1, h2⟩
      · refine ⟨Or.inr ⟨h3, ?_⟩, ?_⟩ <;> omega

/-- **C07** (`remove_edge`, with the descriptor seen from either endpoint, removes exactly that
undirected edge). -/
theorem C07_remove_edge {g : Graph} {l : GLog} (h : History UGraph.exec .empty g l) (e : EdgeDesc Nat)
    (he : e ∈ outEdges g e.source) : ∃ g', UGraph.removeEdge g e = .ok g' ∧ g'.vertices = g.vertices ∧
      ∀ e', e' ∈ edges g' ↔ e' ∈ edges g ∧ e' ≠ e ∧ e' ≠ ⟨e.target, e.source, e.distinguisher⟩ := by
  have hi := history_inv h
  simp only [outEdges] at he
  rw [Graph.mem_outEdges hi.wf] at he
  obtain ⟨g', a, b, b', c, d, f⟩ := UGraph.removeEdge_spec hi.wf hi.sym e he.2
  refine ⟨g', a, d, ?_⟩
  rintro ⟨x, y, m⟩
  rw [UGraph.mem_edges b, UGraph.mem_edges hi.wf]
  simp only
  rw [f]
  obtain ⟨p, q, r⟩ := e
  simp only [ne_eq, EdgeDesc.mk.injEq]
  tauto

/-- **C07** (`remove_vertex` removes exactly the vertex and the incident edges). -/
theorem C07_remove_vertex {g : Graph} {l : GLog} (h : History UGraph.exec .empty g l) (u : Nat) :
    (u ∉ g.vertices → UGraph.removeVertex g u = .error .keyError) ∧
    (u ∈ g.vertices → ∃ g', UGraph.removeVertex g u = .ok g' ∧
      g'.vertices = g.vertices.filter (· ≠ u) ∧
      ∀ e, e ∈ edges g' ↔ e ∈ edges g ∧ e.source ≠ u ∧ e.target ≠ u) := by
  have hi := history_inv h
  refine ⟨UGraph.removeVertex_absent hi.wf hi.sym u, ?_⟩
  intro hu
  obtain ⟨g', a, b, b', c, d, f⟩ := UGraph.removeVertex_spec hi.wf hi.sym u hu
  refine ⟨g', a, d, ?_⟩
  intro e
  rw [UGraph.mem_edges b, UGraph.mem_edges hi.wf, f]
  tauto

/-! Non-vacuity: the same calls as for directed graphs, with an edge removed from its other end. -/

example : ∃ g l, History UGraph.exec .empty g l ∧ g.vertices = [0, 1, 3] ∧
    edges g = [⟨0, 1, 1⟩, ⟨0, 1, 2⟩, ⟨1, 1, 0⟩] ∧
    (⟨1, 0, 2⟩ : EdgeDesc Nat) ∈ outEdges g (⟨1, 0, 2⟩ : EdgeDesc Nat).source := by
  refine ⟨_, _, runCalls_history
    [.addVertex, .addVertex, .addVertex, .addEdge 0 1, .addEdge 1 0, .addEdge 1 1, .addEdge 2 0,
     .removeVertex 2, .removeEdge ⟨1, 0, 0⟩, .addEdge 0 1, .addVertex] .start rfl, ?_, ?_, ?_⟩ <;> decide

end PyBGL
