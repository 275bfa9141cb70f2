import Verif.Proofs.Failure

/-!
# C112: graphs whose caller catches exceptions

A caller may call any mutator in any state, catch the exception if one is raised, and go on. The theorems say what each exception leaves behind and what the graph contains after any
such history.
-/

namespace PyBGL

/-- The English property: a mutator that raises leaves the graph unchanged. -/
def C112_statement {S : Type} (exec : GOp → PyM S GOut) (s0 : S) : Prop :=
  ∀ (s : S) (l : CLog) (op : GOp) (err : PyErr), Caught exec s0 s l → (exec op s).1 = .error err → (exec op s).2 = s

/-- **C112** (returning calls). When a mutator returns, the statement-by-statement description and the one used by C06–C08 agree; a mutator raises in one of them iff it raises in the other, with the
same exception. -/
theorem C112_agree (op : GOp) :
    (∀ g, (Graph.execM op).result g = g.exec op) ∧ (∀ g, (UGraph.execM op).result g = UGraph.exec g op) ∧ (∀ g, (IGraph.execM op).result g = g.exec op) :=
  ⟨Graph.result_execM op, UGraph.result_execM op, IGraph.result_execM op⟩

/-- **C112** (directed graphs). After any history with caught exceptions, a `DirectedGraph` contains exactly what the calls that returned put in it and did not remove, each edge once, except that a
call to `remove_vertex` that raised still removed the edges towards the missing vertex; and `add_vertex` still returns an unused identifier. -/
theorem C112_directed (g : Graph) (l : CLog) (h : Caught Graph.execM .empty g l) :
    (∀ u, u ∈ g.vertices ↔ u ∈ liveVertices (effects l)) ∧ g.vertices.Nodup ∧
    (∀ e, e ∈ g.edges ↔ e ∈ liveEdges (effects l)) ∧ g.edges.Nodup ∧
    g.addVertex.1 ∉ g.vertices := by
  have hi := Graph.caught_inv h
  exact ⟨hi.verts, hi.wf.outer, fun e => by rw [Graph.mem_edges hi.wf, hi.eds], Graph.nodup_edges hi.wf, fun hm => Nat.lt_irrefl _ (hi.bound _ hm)⟩

/-- **C112** (directed graphs, one call). In such a history, `clear` and `add_vertex` never raise; a mutator that raises raises `KeyError` and leaves the graph unchanged, except `remove_vertex(u)` where `u`
is missing, which removes exactly the edges towards `u`. -/
theorem C112_directed_failures_partial (g : Graph) (l : CLog) (h : Caught Graph.execM .empty g l) (op : GOp) (err : PyErr) (he : (Graph.execM op g).1 = .error err) :
    err = .keyError ∧ op ≠ .clear ∧ op ≠ .addVertex ∧
    ((∀ u, op ≠ .removeVertex u) → (Graph.execM op g).2 = g) ∧
    (∀ u, op = .removeVertex u → u ∉ g.vertices ∧ (Graph.execM op g).2.vertices = g.vertices ∧
      ∀ e, e ∈ (Graph.execM op g).2.edges ↔ e ∈ g.edges ∧ e.target ≠ u) := by
  have hi := Graph.caught_inv h
  obtain ⟨rfl, h1⟩ := Graph.execM_error hi.wf he
  refine ⟨rfl, ?_, ?_, fun hu => ?_, ?_⟩
  · rintro rfl
    have : Graph.execM .clear g = (.ok .unit, ⟨0, []⟩) := by
      apply PyM.of_result_ok; rw [Graph.result_execM, Graph.exec, Graph.clear_spec hi.wf]; rfl
    rw [this] at he; cases he
  · rintro rfl; simp [Graph.execM] at he
  · rcases h1 with h1 | ⟨u, h2, -⟩
    · exact h1
    · exact absurd h2 (hu u)
  · rintro u rfl
    have hu : u ∉ g.vertices := by
      intro hu
      obtain ⟨g', h1, -⟩ := Graph.removeVertex_spec hi.wf u hu
      have : Graph.execM (.removeVertex u) g = (.ok .unit, g') := by
        apply PyM.of_result_ok; rw [Graph.result_execM, Graph.exec, h1]; rfl
      rw [this] at he; cases he
    obtain ⟨g', h1, w1, l1, v1, e1⟩ := Graph.removeVertexM_absent hi.wf hu
    have : Graph.execM (.removeVertex u) g = (.error .keyError, g') := PyM.bind_error h1
    rw [this]
    refine ⟨hu, v1, fun e => ?_⟩
    rw [Graph.mem_edges w1, Graph.mem_edges hi.wf, e1]
    refine ⟨fun hx => ⟨hx.1, hx.2.2⟩, fun hx => ⟨hx.1, ?_, hx.2⟩⟩
    rintro rfl
    obtain ⟨vs, s, hg, -⟩ := get?_some_of_lk hx.1
    exact hu ((Dict.mem_keys_iff _ _).mpr ⟨vs, hg⟩)

/-- **C112** (directed graphs, counterexample). One vertex, an edge towards a vertex 7 that does not exist, then `remove_vertex(7)`: it raises, and the edge is gone. -/
theorem C112_directed_counterexample : ¬ C112_statement Graph.execM .empty := by
  intro h
  have := h _ _ (.removeVertex 7) .keyError (.call (.addEdge 0 7) (.call .addVertex .start)) (by decide)
  exact absurd (congrArg (fun g : Graph => g.numEdges) this) (by decide)

/-- **C112** (undirected graphs). After any history with caught exceptions in which no failing `add_edge` had an existing smallest end, an `UndirectedGraph` is in the very state in which the calls
that returned, alone, would have put it. -/
theorem C112_undirected_partial (g : Graph) (l : CLog) (h : Caught UGraph.execM .empty g l) (hn : NoHalfUEdge l) : History UGraph.exec .empty g (successes l) :=
  UGraph.caught_history h hn

/-- **C112** (undirected graphs, one call). In such a history, a mutator that raises raises `KeyError` and leaves the graph unchanged, except `add_edge` from an existing vertex to a larger one that does not
exist: the vertices are unchanged but `edges()` then lists a new edge between them. -/
theorem C112_undirected_failures_partial (g : Graph) (l : CLog) (h : Caught UGraph.execM .empty g l) (hn : NoHalfUEdge l) (op : GOp) (err : PyErr)
    (he : (UGraph.execM op g).1 = .error err) :
    err = .keyError ∧ op ≠ .clear ∧ op ≠ .addVertex ∧
    ((∀ u v, op = .addEdge u v → min u v ∉ g.vertices) → (UGraph.execM op g).2 = g) ∧
    (∀ u v, op = .addEdge u v → min u v ∈ g.vertices → max u v ∉ g.vertices ∧ (UGraph.execM op g).2.vertices = g.vertices ∧
      ∃ n, ⟨min u v, max u v, n⟩ ∉ UGraph.edges g ∧ ∀ e, e ∈ UGraph.edges (UGraph.execM op g).2 ↔ e ∈ UGraph.edges g ∨ e = ⟨min u v, max u v, n⟩) := by
  have hi := UGraph.history_inv (UGraph.caught_history h hn)
  obtain ⟨rfl, h1⟩ := UGraph.execM_error hi.wf hi.sym he
  refine ⟨rfl, ?_, ?_, fun hu => ?_, ?_⟩
  · rintro rfl
    have : UGraph.execM .clear g = (.ok .unit, ⟨0, []⟩) := by
      apply PyM.of_result_ok; rw [UGraph.result_execM, UGraph.exec, UGraph.clear_spec hi.wf hi.sym]; rfl
    rw [this] at he; cases he
  · rintro rfl; simp [UGraph.execM] at he
  · rcases h1 with h1 | ⟨u, v, h2, h3, -⟩
    · exact h1
    · exact absurd h3 (hu u v h2)
  · rintro u v rfl hu
    have hv : max u v ∉ g.vertices := by
      intro hv
      have huv : u ∈ g.vertices ∧ v ∈ g.vertices := by
        rcases Nat.le_total u v with hle | hle
        · rw [Nat.min_eq_left hle] at hu; rw [Nat.max_eq_right hle] at hv; exact ⟨hu, hv⟩
        · rw [Nat.min_eq_right hle] at hu; rw [Nat.max_eq_left hle] at hv; exact ⟨hv, hu⟩
      obtain ⟨n, g', h1, -⟩ := UGraph.addEdge_spec hi.wf hi.sym u v huv.1 huv.2
      have : UGraph.execM (.addEdge u v) g = (.ok (.edge ⟨min u v, max u v, n⟩), g') := by
        apply PyM.of_result_ok; rw [UGraph.result_execM, UGraph.exec, h1]; rfl
      rw [this] at he; cases he
    obtain ⟨n, g', h1, w1, l1, v1, n1, e1⟩ := UGraph.addEdgeM_half hi.wf hu hv
    have : UGraph.execM (.addEdge u v) g = (.error .keyError, g') := PyM.map_error h1
    rw [this]
    refine ⟨hv, v1, n, fun hm => n1 ((UGraph.mem_edges hi.wf _).mp hm).1, fun e => ?_⟩
    rw [UGraph.mem_edges w1, UGraph.mem_edges hi.wf, e1]
    obtain ⟨x, y, m⟩ := e
    simp only [EdgeDesc.mk.injEq]
    constructor
    · rintro ⟨ha | ha, hb⟩
      · exact .inl ⟨ha, hb⟩
      · exact .inr ha
    · rintro (ha | ha)
      · exact ⟨.inl ha.1, ha.2⟩
      · exact ⟨.inr ha, by omega⟩

/-- **C112** (undirected graphs, counterexample). One vertex, `add_edge(0, 1)` raises `KeyError`, `num_edges()` is then 1, and `clear()` raises. -/
theorem C112_undirected_counterexample : ¬ C112_statement UGraph.execM .empty := by
  intro h
  have := h _ _ (.addEdge 0 1) .keyError (.call .addVertex .start) (by decide)
  exact absurd (congrArg (fun g : Graph => (UGraph.edges g).length) this) (by decide)

/-- The graph can then not be cleared. -/
theorem C112_undirected_stuck_counterexample :
    ∃ g l, Caught UGraph.execM .empty g l ∧ g.vertices = [0] ∧ (UGraph.edges g).length = 1 ∧ (UGraph.execM .clear g).1 = .error .keyError :=
  ⟨_, _, .call (.addEdge 0 1) (.call .addVertex .start), by decide, by decide, by decide⟩

/-- **C112** (incidence graphs). After any history with caught exceptions in which no failing `add_edge` had an existing source, an `IncidenceGraph` is in the very state in which the calls that
returned, alone, would have put it. -/
theorem C112_incidence_partial (g : IGraph) (l : CLog) (h : Caught IGraph.execM .empty g l) (hn : NoHalfEdge l) : History IGraph.exec .empty g (successes l) :=
  IGraph.caught_history h hn

/-- **C112** (incidence graphs, one call). In such a history, a mutator that raises raises `KeyError` and leaves the graph unchanged, except `add_edge` from an existing vertex to a missing one: `edges()` then
lists a new edge between them, which `in_edges` does not list. -/
theorem C112_incidence_failures_partial (g : IGraph) (l : CLog) (h : Caught IGraph.execM .empty g l) (hn : NoHalfEdge l) (op : GOp) (err : PyErr)
    (he : (IGraph.execM op g).1 = .error err) :
    err = .keyError ∧ op ≠ .clear ∧ op ≠ .addVertex ∧
    ((∀ u v, op = .addEdge u v → u ∉ g.vertices) → (IGraph.execM op g).2 = g) ∧
    (∀ u v, op = .addEdge u v → u ∈ g.vertices → v ∉ g.vertices ∧ (IGraph.execM op g).2.vertices = g.vertices ∧
      (∀ w, (IGraph.execM op g).2.inEdges w = g.inEdges w) ∧
      ∃ n, ⟨u, v, n⟩ ∉ g.g.edges ∧ ∀ e, e ∈ (IGraph.execM op g).2.g.edges ↔ e ∈ g.g.edges ∨ e = ⟨u, v, n⟩) := by
  have hi := IGraph.history_inv (IGraph.caught_history h hn)
  obtain ⟨rfl, h1⟩ := IGraph.execM_error hi.wf he
  refine ⟨rfl, ?_, ?_, fun hu => ?_, ?_⟩
  · rintro rfl
    have : IGraph.execM .clear g = (.ok .unit, ⟨⟨0, []⟩, []⟩) := by
      apply PyM.of_result_ok; rw [IGraph.result_execM, IGraph.exec, IGraph.clear_spec hi.wf]; rfl
    rw [this] at he; cases he
  · rintro rfl; simp [IGraph.execM] at he
  · rcases h1 with h1 | ⟨u, v, h2, h3, -⟩
    · exact h1
    · exact absurd h3 (hu u v h2)
  · rintro u v rfl hu
    have hv : v ∉ g.vertices := by
      intro hv
      obtain ⟨n, g', h1, -⟩ := IGraph.addEdge_spec hi.wf u v hu hv
      have : IGraph.execM (.addEdge u v) g = (.ok (.edge ⟨u, v, n⟩), g') := by
        apply PyM.of_result_ok; rw [IGraph.result_execM, IGraph.exec, h1]; rfl
      rw [this] at he; cases he
    obtain ⟨n, g', h1, w1, i1, l1, v1, n1, e1⟩ := IGraph.addEdgeM_half hi.wf hu hv
    have : IGraph.execM (.addEdge u v) g = (.error .keyError, g') := PyM.map_error h1
    rw [this]
    refine ⟨hv, v1, fun w => by unfold IGraph.inEdges; rw [i1], n, fun hm => n1 ((Graph.mem_edges hi.wf.out _).mp hm), fun e => ?_⟩
    rw [Graph.mem_edges w1, Graph.mem_edges hi.wf.out, e1]
    obtain ⟨x, y, m⟩ := e
    simp only [EdgeDesc.mk.injEq]

/-- **C112** (incidence graphs, counterexample). One vertex, `add_edge(0, 1)` raises `KeyError`, `num_edges()` is then 1, and `clear()` raises. -/
theorem C112_incidence_counterexample : ¬ C112_statement IGraph.execM .empty := by
  intro h
  have := h _ _ (.addEdge 0 1) .keyError (.call .addVertex .start) (by decide)
  exact absurd (congrArg (fun g : IGraph => g.g.numEdges) this) (by decide)

/-- The graph can then not be cleared. -/
theorem C112_incidence_stuck_counterexample :
    ∃ g l, Caught IGraph.execM .empty g l ∧ g.vertices = [0] ∧ g.g.numEdges = 1 ∧ (IGraph.execM .clear g).1 = .error .keyError :=
  ⟨_, _, .call (.addEdge 0 1) (.call .addVertex .start), by decide, by decide, by decide⟩

-- a history with two caught exceptions and two returning calls, to which the theorems apply
example : ∃ g, Caught UGraph.execM .empty g [(.removeVertex 4, .error .keyError), (.addEdge 1 2, .error .keyError), (.addVertex, .vertex 0 |> .ok)] ∧
    NoHalfUEdge [(.removeVertex 4, .error .keyError), (.addEdge 1 2, .error .keyError), (.addVertex, .vertex 0 |> .ok)] ∧ g.vertices = [0] :=
  ⟨_, .call (.removeVertex 4) (.call (.addEdge 1 2) (.call .addVertex .start)), by simp [NoHalfUEdge, successes, liveVertices], by decide⟩

example : ∃ g, Caught IGraph.execM .empty g [(.removeVertex 4, .error .keyError), (.addEdge 1 0, .error .keyError), (.addVertex, .vertex 0 |> .ok)] ∧
    NoHalfEdge [(.removeVertex 4, .error .keyError), (.addEdge 1 0, .error .keyError), (.addVertex, .vertex 0 |> .ok)] ∧ g.vertices = [0] :=
  ⟨_, .call (.removeVertex 4) (.call (.addEdge 1 0) (.call .addVertex .start)), by simp [NoHalfEdge, successes, liveVertices], by decide⟩

example : ∃ g, Caught Graph.execM .empty g [(.removeVertex 7, .error .keyError), (.addEdge 0 7, .ok (.edge ⟨0, 7, 0⟩)), (.addVertex, .ok (.vertex 0))] ∧ g.edges = [] :=
  ⟨_, .call (.removeVertex 7) (.call (.addEdge 0 7) (.call .addVertex .start)), by decide⟩

end PyBGL
