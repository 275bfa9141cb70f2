import Verif.Proofs.DirectedGraph
import Mathlib.Data.List.Nodup

/-!
# C01-C05: `DirectedGraph`
-/

namespace PyBGL
open Graph

/-- **C01** (vertex descriptors are fresh). After any history, `add_vertex()` returns a descriptor
which is not a current vertex and which was never returned since the creation or the last `clear()`. -/
theorem C01_add_vertex_fresh {g : Graph} {l : GLog} (h : History exec .empty g l) :
    g.addVertex.1 ∉ g.vertices ∧ g.addVertex.1 ∉ issuedVertices l := by
  have hi := history_inv h
  constructor
  · intro hm; have := hi.bound _ hm; simp only [addVertex] at this; omega
  · intro hm; have := hi.issued _ hm; simp only [addVertex] at this; omega

/-- **C01**, effect: the new vertex is added, nothing else changes. -/
theorem C01_add_vertex_effect {g : Graph} {l : GLog} (h : History exec .empty g l) :
    g.addVertex.2.vertices = g.vertices ++ [g.addVertex.1] ∧
      ∀ e, e ∈ g.addVertex.2.edges ↔ e ∈ g.edges := by
  have hi := history_inv h
  have hnew := (C01_add_vertex_fresh h).1
  refine ⟨Dict.keys_set_of_not_mem _ _ _ hnew, ?_⟩
  intro e
  have h2 := addVertex_inv hi
  rw [mem_edges hi.wf, mem_edges h2.wf, hi.eds, h2.eds]
  rfl

/-- **C02** (multigraph refinement). After any history the vertices and edges listed are exactly the
live ones according to the log, without repetition. -/
theorem C02_multigraph {g : Graph} {l : GLog} (h : History exec .empty g l) :
    (∀ u, u ∈ g.vertices ↔ u ∈ liveVertices l) ∧ g.vertices.Nodup ∧
    (∀ e, e ∈ g.edges ↔ e ∈ liveEdges l) ∧ g.edges.Nodup := by
  have hi := history_inv h
  refine ⟨hi.verts, hi.wf.outer, ?_, nodup_edges hi.wf⟩
  intro e; rw [mem_edges hi.wf, hi.eds]

/-- **C02** (parallel edges are distinguishable). `add_edge(u, v)` succeeds exactly when `u` is a
vertex; the returned descriptor goes from `u` to `v`, is not already in the graph, and is the only
change to the set of edges. -/
theorem C02_add_edge_fresh {g : Graph} {l : GLog} (h : History exec .empty g l) (u v : Nat) :
    (u ∉ g.vertices → g.addEdge u v = .error .keyError) ∧
    (u ∈ g.vertices → ∃ e g', g.addEdge u v = .ok (e, g') ∧ e.source = u ∧ e.target = v ∧
      e ∉ g.edges ∧ (∀ e', e' ∈ g'.edges ↔ e' ∈ g.edges ∨ e' = e) ∧ g'.vertices = g.vertices) := by
  have hi := history_inv h
  refine ⟨addEdge_error u v, ?_⟩
  intro hu
  obtain ⟨n, g', a, b, c, d, e, f⟩ := addEdge_spec hi.wf u v hu
  refine ⟨_, g', a, rfl, rfl, ?_, ?_, e⟩
  · rw [mem_edges hi.wf]; exact c
  · rintro ⟨x, y, m⟩
    rw [mem_edges b, mem_edges hi.wf, f]
    simp

/-- **C03** (`remove_vertex` removes exactly the vertex and its incident edges). -/
theorem C03_remove_vertex {g : Graph} {l : GLog} (h : History exec .empty g l) (u : Nat) :
    (u ∉ g.vertices → g.removeVertex u = .error .keyError) ∧
    (u ∈ g.vertices → ∃ g', g.removeVertex u = .ok g' ∧
      g'.vertices = g.vertices.filter (· ≠ u) ∧
      ∀ e, e ∈ g'.edges ↔ e ∈ g.edges ∧ e.source ≠ u ∧ e.target ≠ u) := by
  have hi := history_inv h
  refine ⟨removeVertex_absent hi.wf u, ?_⟩
  intro hu
  obtain ⟨g', a, b, c, d, f⟩ := removeVertex_spec hi.wf u hu
  refine ⟨g', a, d, ?_⟩
  intro e
  rw [mem_edges b, mem_edges hi.wf, f]

/-- **C03**, companion: `remove_edge` of an existing edge removes exactly that edge. -/
theorem C03_remove_edge {g : Graph} {l : GLog} (h : History exec .empty g l) (e : EdgeDesc Nat)
    (he : e ∈ g.edges) : ∃ g', g.removeEdge e = .ok g' ∧ g'.vertices = g.vertices ∧
      ∀ e', e' ∈ g'.edges ↔ e' ∈ g.edges ∧ e' ≠ e := by
  have hi := history_inv h
  obtain ⟨g', a, b, c, d, -, f⟩ := removeEdge_spec hi.wf e ((mem_edges hi.wf e).1 he)
  refine ⟨g', a, d, ?_⟩
  rintro ⟨x, y, m⟩
  rw [mem_edges b, mem_edges hi.wf, f]
  obtain ⟨p, q, r⟩ := e
  simp

/-- **C04** (`out_edges` and `edges` agree). -/
theorem C04_out_edges {g : Graph} {l : GLog} (h : History exec .empty g l) (u : Nat) :
    (∀ e, e ∈ g.outEdges u ↔ e ∈ g.edges ∧ e.source = u) ∧ (g.outEdges u).Nodup := by
  have hi := history_inv h
  refine ⟨?_, nodup_outEdges hi.wf u⟩
  intro e
  rw [mem_outEdges hi.wf, mem_edges hi.wf, and_comm]

/-- **C04** (degree sum): `num_edges()` is the sum of the out-degrees of the vertices. -/
theorem C04_degree_sum {g : Graph} {l : GLog} (h : History exec .empty g l) :
    g.numEdges = (g.vertices.map g.outDegree).sum := by
  have hi := history_inv h
  have key : ∀ (d : Dict Nat (Dict Nat (List Nat))), (∀ p ∈ d, g.adj.get? p.1 = some p.2) →
      (d.flatMap fun p => p.2.flatMap fun q => q.2.map fun n => (⟨p.1, q.1, n⟩ : EdgeDesc Nat)).length
        = ((Dict.keys d).map g.outDegree).sum := by
    intro d
    induction d with
    | nil => intro _; rfl
    | cons p d ih =>
      intro hp
      have h1 := ih (fun q hq => hp q (by simp [hq]))
      have h2 := hp p (by simp)
      simp only [List.flatMap_cons, List.length_append, Dict.keys, List.map_cons, List.sum_cons]
      simp only [Dict.keys] at h1
      rw [h1]
      simp [outDegree, outEdges, Dict.getD, h2]
  exact key g.adj (fun p hp => Dict.get?_of_mem hi.wf.outer hp)

/-- **C05** (`edge(u, v)` finds the edge iff it is unique). -/
theorem C05_edge {g : Graph} {l : GLog} (h : History exec .empty g l) (u v : Nat) :
    (∀ e, g.edge u v = (some e, true) ↔
      (e ∈ g.edges ∧ e.source = u ∧ e.target = v ∧
        ∀ e' ∈ g.edges, e'.source = u → e'.target = v → e' = e)) ∧
    ((¬ ∃ e, g.edge u v = (some e, true)) → g.edge u v = (none, false)) := by
  have hm := (C04_out_edges h u).1
  have hset : ∀ e, e ∈ mkSet ((g.outEdges u).filter fun e => e.target = v) ↔
      e ∈ g.edges ∧ e.source = u ∧ e.target = v := by
    intro e; rw [mem_mkSet, List.mem_filter, hm]; simp [and_assoc]
  have hnd := nodup_mkSet ((g.outEdges u).filter fun e => e.target = v)
  unfold edge
  generalize hs : mkSet ((g.outEdges u).filter fun e => e.target = v) = cands
  rw [hs] at hset hnd
  match cands, hset, hnd with
  | [], hset, hnd =>
    refine ⟨?_, by simp⟩
    intro e
    simp only [Prod.mk.injEq, reduceCtorEq, false_and, false_iff]
    rintro ⟨h1, h2, h3, -⟩
    have := (hset e).2 ⟨h1, h2, h3⟩
    simp at this
  | [x], hset, hnd =>
    refine ⟨?_, by simp⟩
    intro e
    simp only [Prod.mk.injEq, Option.some.injEq, and_true]
    constructor
    · rintro rfl
      have := (hset x).1 (by simp)
      refine ⟨this.1, this.2.1, this.2.2, ?_⟩
      intro e' h1 h2 h3
      have := (hset e').2 ⟨h1, h2, h3⟩
      simpa using this
    · rintro ⟨h1, h2, h3, h4⟩
      have := (hset x).1 (by simp)
      exact h4 x this.1 this.2.1 this.2.2
  | x :: y :: r, hset, hnd =>
    refine ⟨?_, by simp⟩
    intro e
    simp only [Prod.mk.injEq, reduceCtorEq, false_and, false_iff]
    rintro ⟨h1, h2, h3, h4⟩
    have hx := (hset x).1 (by simp)
    have hy := (hset y).1 (by simp)
    have : x = y := (h4 x hx.1 hx.2.1 hx.2.2).trans (h4 y hy.1 hy.2.1 hy.2.2).symm
    subst this
    simp at hnd

/-- **C79**: `num_vertices()`, `num_edges()` and `out_degree(u)` count the live vertices, the live edges and the live edges leaving `u`;
`has_vertex()` and `has_edge()` tell whether there is one. -/
theorem C79_counts {g : Graph} {l : GLog} (h : History exec .empty g l) :
    g.numVertices = (mkSet (liveVertices l)).length ∧ g.numEdges = (mkSet (liveEdges l)).length ∧
    (∀ u, g.outDegree u = ((mkSet (liveEdges l)).filter fun e => e.source = u).length) ∧
    (g.hasVertex = true ↔ ∃ u, u ∈ liveVertices l) ∧ (g.hasEdge = true ↔ ∃ e, e ∈ liveEdges l) := by
  obtain ⟨h1, h2, h3, h4⟩ := C02_multigraph h
  have hv : g.vertices.Perm (mkSet (liveVertices l)) :=
    (List.perm_ext_iff_of_nodup h2 (nodup_mkSet _)).mpr (fun u => by rw [h1, mem_mkSet])
  have he : g.edges.Perm (mkSet (liveEdges l)) :=
    (List.perm_ext_iff_of_nodup h4 (nodup_mkSet _)).mpr (fun u => by rw [h3, mem_mkSet])
  refine ⟨hv.length_eq, he.length_eq, fun u => ?_, ?_, ?_⟩
  · have : (g.outEdges u).Perm ((mkSet (liveEdges l)).filter fun e => e.source = u) := by
      refine (List.perm_ext_iff_of_nodup (C04_out_edges h u).2 ((nodup_mkSet _).filter _)).mpr (fun e => ?_)
      rw [(C04_out_edges h u).1, h3, List.mem_filter, mem_mkSet]; simp
    exact this.length_eq
  · simp only [← h1]
    unfold hasVertex
    cases g.vertices with
    | nil => simp
    | cons a r => simp only [true_iff]; exact ⟨a, by simp⟩
  · simp only [← h3]
    unfold hasEdge
    cases g.edges with
    | nil => simp
    | cons a r => simp only [true_iff]; exact ⟨a, by simp⟩

/-- **C79**, constructor: `DirectedGraph(n)` has the vertices `0, …, n - 1` and no edge, and is reached by the `n` calls to `add_vertex`. -/
theorem C79_init (n : Nat) : (Graph.init n).vertices = List.range n ∧ (Graph.init n).edges = [] ∧
    ∃ l, History exec .empty (Graph.init n) l ∧ issuedVertices l = (List.range n).reverse := by
  have hlast : ∀ n, (Graph.init n).lastVertexId = n := by
    intro n; induction n with
    | zero => rfl
    | succ n ih => show (Graph.init n).lastVertexId + 1 = _; rw [ih]
  have hist : ∀ n, ∃ l, History exec .empty (Graph.init n) l ∧ issuedVertices l = (List.range n).reverse := by
    intro n; induction n with
    | zero => exact ⟨[], .start, rfl⟩
    | succ n ih =>
      obtain ⟨l, h1, h2⟩ := ih
      refine ⟨(.addVertex, .vertex n) :: l, h1.call (op := .addVertex) ?_, ?_⟩
      · show Except.ok (GOut.vertex (Graph.init n).addVertex.1, _) = _
        have : (Graph.init n).addVertex.1 = n := hlast n
        rw [this]; rfl
      · simp [issuedVertices, h2, List.range_succ]
  refine ⟨?_, ?_, hist n⟩
  · induction n with
    | zero => rfl
    | succ n ih =>
      obtain ⟨l, h1, _⟩ := hist n
      have := (C01_add_vertex_effect h1).1
      have hn : (Graph.init n).addVertex.1 = n := hlast n
      rw [hn, ih, ← List.range_succ] at this
      exact this
  · induction n with
    | zero => rfl
    | succ n ih =>
      obtain ⟨l, h1, _⟩ := hist n
      rw [List.eq_nil_iff_forall_not_mem]
      intro e he
      have := ((C01_add_vertex_effect h1).2 e).mp he
      rw [ih] at this; simp at this

/-! ## Non-vacuity: a history with parallel edges, removals and a self loop -/

/-- Runs a list of calls and returns the final state and the log. -/
def runCalls {S : Type} (exec : S → GOp → Except PyErr (GOut × S)) (s : S) :
    List GOp → GLog → Except PyErr (S × GLog)
  | [], l => .ok (s, l)
  | op :: ops, l =>
    match exec s op with
    | .ok (out, s') => runCalls exec s' ops ((op, out) :: l)
    | .error e => .error e

theorem runCalls_history {S : Type} {exec : S → GOp → Except PyErr (GOut × S)} {s0 : S} :
    ∀ (ops : List GOp) {s s' : S} {l l' : GLog}, History exec s0 s l →
      runCalls exec s ops l = .ok (s', l') → History exec s0 s' l'
  | [], s, s', l, l', h, hr => by
    simp only [runCalls, Except.ok.injEq, Prod.mk.injEq] at hr
    obtain ⟨rfl, rfl⟩ := hr; exact h
  | op :: ops, s, s', l, l', h, hr => by
    simp only [runCalls] at hr
    split at hr
    · rename_i out s1 h1
      exact runCalls_history ops (h.call h1) hr
    · simp at hr

/-- The example history: two parallel edges, a self loop, a removed vertex and a removed edge. -/
def exampleCalls : List GOp :=
  [.addVertex, .addVertex, .addVertex, .addEdge 0 1, .addEdge 0 1, .addEdge 1 1, .addEdge 2 0,
   .removeVertex 2, .removeEdge ⟨0, 1, 0⟩, .addEdge 0 1, .addVertex]

example : ∃ g l, History exec .empty g l ∧ g.vertices = [0, 1, 3] ∧
    g.edges = [⟨0, 1, 1⟩, ⟨0, 1, 2⟩, ⟨1, 1, 0⟩] ∧ g.edge 0 1 = (none, false) ∧
    g.edge 1 1 = (some ⟨1, 1, 0⟩, true) := by
  refine ⟨_, _, runCalls_history exampleCalls .start rfl, ?_, ?_, ?_, ?_⟩ <;> decide

end PyBGL
