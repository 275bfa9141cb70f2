import Verif.Proofs.Reversed
import Verif.Props.C06_C07_UndirectedGraph
import Verif.Props.C08_IncidenceGraph
import Verif.Props.C09_C10_Reverse_GraphView
import Verif.Props.C11_C13_C24_Automaton

/-!
# C143: the mutators of a graph to which `reverse_graph` was applied
-/

namespace PyBGL

/-- **C143** (`IncidenceGraph`, partial: the direction of `add_edge` is not the expected one, see `C143_add_edge_counterexample`): after any history of calls of methods
and of `reverse_graph`, the vertices and the edges are those issued and not removed since; `out_edges(u)` and `in_edges(u)` list, once each, the edges of which `source`,
respectively `target`, is `u`; both functions read the fields of the descriptor, exchanged after an odd number of reversals. -/
theorem C143_history_partial {g : Rev IGraph} {l : List (ROp × GOut)} (h : RHistory g l) :
    (∀ u, u ∈ (RIGraph.toI g).vertices ↔ u ∈ liveVertices (methodCalls l)) ∧ (RIGraph.toI g).vertices.Nodup ∧
    (∀ e, e ∈ (RIGraph.toI g).edges ↔ e ∈ liveEdges (methodCalls l)) ∧ (RIGraph.toI g).edges.Nodup ∧
    (RIGraph.toI g).Consistent ∧ (∀ u, ((RIGraph.toI g).outEdges u).Nodup ∧ ((RIGraph.toI g).inEdges u).Nodup) ∧
    ∀ e, (RIGraph.toI g).source e = (if oddReversals l then e.target else e.source) ∧
      (RIGraph.toI g).target e = (if oddReversals l then e.source else e.target) := by
  obtain ⟨hi, hs⟩ := RIGraph.history_inv h
  have he : ∀ e, e ∈ g.base.edges ↔ e.distinguisher ∈ lk g.base.g.adj e.source e.target := fun e => Graph.mem_edges hi.wf.out e
  refine ⟨hi.verts, hi.wf.out.outer, fun e => ?_, Graph.nodup_edges hi.wf.out, ⟨fun u e => ?_, fun u e => ?_⟩,
    fun u => ⟨RIGraph.nodup_outEdges hi.wf u, RIGraph.nodup_inEdges hi.wf u⟩, fun e => ?_⟩
  · show e ∈ g.base.edges ↔ _
    rw [he, hi.eds]
  · show e ∈ RIGraph.outEdges g u ↔ e ∈ g.base.edges ∧ _
    rw [RIGraph.mem_outEdges hi.wf, he, and_comm]; rfl
  · show e ∈ RIGraph.inEdges g u ↔ e ∈ g.base.edges ∧ _
    rw [RIGraph.mem_inEdges hi.wf, he, and_comm]; rfl
  · rw [← hs]; exact ⟨rfl, rfl⟩

/-- **C143** (calls of the mutators of an `IncidenceGraph`, at any point of such a history): `add_vertex` returns a new vertex; `remove_vertex(u)` succeeds iff `u` is a
vertex, and removes it with the edges of which it is the source or the target; `remove_edge(e)` of an edge removes exactly this edge. -/
theorem C143_calls {g : Rev IGraph} {l : List (ROp × GOut)} (h : RHistory g l) :
    (∀ u g', RIGraph.addVertex g = (u, g') → u ∉ (RIGraph.toI g).vertices ∧ (∀ x, x ∈ (RIGraph.toI g').vertices ↔ x ∈ (RIGraph.toI g).vertices ∨ x = u) ∧
        ∀ e, e ∈ (RIGraph.toI g').edges ↔ e ∈ (RIGraph.toI g).edges) ∧
    (∀ u, (u ∉ (RIGraph.toI g).vertices → RIGraph.removeVertex g u = .error .keyError) ∧
      (u ∈ (RIGraph.toI g).vertices → ∃ g', RIGraph.removeVertex g u = .ok g' ∧
        (∀ x, x ∈ (RIGraph.toI g').vertices ↔ x ∈ (RIGraph.toI g).vertices ∧ x ≠ u) ∧
        ∀ e, e ∈ (RIGraph.toI g').edges ↔ e ∈ (RIGraph.toI g).edges ∧ g.source e ≠ u ∧ g.target e ≠ u)) ∧
    (∀ e ∈ (RIGraph.toI g).edges, ∃ g', RIGraph.removeEdge g e = .ok g' ∧
        (∀ x, x ∈ (RIGraph.toI g').vertices ↔ x ∈ (RIGraph.toI g).vertices) ∧
        ∀ e', e' ∈ (RIGraph.toI g').edges ↔ e' ∈ (RIGraph.toI g).edges ∧ e' ≠ e) := by
  obtain ⟨hi, hs⟩ := RIGraph.history_inv h
  have he : ∀ {b : IGraph} (_ : IGraph.WF b) e, e ∈ b.edges ↔ e.distinguisher ∈ lk b.g.adj e.source e.target :=
    fun hw e => Graph.mem_edges hw.out e
  refine ⟨?_, fun u => ⟨RIGraph.removeVertex_absent hi.wf u, fun hu => ?_⟩, fun e hm => ?_⟩
  · intro u g' ha
    have h' : RHistory g' ((.call .addVertex, .vertex u) :: l) := .call h (by simp [RIGraph.exec, ha])
    have hu : u = g.base.g.lastVertexId := (Prod.mk.inj ha).1.symm
    have hp := C143_history_partial h
    have hp' := C143_history_partial h'
    refine ⟨fun hc => ?_, fun x => ?_, fun e => ?_⟩
    · exact Nat.lt_irrefl u (by have := hi.bound _ hc; omega)
    · rw [hp'.1, hp.1]; simp [methodCalls, liveVertices, or_comm]
    · rw [hp'.2.2.1, hp.2.2.1]; simp [methodCalls, liveEdges]
  · obtain ⟨b, h1, h2, -, h4, h5⟩ := RIGraph.removeVertex_spec hi.wf u hu
    refine ⟨_, h1, fun x => ?_, fun e => ?_⟩
    · show x ∈ b.vertices ↔ _
      rw [h4]; simp [RIGraph.toI]
    · show e ∈ b.edges ↔ e ∈ g.base.edges ∧ _
      rw [he h2, he hi.wf, h5]
      unfold Rev.source Rev.target
      split <;> tauto
  · have hm' := (he hi.wf e).mp hm
    obtain ⟨b, h1⟩ : ∃ b, g.base.removeEdge e = .ok b := by
      obtain ⟨b, h1, -⟩ := IGraph.removeEdge_spec hi.wf e hm'
      exact ⟨b, h1⟩
    have hr : RIGraph.removeEdge g e = .ok { g with base := b } := by simp [RIGraph.removeEdge, h1, bind, Except.bind]
    have h' : RHistory { g with base := b } ((.call (.removeEdge e), .unit) :: l) := .call h (by simp [RIGraph.exec, hr, Except.map])
    have hp := C143_history_partial h
    have hp' := C143_history_partial h'
    refine ⟨_, hr, fun x => ?_, fun e' => ?_⟩
    · rw [hp'.1, hp.1]; simp [methodCalls, liveVertices]
    · rw [hp'.2.2.1, hp.2.2.1]; simp [methodCalls, liveEdges]

/-- **C143** (`edge(u, v)`, at any point of such a history): it finds the edge from `u` to `v`, in the sense of `source` and `target`, iff there is exactly one. -/
theorem C143_edge {g : Rev IGraph} {l : List (ROp × GOut)} (h : RHistory g l) (u v : Nat) (e : EdgeDesc Nat) :
    RIGraph.edge g u v = (some e, true) ↔
      e ∈ (RIGraph.toI g).edges ∧ g.source e = u ∧ g.target e = v ∧
        ∀ e' ∈ (RIGraph.toI g).edges, g.source e' = u → g.target e' = v → e' = e := by
  have hc := (C143_history_partial h).2.2.2.2.1
  have hset : ∀ e, e ∈ mkSet ((RIGraph.outEdges g u).filter fun e => g.target e = v) ↔
      e ∈ (RIGraph.toI g).edges ∧ g.source e = u ∧ g.target e = v := by
    intro e
    have := hc.out u e
    rw [mem_mkSet, List.mem_filter]
    rw [show (e ∈ RIGraph.outEdges g u ↔ _) from this]
    show (e ∈ (RIGraph.toI g).edges ∧ g.source e = u) ∧ _ ↔ _
    simp [and_assoc]
  have hnd := nodup_mkSet ((RIGraph.outEdges g u).filter fun e => g.target e = v)
  unfold RIGraph.edge
  generalize mkSet ((RIGraph.outEdges g u).filter fun e => g.target e = v) = cands at hset hnd
  match cands, hset, hnd with
  | [], hset, _ =>
    simp only [Prod.mk.injEq, reduceCtorEq, false_and, false_iff]
    rintro ⟨h1, h2, h3, -⟩
    have := (hset e).2 ⟨h1, h2, h3⟩
    simp at this
  | [x], hset, _ =>
    simp only [Prod.mk.injEq, Option.some.injEq, and_true]
    constructor
    · rintro rfl
      obtain ⟨h1, h2, h3⟩ := (hset x).1 (by simp)
      exact ⟨h1, h2, h3, fun e' a b c => by simpa using (hset e').2 ⟨a, b, c⟩⟩
    · rintro ⟨h1, h2, h3, h4⟩
      obtain ⟨k1, k2, k3⟩ := (hset x).1 (by simp)
      exact h4 x k1 k2 k3
  | x :: y :: r, hset, hnd =>
    simp only [Prod.mk.injEq, reduceCtorEq, false_and, false_iff]
    rintro ⟨h1, h2, h3, h4⟩
    obtain ⟨k1, k2, k3⟩ := (hset x).1 (by simp)
    obtain ⟨m1, m2, m3⟩ := (hset y).1 (by simp)
    have := (h4 x k1 k2 k3).trans (h4 y m1 m2 m3).symm
    rw [this] at hnd
    simp at hnd

/-- **C143** (`add_edge`, exact, at any point of such a history): `add_edge(u, v)` raises `KeyError` unless `u` and `v` are vertices; otherwise it adds exactly one edge,
whose source is `u` and target `v` after an even number of reversals, and the converse after an odd number. -/
theorem C143_add_edge_exact {g : Rev IGraph} {l : List (ROp × GOut)} (h : RHistory g l) (u v : Nat) :
    (¬ (u ∈ (RIGraph.toI g).vertices ∧ v ∈ (RIGraph.toI g).vertices) → RIGraph.addEdge g u v = .error .keyError) ∧
    (u ∈ (RIGraph.toI g).vertices → v ∈ (RIGraph.toI g).vertices → ∃ e g', RIGraph.addEdge g u v = .ok (e, g') ∧
      e ∉ (RIGraph.toI g).edges ∧ (∀ e', e' ∈ (RIGraph.toI g').edges ↔ e' ∈ (RIGraph.toI g).edges ∨ e' = e) ∧
      (∀ x, x ∈ (RIGraph.toI g').vertices ↔ x ∈ (RIGraph.toI g).vertices) ∧
      if oddReversals l then g'.source e = v ∧ g'.target e = u else g'.source e = u ∧ g'.target e = v) := by
  obtain ⟨hi, hs⟩ := RIGraph.history_inv h
  refine ⟨fun hn => ?_, fun hu hv => ?_⟩
  · simp [RIGraph.addEdge, IGraph.addEdge_error hi.wf u v hn, bind, Except.bind]
  · obtain ⟨n, b, h1, h2, h3, -, h5, h6⟩ := IGraph.addEdge_spec hi.wf u v hu hv
    have he : ∀ {b : IGraph} (_ : IGraph.WF b) e, e ∈ b.edges ↔ e.distinguisher ∈ lk b.g.adj e.source e.target :=
      fun hw e => Graph.mem_edges hw.out e
    refine ⟨⟨u, v, n⟩, { g with base := b }, by simp [RIGraph.addEdge, h1, bind, Except.bind], ?_, fun e' => ?_, fun x => ?_, ?_⟩
    · show _ ∉ g.base.edges
      rw [he hi.wf]; exact h3
    · show e' ∈ b.edges ↔ e' ∈ g.base.edges ∨ _
      rw [he h2, he hi.wf, h6]
      cases e'; simp
    · show x ∈ b.vertices ↔ x ∈ g.base.vertices
      rw [h5]
    · rw [← hs]
      cases hsw : g.swapped <;> simp [Rev.source, Rev.target]

/-- "`add_edge(u, v)` returns an edge from `u` to `v`." -/
def C143_add_edge_statement : Prop :=
  ∀ (g : Rev IGraph) (l : List (ROp × GOut)), RHistory g l → ∀ u v e g', RIGraph.addEdge g u v = .ok (e, g') → g'.source e = u ∧ g'.target e = v

/-- Two vertices, then `reverse_graph`. -/
def twoReversed : List (ROp × GOut) := [(.reverse, .unit), (.call .addVertex, .vertex 1), (.call .addVertex, .vertex 0)]

theorem twoReversed_history : RHistory ⟨⟨⟨2, [(0, []), (1, [])]⟩, [(0, []), (1, [])]⟩, true⟩ twoReversed :=
  .call (.call (.call .start rfl) rfl) rfl

/-- **C143** (refuted): two vertices, `reverse_graph`, and `add_edge(0, 1)` returns an edge from 1 to 0. -/
theorem C143_add_edge_counterexample : ¬ C143_add_edge_statement := by
  intro h
  have := h _ _ twoReversed_history 0 1 ⟨0, 1, 0⟩ _ rfl
  exact absurd this.1 (by decide)

/-- The hypotheses are met: three vertices, an edge, `reverse_graph`, an edge, the removal of a vertex. -/
example : ∃ g, RHistory g [(.call (.removeVertex 2), .unit), (.call (.addEdge 2 1), .edge ⟨2, 1, 0⟩), (.reverse, .unit),
      (.call (.addEdge 0 1), .edge ⟨0, 1, 0⟩), (.call .addVertex, .vertex 2), (.call .addVertex, .vertex 1), (.call .addVertex, .vertex 0)] ∧
    (RIGraph.toI g).edges = [⟨0, 1, 0⟩] ∧ (RIGraph.toI g).outEdges 1 = [⟨0, 1, 0⟩] ∧ RIGraph.edge g 1 0 = (some ⟨0, 1, 0⟩, true) ∧ RIGraph.edge g 0 1 = (none, false) :=
  ⟨_, .call (.call (.call (.call (.call (.call (.call .start rfl) rfl) rfl) rfl) rfl) rfl) rfl, rfl, rfl, rfl, rfl⟩

/-! ## `IncidenceAutomaton` -/

section
variable {A : Type} [DecidableEq A]

/-- **C143** (`IncidenceAutomaton.remove_edge` after `reverse_graph`, exact): after any history of calls on the automaton followed by `reverse_graph`, `remove_edge(e)` of
a transition `e` raises `KeyError`, or removes the transition that leaves the *target* of `e` by its symbol, if any, and nothing else. -/
theorem C143_automaton_remove_edge {ops : List (AOp A)} {g : IAutomaton A} (h : Runs IAutomaton.exec .empty ops g) {e : EdgeDesc A} (he : e ∈ g.a.edges) :
    RIAutomaton.removeEdge (Rev.reverse ⟨g, false⟩) e = .error .keyError ∨
    ∃ g', RIAutomaton.removeEdge (Rev.reverse ⟨g, false⟩) e = .ok g' ∧ g'.base.a.vertices = g.a.vertices ∧
      ∀ e', e' ∈ g'.base.a.edges ↔ e' ∈ g.a.edges ∧ ¬ (e'.source = e.target ∧ e'.distinguisher = e.distinguisher) := by
  have hw := (IAutomaton.inOut_runs h).1
  obtain ⟨q, r, a⟩ := e
  obtain ⟨i1, i2, -, -, -, i6⟩ := Automaton.removeEdge_spec hw.out ⟨r, q, a⟩
  have key : ∀ e' : EdgeDesc A, e' ∈ (g.a.removeEdge ⟨r, q, a⟩).edges ↔ e' ∈ g.a.edges ∧ ¬ (e'.source = r ∧ e'.distinguisher = a) := by
    intro e'
    rw [Automaton.mem_edges i1, Automaton.mem_edges hw.out, i6]
    by_cases hc : r = e'.source ∧ a = e'.distinguisher
    · simp [hc]
    · rw [if_neg hc]
      have : ¬ (e'.source = r ∧ e'.distinguisher = a) := fun x => hc ⟨x.1.symm, x.2.symm⟩
      simp [this]
  unfold RIAutomaton.removeEdge
  simp only [Rev.reverse, Rev.source, Rev.target, Bool.not_false, if_true, IAutomaton.removeEdge, Dict.getE, bind, Except.bind]
  cases h1 : g.inAdj.get? q with
  | none => exact .inl rfl
  | some ins =>
    dsimp only
    cases h2 : ins.get? r with
    | none => exact .inl rfl
    | some s =>
      right
      dsimp only
      by_cases c1 : a ∈ s
      · by_cases c2 : setDiscard s a = []
        · rw [if_pos c1, if_pos c2]; exact ⟨_, rfl, i2, key⟩
        · rw [if_pos c1, if_neg c2]; exact ⟨_, rfl, i2, key⟩
      · rw [if_neg c1]; exact ⟨_, rfl, i2, key⟩

/-- **C143** (consequence): no call of `remove_edge` removes a transition between two different states of a reversed automaton. -/
theorem C143_automaton_remove_edge_keeps {ops : List (AOp A)} {g : IAutomaton A} (h : Runs IAutomaton.exec .empty ops g) {e : EdgeDesc A} (he : e ∈ g.a.edges)
    (hne : e.source ≠ e.target) {g' : Rev (IAutomaton A)} (hr : RIAutomaton.removeEdge (Rev.reverse ⟨g, false⟩) e = .ok g') : e ∈ g'.base.a.edges := by
  rcases C143_automaton_remove_edge h he with h1 | ⟨g'', h1, -, h3⟩
  · rw [h1] at hr; cases hr
  · rw [h1] at hr; cases hr
    exact (h3 e).mpr ⟨he, fun hc => hne hc.1⟩

/-- **C143** (`IncidenceAutomaton.remove_vertex` after `reverse_graph`, exact): after any history of calls on the automaton followed by `reverse_graph`,
`remove_vertex(q)` of a state raises `KeyError` or `RuntimeError` if some transition leaves `q` by a symbol for which its target has no transition, or loops on `q`;
otherwise it removes `q`, its outgoing transitions, and each transition `(r, a)` such that `q` leads to `r` by `a`: the transitions *to* `q` are not looked at. -/
theorem C143_automaton_remove_vertex {ops : List (AOp A)} {g : IAutomaton A} (h : Runs IAutomaton.exec .empty ops g) {q : Nat} (hq : q ∈ g.a.vertices) :
    ((∃ e ∈ g.a.edges, e.source = q ∧ (e.target = q ∨ ∀ r, ⟨e.target, r, e.distinguisher⟩ ∉ g.a.edges)) →
      RIAutomaton.removeVertex (Rev.reverse ⟨g, false⟩) q = .error .keyError ∨ RIAutomaton.removeVertex (Rev.reverse ⟨g, false⟩) q = .error .runtimeError) ∧
    ((∀ e ∈ g.a.edges, e.source = q → e.target ≠ q ∧ ∃ r, ⟨e.target, r, e.distinguisher⟩ ∈ g.a.edges) →
      ∃ g', RIAutomaton.removeVertex (Rev.reverse ⟨g, false⟩) q = .ok g' ∧ (∀ v, v ∈ g'.base.a.vertices ↔ v ∈ g.a.vertices ∧ v ≠ q) ∧
        ∀ e, e ∈ g'.base.a.edges ↔ e ∈ g.a.edges ∧ e.source ≠ q ∧ ⟨q, e.source, e.distinguisher⟩ ∉ g.a.edges) := by
  have hw := (IAutomaton.inOut_runs h).1
  have hm : ∀ x y c, (⟨x, y, c⟩ : EdgeDesc A) ∈ g.a.edges ↔ g.a.delta x c = some y := fun x y c => Automaton.mem_edges hw.out (e := ⟨x, y, c⟩)
  obtain ⟨h1, h2⟩ := RIAutomaton.removeVertex_swapped hw hq
  constructor
  · rintro ⟨⟨x, y, c⟩, a1, rfl, a3⟩
    refine h1 ⟨c, y, (hm _ _ _).mp a1, a3.imp id fun hn => ?_⟩
    cases hd : g.a.delta y c with
    | none => rfl
    | some r => exact absurd ((hm _ _ _).mpr hd) (hn r)
  · intro hall
    obtain ⟨b, k1, k2, k3, k4⟩ := h2 fun a r hd => by
      obtain ⟨x1, r', x2⟩ := hall ⟨q, r, a⟩ ((hm _ _ _).mpr hd) rfl
      exact ⟨x1, by rw [(hm _ _ _).mp x2]; simp⟩
    refine ⟨_, k1, fun v => ?_, ?_⟩
    · show v ∈ b.a.vertices ↔ _
      rw [k3]; simp
    · rintro ⟨x, y, c⟩
      show _ ∈ b.a.edges ↔ _
      rw [Automaton.mem_edges k2, k4, hm, hm]

end

/-- "After `reverse_graph`, `remove_edge(e)` removes the transition `e`, and `remove_vertex(q)` the transitions from and to `q`, whenever they return." -/
def C143_automaton_statement : Prop :=
  ∀ (ops : List (AOp Char)) (g : IAutomaton Char), Runs IAutomaton.exec .empty ops g →
    (∀ e ∈ g.a.edges, ∀ g', RIAutomaton.removeEdge (Rev.reverse ⟨g, false⟩) e = .ok g' → e ∉ g'.base.a.edges) ∧
    ∀ q ∈ g.a.vertices, ∀ g', RIAutomaton.removeVertex (Rev.reverse ⟨g, false⟩) q = .ok g' → ∀ e ∈ g'.base.a.edges, e.source ≠ q ∧ e.target ≠ q

/-- States 0, 1 and the transition from 0 to 1 by `a`. -/
def oneTransition : List (AOp Char) := [.addVertex, .addVertex, .addEdge 0 1 'a']

/-- **C143** (refuted): one transition from 0 to 1. After `reverse_graph`, `remove_vertex(1)` returns and leaves the transition from 0 to the removed state 1,
`remove_vertex(0)` raises `KeyError`, and `remove_edge` of the transition raises `KeyError`. -/
theorem C143_automaton_counterexample :
    ¬ C143_automaton_statement ∧ ∃ g : IAutomaton Char, Runs IAutomaton.exec .empty oneTransition g ∧ g.a.edges = [⟨0, 1, 'a'⟩] ∧
      (∃ g', RIAutomaton.removeVertex (Rev.reverse ⟨g, false⟩) 1 = .ok g' ∧ g'.base.a.vertices = [0] ∧ g'.base.a.edges = [⟨0, 1, 'a'⟩]) ∧
      RIAutomaton.removeVertex (Rev.reverse ⟨g, false⟩) 0 = .error .keyError ∧
      RIAutomaton.removeEdge (Rev.reverse ⟨g, false⟩) ⟨0, 1, 'a'⟩ = .error .keyError := by
  have hrun : Runs IAutomaton.exec (.empty : IAutomaton Char) oneTransition
    ⟨⟨2, [(0, [('a', 1)]), (1, [])], some 0, []⟩, [(0, []), (1, [(0, ['a'])])]⟩ := rfl
  refine ⟨fun h => ?_, _, hrun, rfl, ⟨_, rfl, rfl, rfl⟩, rfl, rfl⟩
  exact ((h _ _ hrun).2 1 (by decide) _ rfl ⟨0, 1, 'a'⟩ (by decide)).2 rfl

/-! ## `UndirectedGraph` -/

/-- **C143** (`UndirectedGraph` after `reverse_graph`): `out_edges` never returns (`RecursionError`), whatever the number of nested calls allowed; and after any history
of calls followed by `reverse_graph`, `remove_edge` of an edge between two different vertices raises `KeyError`. -/
theorem C143_undirected {g : Graph} {l : GLog} (h : History UGraph.exec .empty g l) :
    (∀ u n, RUGraph.outEdges (Rev.reverse ⟨g, false⟩) u n = none) ∧
    ∀ e, e ∈ UGraph.outEdges g e.source → e.source ≠ e.target → RUGraph.removeEdge (Rev.reverse ⟨g, false⟩) e = .error .keyError := by
  have hi := UGraph.history_inv h
  constructor
  · intro u n
    induction n with
    | zero => rfl
    | succ n ih => simpa [RUGraph.outEdges, Rev.reverse] using ih
  · rintro ⟨x, y, n⟩ he hne
    simp only [UGraph.outEdges] at he
    rw [Graph.mem_outEdges hi.wf] at he
    obtain ⟨b, h1, -, -, -, -, h6⟩ := Graph.removeEdge_spec hi.wf ⟨x, y, n⟩ he.2
    have hn : n ∉ lk b.adj x y := fun hc => ((h6 x y n).mp hc).2 ⟨rfl, rfl, rfl⟩
    have hne' : y ≠ x := fun hc => hne hc.symm
    simp only [RUGraph.removeEdge, h1, Rev.reverse, Rev.source, Rev.target, bind, Except.bind, Bool.not_false, if_true, ne_eq, hne', not_false_eq_true,
      Dict.getE]
    cases h2 : b.adj.get? x with
    | none => rfl
    | some ys =>
      dsimp only
      cases h3 : ys.get? y with
      | none => rfl
      | some s =>
        dsimp only
        have : n ∉ s := by
          have hl : lk b.adj x y = s := by rw [lk_eq h2, h3]; rfl
          rwa [hl] at hn
        simp [setRemoveE, this]

/-- The hypotheses are met: two vertices and an edge. -/
example : ∃ g, History UGraph.exec .empty g [(.addEdge 0 1, .edge ⟨0, 1, 0⟩), (.addVertex, .vertex 1), (.addVertex, .vertex 0)] ∧
    UGraph.outEdges g 0 = [⟨0, 1, 0⟩] ∧ RUGraph.removeEdge (Rev.reverse ⟨g, false⟩) ⟨0, 1, 0⟩ = .error .keyError :=
  ⟨_, .call (.call (.call .start rfl) rfl) rfl, rfl, rfl⟩

/-- **C143** (`reverse_graph` twice): on an `UndirectedGraph` and on an `IncidenceAutomaton`, `out_edges`, `remove_edge` and `remove_vertex` do again what they do on
the original object, exceptions included. -/
theorem C143_twice {A : Type} [DecidableEq A] (g : Graph) (i : IAutomaton A) :
    (∀ u n, RUGraph.outEdges (Rev.reverse (Rev.reverse ⟨g, false⟩)) u (n + 1) = some (UGraph.outEdges g u)) ∧
    (∀ e, (RUGraph.removeEdge (Rev.reverse (Rev.reverse ⟨g, false⟩)) e).map (·.base) = UGraph.removeEdge g e) ∧
    (∀ e, (RIAutomaton.removeEdge (Rev.reverse (Rev.reverse ⟨i, false⟩)) e).map (·.base) = i.removeEdge e) ∧
    ∀ q, (RIAutomaton.removeVertex (Rev.reverse (Rev.reverse ⟨i, false⟩)) q).map (·.base) = i.removeVertex q := by
  refine ⟨fun u n => rfl, fun e => ?_, fun e => ?_, fun q => ?_⟩
  · unfold RUGraph.removeEdge UGraph.removeEdge
    simp only [Rev.reverse, Rev.source, Rev.target, Bool.not_false, Bool.not_true, Bool.false_eq_true, if_false]
    cases g.removeEdge e with
    | error err => rfl
    | ok b =>
      show Except.map _ (if e.source ≠ e.target then _ else _) = (if e.source ≠ e.target then _ else _)
      by_cases hne : e.source ≠ e.target
      · rw [if_pos hne, if_pos hne]
        cases h1 : b.adj.getE e.target with
        | error err => rfl
        | ok adjV =>
          show Except.map _ (adjV.getE e.source >>= _) = (adjV.getE e.source >>= _)
          cases adjV.getE e.source with
          | error err => rfl
          | ok s =>
            show Except.map _ (setRemoveE s e.distinguisher >>= _) = (setRemoveE s e.distinguisher >>= _)
            cases setRemoveE s e.distinguisher <;> rfl
      · rw [if_neg hne, if_neg hne]; rfl
  · unfold RIAutomaton.removeEdge
    simp only [Rev.reverse, Rev.source, Rev.target, Bool.not_false, Bool.not_true, Bool.false_eq_true, if_false]
    cases i.removeEdge e <;> rfl
  · unfold RIAutomaton.removeVertex
    simp only [Rev.reverse, Bool.not_false, Bool.not_true, Bool.false_eq_true, if_false]
    cases i.removeVertex q <;> rfl

/-- **C143** (`UndirectedGraph`, loops): after `reverse_graph`, `remove_edge` of an edge from a vertex to itself is what it is before. -/
theorem C143_undirected_loop (g : Graph) {e : EdgeDesc Nat} (he : e.source = e.target) :
    (RUGraph.removeEdge (Rev.reverse ⟨g, false⟩) e).map (·.base) = UGraph.removeEdge g e := by
  unfold RUGraph.removeEdge UGraph.removeEdge
  simp only [Rev.reverse, Rev.source, Rev.target, Bool.not_false, if_true, he, ne_eq, not_true_eq_false, if_false]
  cases g.removeEdge e <;> rfl

end PyBGL
