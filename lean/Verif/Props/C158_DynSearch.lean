import Verif.Proofs.DynSearch
import Verif.Props.C146_CopyInto

/-!
# C158: searches whose visitor modifies the graph

`IsCopy` is in Spec/CopyInto.lean.
-/

namespace PyBGL
variable {V E σ : Type} [DecidableEq V]

/-- **C158** (`depth_first_search`). Let `P` be a property of the state in which the visitor and the graph are, that every call to the visitor keeps, and `R` a set of
vertices that contains `s` and is closed in the initial graph `g0`. If in every state that satisfies `P` the vertices of `R` have the out-edges they have in `g0`, then
the search does the same thing as on `g0`: the same calls in the same order, the same colors, the same result. Nothing is asked of the other vertices and edges. -/
theorem C158_dfs (graph : σ → GraphI V E) (g0 : GraphI V E) (vis : Visitor (DfsEvent V E) σ) (push : E → Bool) (R : V → Prop) (P : σ → Prop)
    (hkeep : ∀ call st st', P st → vis call st = .ok st' → P st') (hclosed : ∀ u, R u → ∀ e ∈ g0.outEdges u, R (g0.target e))
    (hout : ∀ st, P st → ∀ u, R u → (graph st).outEdges u = g0.outEdges u) (htarget : ∀ st, P st → ∀ e, (graph st).target e = g0.target e)
    (s : V) (hs : R s) (colors : Dict V Color) (st : σ) (hst : P st) (fuel : Nat) :
    dfsD graph push vis s colors st fuel = dfs g0 push vis s colors st fuel :=
  Dyn.dfsD_eq ⟨htarget, hout, hclosed, hkeep⟩ hs colors hst fuel

/-- **C158** (`breadth_first_search_graph`): the same, from several sources. -/
theorem C158_bfs_graph (graph : σ → GraphI V E) (g0 : GraphI V E) (vis : Visitor (BfsEvent V E) σ) (push : E → Bool) (R : V → Prop) (P : σ → Prop)
    (hkeep : ∀ call st st', P st → vis call st = .ok st' → P st') (hclosed : ∀ u, R u → ∀ e ∈ g0.outEdges u, R (g0.target e))
    (hout : ∀ st, P st → ∀ u, R u → (graph st).outEdges u = g0.outEdges u) (htarget : ∀ st, P st → ∀ e, (graph st).target e = g0.target e)
    (sources : List V) (hs : ∀ u ∈ sources, R u) (colors : Dict V Color) (st : σ) (hst : P st) (fuel : Nat) :
    bfsGraphD graph sources push vis colors st fuel = bfsGraph g0 sources push vis colors st fuel :=
  Dyn.bfsGraphD_eq ⟨htarget, hout, hclosed, hkeep⟩ hs colors hst fuel

/-- **C158** (`breadth_first_search`): the same if the visitor does not change the list of the vertices, which is read too. -/
theorem C158_bfs (graph : σ → GraphI V E) (g0 : GraphI V E) (vis : Visitor (BfsEvent V E) σ) (push : E → Bool) (R : V → Prop) (P : σ → Prop)
    (hkeep : ∀ call st st', P st → vis call st = .ok st' → P st') (hclosed : ∀ u, R u → ∀ e ∈ g0.outEdges u, R (g0.target e))
    (hout : ∀ st, P st → ∀ u, R u → (graph st).outEdges u = g0.outEdges u) (htarget : ∀ st, P st → ∀ e, (graph st).target e = g0.target e)
    (hvertices : ∀ st, P st → (graph st).vertices = g0.vertices)
    (s : V) (hs : R s) (colors : Dict V Color) (st : σ) (hst : P st) (fuel : Nat) :
    bfsD graph s push vis colors st fuel = bfs g0 s push (some vis) colors st fuel :=
  Dyn.bfsD_eq ⟨htarget, hout, hclosed, hkeep⟩ hvertices hs colors hst fuel

/-! ## A graph copied into itself -/

theorem reach_vertices {E : Type} {g : GraphI Nat E} {vs : List Nat} (hclosed : ∀ u ∈ vs, ∀ e ∈ g.outEdges u, g.target e ∈ vs) {p : E → Bool} {s v : Nat} (hs : s ∈ vs)
    (hr : Reach (g.through p) s v) : v ∈ vs :=
  Reach.closed (g := g.through p) (P := fun x => x ∈ vs) (fun x hx e he => hclosed x hx e (List.mem_filter.mp he).1) hr hs

/-- **C158** (`graph_copy(s, g, g)`, `DirectedGraph`). Whatever the graph, if its edges lead to vertices of the graph, a copy of the part reached from `s` is added to `g` itself;
the vertices and edges of `g` remain, the copy is made of new ones, and what is copied is what was there before the call. The callbacks receive one call per vertex and edge. -/
theorem C158_copy_directed {g : Graph} {l : GLog} (hg : History Graph.exec .empty g l) (hclosed : ∀ e ∈ g.edges, e.target ∈ g.vertices) {s : Nat} (hs : s ∈ g.vertices)
    (vrel : Option (Nat → Bool)) (erel : Option (EdgeDesc Nat → Bool)) {vm0 : Dict Nat Nat} (hvm : ∀ u x, vm0.get? u = some x → x ∉ g.vertices)
    (em0 : Dict (EdgeDesc Nat) (EdgeDesc Nat)) :
    ∃ d vm em calls, (∀ (σ : Type) (cb : Visitor (CopyCall Nat (EdgeDesc Nat) Graph (EdgeDesc Nat)) σ) (st : σ),
        Returns (copySelf (.directed (EdgeDesc Nat)) Graph.toI cb s g vrel erel vm0 em0 st) ((emit cb calls st).map fun st' => (d, vm, em, st'))) ∧
      d.vertices.Nodup ∧ d.edges.Nodup ∧
      IsCopy Graph.vertices Graph.edges (fun x y _ f => f.source = x ∧ f.target = y) g.toI (relevant g.toI vrel erel) s g vm0 em0 d vm em calls := by
  have hi := Graph.history_inv hg
  have hc : ∀ u ∈ g.vertices, ∀ e ∈ g.toI.outEdges u, g.toI.target e ∈ g.vertices := by
    intro u _ e he
    refine hclosed e ?_
    rw [Graph.mem_edges hi.wf]
    exact ((Graph.mem_outEdges hi.wf _ _).mp he).2
  obtain ⟨d, vm, em, calls, h1, h2⟩ := C146_directed (g := g.toI) (Graph.sourcesOK hi.wf) (Graph.nodup_outEdges hi.wf) s vrel erel
    (fun v hr => reach_vertices hc hs hr) hg vm0 em0
  refine ⟨d, vm, em, calls, fun σ cb st => ?_, h2⟩
  obtain ⟨N, hN⟩ := h1 σ cb st
  exact ⟨N, fun n hn => by rw [Dyn.copySelf_eq (Dyn.apart_directed _) hi.bound hc hs vrel erel hvm]; exact hN n hn⟩

/-- **C158** (`graph_copy(s, g, g)`, `UndirectedGraph`): the same, the ends of a copy being sorted. An edge of `g` is copied twice if it can be crossed in both directions. -/
theorem C158_copy_undirected {g : Graph} {l : GLog} (hg : History UGraph.exec .empty g l) {s : Nat} (hs : s ∈ g.vertices)
    (vrel : Option (Nat → Bool)) (erel : Option (EdgeDesc Nat → Bool)) {vm0 : Dict Nat Nat} (hvm : ∀ u x, vm0.get? u = some x → x ∉ g.vertices)
    (em0 : Dict (EdgeDesc Nat) (EdgeDesc Nat)) :
    ∃ d vm em calls, (∀ (σ : Type) (cb : Visitor (CopyCall Nat (EdgeDesc Nat) Graph (EdgeDesc Nat)) σ) (st : σ),
        Returns (copySelf (.undirected (EdgeDesc Nat)) UGraph.toI cb s g vrel erel vm0 em0 st) ((emit cb calls st).map fun st' => (d, vm, em, st'))) ∧
      d.vertices.Nodup ∧ (∀ u v n, ⟨u, v, n⟩ ∈ UGraph.outEdges d u ↔ ⟨v, u, n⟩ ∈ UGraph.outEdges d v) ∧
      IsCopy Graph.vertices UGraph.edges (fun x y _ f => f.source = min x y ∧ f.target = max x y) (UGraph.toI g) (relevant (UGraph.toI g) vrel erel) s g vm0 em0 d vm em
        calls := by
  have hi := UGraph.history_inv hg
  have hc : ∀ u ∈ g.vertices, ∀ e ∈ (UGraph.toI g).outEdges u, (UGraph.toI g).target e ∈ g.vertices := by
    intro u _ e he
    obtain ⟨h1, h2⟩ := (Graph.mem_outEdges hi.wf _ _).mp he
    have h3 := (hi.sym _ _ _).mp h2
    by_contra h
    have h' : e.target ∉ Dict.keys g.adj := h
    rw [lk_of_none ((Dict.get?_eq_none_iff _ _).2 h')] at h3
    simp at h3
  obtain ⟨d, vm, em, calls, h1, h2⟩ := C146_undirected (g := UGraph.toI g) (Graph.sourcesOK hi.wf) (Graph.nodup_outEdges hi.wf) s vrel erel
    (fun v hr => reach_vertices hc hs hr) hg vm0 em0
  refine ⟨d, vm, em, calls, fun σ cb st => ?_, h2⟩
  obtain ⟨N, hN⟩ := h1 σ cb st
  exact ⟨N, fun n hn => by rw [Dyn.copySelf_eq (Dyn.apart_undirected _) hi.bound hc hs vrel erel hvm]; exact hN n hn⟩

/-- **C158** (`graph_copy(s, g, g)`, `IncidenceGraph`): the same, and the in-edges of the result mirror its edges. -/
theorem C158_copy_incidence {g : IGraph} {l : GLog} (hg : History IGraph.exec .empty g l) {s : Nat} (hs : s ∈ g.vertices)
    (vrel : Option (Nat → Bool)) (erel : Option (EdgeDesc Nat → Bool)) {vm0 : Dict Nat Nat} (hvm : ∀ u x, vm0.get? u = some x → x ∉ g.vertices)
    (em0 : Dict (EdgeDesc Nat) (EdgeDesc Nat)) :
    ∃ d vm em calls, (∀ (σ : Type) (cb : Visitor (CopyCall Nat (EdgeDesc Nat) IGraph (EdgeDesc Nat)) σ) (st : σ),
        Returns (copySelf (.incidence (EdgeDesc Nat)) IGraph.toI cb s g vrel erel vm0 em0 st) ((emit cb calls st).map fun st' => (d, vm, em, st'))) ∧
      d.vertices.Nodup ∧ d.edges.Nodup ∧ (∀ v f, f ∈ d.inEdges v ↔ f ∈ d.edges ∧ f.target = v) ∧
      IsCopy IGraph.vertices IGraph.edges (fun x y _ f => f.source = x ∧ f.target = y) g.toI (relevant g.toI vrel erel) s g vm0 em0 d vm em calls := by
  have hi := IGraph.history_inv hg
  have hc : ∀ u ∈ g.vertices, ∀ e ∈ g.toI.outEdges u, g.toI.target e ∈ g.vertices := by
    intro u _ e he
    obtain ⟨h1, h2⟩ := (Graph.mem_outEdges hi.wf.out _ _).mp he
    have h3 := (hi.wf.mirror _ _ _).mpr h2
    by_contra h
    have h' : e.target ∉ Dict.keys g.inAdj := fun k => h ((hi.wf.keys _).1 k)
    rw [lk_of_none ((Dict.get?_eq_none_iff _ _).2 h')] at h3
    simp at h3
  obtain ⟨d, vm, em, calls, h1, h2⟩ := C146_incidence (g := g.toI) (Graph.sourcesOK hi.wf.out) (Graph.nodup_outEdges hi.wf.out) s vrel erel
    (fun v hr => reach_vertices hc hs hr) hg vm0 em0
  refine ⟨d, vm, em, calls, fun σ cb st => ?_, h2⟩
  obtain ⟨N, hN⟩ := h1 σ cb st
  exact ⟨N, fun n hn => by rw [Dyn.copySelf_eq (Dyn.apart_incidence _) hi.bound hc hs vrel erel hvm]; exact hN n hn⟩

/-- **C158** (`automaton_copy(s, g, g)`): the same for automata; the initial state and the final states do not change. -/
theorem C158_copy_automaton {A : Type} [DecidableEq A] {g : Automaton A} (hg : g.Reachable) (hclosed : ∀ e ∈ g.edges, e.target ∈ g.vertices) {s : Nat} (hs : s ∈ g.vertices)
    (vrel : Option (Nat → Bool)) (erel : Option (EdgeDesc A → Bool)) {vm0 : Dict Nat Nat} (hvm : ∀ u x, vm0.get? u = some x → x ∉ g.vertices)
    (em0 : Dict (EdgeDesc A) (Option (EdgeDesc A))) :
    ∃ d vm em calls, (∀ (σ : Type) (cb : Visitor (CopyCall Nat (EdgeDesc A) (Automaton A) (Option (EdgeDesc A))) σ) (st : σ),
        Returns (copySelf (.automaton A) Automaton.toI cb s g vrel erel vm0 em0 st) ((emit cb calls st).map fun st' => (d, vm, em, st'))) ∧
      d.vertices.Nodup ∧ d.edges.Nodup ∧ d.initial = g.initial ∧ (∀ q, d.isFinal q = g.isFinal q) ∧
      IsCopy Automaton.vertices (fun d => d.edges.map some) (fun x y e f => f = some ⟨x, y, e.distinguisher⟩) g.toI (relevant g.toI vrel erel) s g vm0
        em0 d vm em calls := by
  have hw := hg.awf
  have hc : ∀ u ∈ g.vertices, ∀ e ∈ g.toI.outEdges u, g.toI.target e ∈ g.vertices := by
    intro u _ e he
    exact hclosed e ((Automaton.mem_edges hw).mpr ((Automaton.mem_outEdges hw).mp he).2)
  obtain ⟨d, vm, em, calls, h1, h2⟩ := C146_automaton hg s vrel erel hg vm0 em0
  refine ⟨d, vm, em, calls, fun σ cb st => ?_, h2⟩
  obtain ⟨N, hN⟩ := h1 σ cb st
  exact ⟨N, fun n hn => by rw [Dyn.copySelf_eq (Dyn.apart_automaton _) hw.lt hc hs vrel erel hvm]; exact hN n hn⟩

/-! ## Visitors that remove edges -/

/-- A visitor that removes the back edges of the graph that is searched. -/
def cutBack : Visitor (DfsEvent Nat (EdgeDesc Nat)) Graph
  | .backEdge e, g => g.removeEdge e
  | _, g => .ok g

/-- A visitor that removes the edges that are not in the tree. -/
def cutNonTree : Visitor (BfsEvent Nat (EdgeDesc Nat)) Graph
  | .nonTreeEdge e, g => g.removeEdge e
  | _, g => .ok g

/-- **C158** (what is asked of the visitor is needed). A visitor that removes the edge it is called for makes `depth_first_search` raise an `IndexError`,
since the search remembers positions in a list of out-edges that is then shorter: 0 has the edges 0→0, 0→1, 0→2. -/
theorem C158_dfs_removal_raises :
    Returns (dfsD Graph.toI (fun _ => true) cutBack 0 [] ⟨3, [(0, [(0, [0]), (1, [0]), (2, [0])]), (1, []), (2, [])]⟩) (.error .indexError) := by
  refine ⟨8, fun n hn => ?_⟩
  obtain ⟨k, rfl⟩ : ∃ k, n = k + 8 := ⟨n - 8, by omega⟩
  rfl

/-- **C158** (the same for `breadth_first_search`, which raises a `RuntimeError`: the dictionary it iterates on changed). -/
theorem C158_bfs_removal_raises :
    Returns (bfsD Graph.toI 0 (fun _ => true) cutNonTree [] ⟨3, [(0, [(0, [0]), (1, [0]), (2, [0])]), (1, []), (2, [])]⟩) (.error .runtimeError) := by
  refine ⟨8, fun n hn => ?_⟩
  obtain ⟨k, rfl⟩ : ∃ k, n = k + 8 := ⟨n - 8, by omega⟩
  rfl

/-- Non-vacuity: a visitor that adds, for each tree edge `u → v`, an edge `v → u` in a part of the graph that the search does not reach (the vertices from 10 on). -/
def mirrorTree : Visitor (DfsEvent Nat (EdgeDesc Nat)) Graph
  | .treeEdge e, g => (g.addEdge (10 + e.target) (10 + e.source)).map (·.2)
  | _, g => .ok g

example : ∃ (R : Nat → Prop) (P : Graph → Prop), let g0 : Graph := ⟨13, [(0, [(1, [0])]), (1, [(2, [0])]), (2, [(0, [0])]), (10, []), (11, []), (12, [])]⟩
    (∀ call st st', P st → mirrorTree call st = .ok st' → P st') ∧ (∀ u, R u → ∀ e ∈ g0.toI.outEdges u, R (g0.toI.target e)) ∧
      (∀ st, P st → ∀ u, R u → st.toI.outEdges u = g0.toI.outEdges u) ∧ (∀ st, P st → ∀ e, st.toI.target e = g0.toI.target e) ∧ R 0 ∧ P g0 ∧
      ((dfsD Graph.toI (fun _ => true) mirrorTree 0 [] g0 40).map fun r => r.toOption.map fun x => x.2.adj) =
        some (some [(0, [(1, [0])]), (1, [(2, [0])]), (2, [(0, [0])]), (10, []), (11, [(10, [0])]), (12, [(11, [0])])]) := by
  let g0 : Graph := ⟨13, [(0, [(1, [0])]), (1, [(2, [0])]), (2, [(0, [0])]), (10, []), (11, []), (12, [])]⟩
  refine ⟨(· < 3), fun st => ∀ u, u < 3 → st.adj.get? u = g0.adj.get? u, ?_, ?_, ?_, fun _ _ _ => rfl, by decide, fun _ _ => rfl, rfl⟩
  · intro call st st' h hv u hu
    cases call with
    | treeEdge e =>
      simp only [mirrorTree] at hv
      cases ha : st.addEdge (10 + e.target) (10 + e.source) with
      | error err => rw [ha] at hv; simp [Except.map] at hv
      | ok r =>
        rw [ha] at hv
        simp only [Except.map, Except.ok.injEq] at hv
        subst hv
        rw [(Dyn.addEdge_get (f := r.1) ha).2 u (by omega)]
        exact h u hu
    | _ => cases hv; exact h u hu
  · intro u hu
    have : u = 0 ∨ u = 1 ∨ u = 2 := by omega
    rcases this with rfl | rfl | rfl <;> decide
  · intro st h u hu
    exact Dyn.outEdges_of_get (h u hu)

/-- Non-vacuity: a triangle and a loop, copied into itself from 1. -/
example : (copySelf (.directed (EdgeDesc Nat)) Graph.toI recorder 1 ⟨4, [(0, [(1, [0])]), (1, [(2, [0]), (1, [0])]), (2, [(0, [0])]), (3, [(0, [0])])]⟩ none none [] [] [] 40).map
      (·.map fun r => (r.1.adj, r.2.1, vertexCalls r.2.2.2)) =
    some (.ok ([(0, [(1, [0])]), (1, [(2, [0]), (1, [0])]), (2, [(0, [0])]), (3, [(0, [0])]), (4, [(5, [0]), (4, [0])]), (5, [(6, [0])]), (6, [(4, [0])])],
      [(1, 4), (2, 5), (0, 6)], [(1, 4), (2, 5), (0, 6)])) := by
  rfl

example : ∃ l, History Graph.exec .empty ⟨4, [(0, [(1, [0])]), (1, [(2, [0]), (1, [0])]), (2, [(0, [0])]), (3, [(0, [0])])]⟩ l := by
  have h : History Graph.exec .empty (Graph.init 4) _ := .call (.call (.call (.call .start (op := .addVertex) rfl) (op := .addVertex) rfl) (op := .addVertex) rfl) (op := .addVertex) rfl
  exact ⟨_, .call (.call (.call (.call (.call h (op := .addEdge 0 1) rfl) (op := .addEdge 1 2) rfl) (op := .addEdge 1 1) rfl) (op := .addEdge 2 0) rfl)
    (op := .addEdge 3 0) rfl⟩

end PyBGL
