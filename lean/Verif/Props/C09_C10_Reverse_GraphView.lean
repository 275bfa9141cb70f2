import Verif.Proofs.PathLemmas
import Verif.Props.C08_IncidenceGraph

/-!
# C09: `reverse_graph`; C10: `GraphView`
-/

namespace PyBGL

variable {V E : Type}

/-- **C09** (involution): reversing twice restores every method. -/
theorem C09_involution (g : GraphI V E) : reverseGraph (reverseGraph g) = g := rfl

/-- **C09** (transposition): out-edges are the former in-edges and conversely, the ends of every edge
are exchanged, vertices and edges are unchanged, and a consistent graph stays consistent. -/
theorem C09_transpose (g : GraphI V E) (h : g.Consistent) :
    (∀ u e, e ∈ (reverseGraph g).outEdges u ↔ e ∈ g.edges ∧ g.target e = u) ∧
    (∀ u e, e ∈ (reverseGraph g).inEdges u ↔ e ∈ g.edges ∧ g.source e = u) ∧
    (∀ e, (reverseGraph g).source e = g.target e ∧ (reverseGraph g).target e = g.source e) ∧
    (reverseGraph g).vertices = g.vertices ∧ (reverseGraph g).edges = g.edges ∧
    (reverseGraph g).Consistent := by
  refine ⟨h.inn, h.out, fun e => ⟨rfl, rfl⟩, rfl, rfl, ⟨h.inn, h.out⟩⟩

/-- **C09** (paths): the paths of the reversed graph are the reversed paths of the graph. -/
theorem C09_paths (g : GraphI V E) (h : g.Consistent) (u v : V) (es : List E) :
    IsPath (reverseGraph g) u es v ↔ IsPath g v es.reverse u := by
  induction es generalizing u with
  | nil =>
    constructor
    · intro hp; cases hp; exact .nil _
    · intro hp; cases hp; exact .nil _
  | cons e es ih =>
    rw [List.reverse_cons, isPath_append_iff]
    constructor
    · intro hp
      cases hp with
      | cons he ht =>
        have h1 := (ih _).1 ht
        have he' := (h.inn u e).1 he
        refine ⟨g.source e, h1, ?_⟩
        have : IsPath g (g.source e) [e] (g.target e) :=
          .cons ((h.out _ e).2 ⟨he'.1, rfl⟩) (.nil _)
        rwa [he'.2] at this
    · rintro ⟨w, h1, h2⟩
      cases h2 with
      | cons he ht =>
        cases ht
        have he' := (h.out w e).1 he
        refine .cons ((h.inn _ e).2 ⟨he'.1, rfl⟩) ?_
        show IsPath (reverseGraph g) (g.source e) es v
        rw [he'.2]
        exact (ih w).2 h1

/-- Every reachable `IncidenceGraph` satisfies the hypothesis of the two theorems above. -/
theorem C09_applies {g : IGraph} {l : GLog} (h : History IGraph.exec .empty g l) : g.toI.Consistent := by
  obtain ⟨h1, h2, -⟩ := C08_in_edges h
  exact ⟨fun u => (h2 u).2, fun u => (h1 u).2⟩

example : ∃ g l, History IGraph.exec .empty g l ∧ (reverseGraph g.toI).outEdges 1 ≠ [] := by
  refine ⟨_, _, runCalls_history exampleCalls .start rfl, ?_⟩; decide

/-! ## GraphView -/

/-- **C10** (induced relevant subgraph): a view shows exactly the relevant vertices, exactly the
relevant edges between relevant vertices, consistently in all listings. -/
theorem C10_view (gv : GraphView V E) (h : gv.g.Consistent) :
    (∀ u, u ∈ gv.vertices ↔ u ∈ gv.g.vertices ∧ gv.vrelevant u = true) ∧
    (∀ e, e ∈ gv.edges ↔ e ∈ gv.g.edges ∧ gv.erelevant e = true ∧
      gv.vrelevant (gv.g.source e) = true ∧ gv.vrelevant (gv.g.target e) = true) ∧
    (∀ u e, e ∈ gv.outEdges u ↔ e ∈ gv.edges ∧ gv.g.source e = u) ∧
    (∀ u e, e ∈ gv.inEdges u ↔ e ∈ gv.edges ∧ gv.g.target e = u) ∧
    gv.numEdges = gv.edges.length ∧ gv.numVertices = gv.vertices.length ∧
    (∀ u, gv.outDegree u = (gv.outEdges u).length ∧ gv.inDegree u = (gv.inEdges u).length) := by
  refine ⟨?_, ?_, ?_, ?_, rfl, rfl, fun u => ⟨rfl, rfl⟩⟩
  · intro u; simp [GraphView.vertices]
  · intro e; simp [GraphView.edges, GraphView.shows, and_assoc]
  · intro u e
    simp only [GraphView.outEdges, GraphView.edges, List.mem_filter, h.out]
    tauto
  · intro u e
    simp only [GraphView.inEdges, GraphView.edges, List.mem_filter, h.inn]
    tauto

/-- **C10** (counting): a view lists nothing twice when the graph does not, so that counts and degrees
count distinct items. -/
theorem C10_view_nodup (gv : GraphView V E) :
    (gv.g.vertices.Nodup → gv.vertices.Nodup) ∧ (gv.g.edges.Nodup → gv.edges.Nodup) ∧
    (∀ u, (gv.g.outEdges u).Nodup → (gv.outEdges u).Nodup) ∧
    (∀ u, (gv.g.inEdges u).Nodup → (gv.inEdges u).Nodup) :=
  ⟨fun h => h.filter _, fun h => h.filter _, fun _ h => h.filter _, fun _ h => h.filter _⟩

/-- **C10** (`|` and `&`): the relevance predicates are combined pointwise. -/
theorem C10_or_and (a b : GraphView V E) :
    (∀ v, (a.or b).vrelevant v = true ↔ a.vrelevant v = true ∨ b.vrelevant v = true) ∧
    (∀ e, (a.or b).erelevant e = true ↔ a.erelevant e = true ∨ b.erelevant e = true) ∧
    (∀ v, (a.and b).vrelevant v = true ↔ a.vrelevant v = true ∧ b.vrelevant v = true) ∧
    (∀ e, (a.and b).erelevant e = true ↔ a.erelevant e = true ∧ b.erelevant e = true) := by
  simp [GraphView.or, GraphView.and]

/-- **C10** (`&` is the intersection of what is shown). -/
theorem C10_and_shown (a b : GraphView V E) (hg : a.g = b.g) :
    (∀ u, u ∈ (a.and b).vertices ↔ u ∈ a.vertices ∧ u ∈ b.vertices) ∧
    (∀ e, e ∈ (a.and b).edges ↔ e ∈ a.edges ∧ e ∈ b.edges) := by
  constructor
  · intro u
    simp only [GraphView.and, GraphView.vertices, List.mem_filter, ← hg, Bool.and_eq_true]; tauto
  · intro e
    simp only [GraphView.and, GraphView.edges, GraphView.shows, List.mem_filter, ← hg, Bool.and_eq_true]
    tauto

/-- A graph with one edge `0 -> 1`, for the counterexample. -/
def oneEdge : GraphI Nat (EdgeDesc Nat) := (Graph.mk 2 [(0, [(1, [0])]), (1, [])]).toI

/-- **C10, counterexample**: because `and` binds tighter than `or` in `__sub__` (graph_view.py:117-121),
`gv1 - gv2` can show an edge that `gv1` does not show. -/
theorem C10_sub_counterexample :
    ∃ a b : GraphView Nat (EdgeDesc Nat), a.g = b.g ∧ ∃ e, e ∈ (a.sub b).edges ∧ e ∉ a.edges := by
  refine ⟨⟨oneEdge, fun _ => true, fun _ => false⟩, ⟨oneEdge, fun _ => false, fun _ => false⟩, rfl,
    ⟨0, 1, 0⟩, ?_, ?_⟩ <;> decide

/-- **C10** (difference, partial): vertices are subtracted exactly; an edge shown by `gv1 - gv2` that is
relevant in `gv1` is shown by `gv1`, touches no vertex of `gv2`, and every edge relevant in `gv1` between
vertices shown by `gv1` but not relevant in `gv2` is shown. Missing: edges irrelevant in `gv1` may be
shown (see the counterexample). -/
theorem C10_sub_partial (a b : GraphView V E) :
    (∀ u, u ∈ (a.sub b).vertices ↔ u ∈ a.vertices ∧ b.vrelevant u = false) ∧
    (∀ e, a.erelevant e = true → (e ∈ (a.sub b).edges ↔ e ∈ a.edges ∧
      b.vrelevant (a.g.source e) = false ∧ b.vrelevant (a.g.target e) = false)) := by
  constructor
  · intro u
    simp only [GraphView.sub, GraphView.vertices, List.mem_filter, Bool.and_eq_true, Bool.not_eq_true']
    tauto
  · intro e he
    simp only [GraphView.sub, GraphView.edges, GraphView.shows, List.mem_filter, Bool.and_eq_true,
      Bool.not_eq_true', Bool.or_eq_true, he]
    tauto

/-- **C10** (difference, partial: what holds instead of the property): `gv1 - gv2` shows exactly the edges of the graph between vertices relevant in `gv1` and not in `gv2`; neither relevance map of edges
plays any role. -/
theorem C10_sub_exact_partial (a b : GraphView V E) (e : E) :
    e ∈ (a.sub b).edges ↔ e ∈ a.g.edges ∧ (a.vrelevant (a.g.source e) = true ∧ b.vrelevant (a.g.source e) = false) ∧
      (a.vrelevant (a.g.target e) = true ∧ b.vrelevant (a.g.target e) = false) := by
  simp only [GraphView.sub, GraphView.edges, GraphView.shows, List.mem_filter, Bool.and_eq_true, Bool.not_eq_true', Bool.or_eq_true]
  tauto

/-- Non-vacuity: a view hiding vertex 3 of a reachable graph still shows edges. -/
example : ∃ g l, History IGraph.exec .empty g l ∧
    (GraphView.mk g.toI (fun v => v != 0) (fun _ => true)).edges = [⟨1, 1, 0⟩] := by
  refine ⟨_, _, runCalls_history exampleCalls .start rfl, ?_⟩; decide

end PyBGL
