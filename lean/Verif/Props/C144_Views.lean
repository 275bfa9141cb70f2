import Verif.Model.ViewForward
import Verif.Spec.Views
import Verif.Props.C09_C10_Reverse_GraphView

/-!
# C144: views of a graph that changes, nested views, laws of `|`, `&` and `-`, and the methods that a view forwards
-/

namespace PyBGL
variable {V E : Type}

/-- Two views of the same graph that keep the same vertices and edges show the same graph. -/
theorem SameView.of_pointwise {a b : GraphView V E} (hg : a.g = b.g) (hv : ∀ v, a.vrelevant v = b.vrelevant v) (he : ∀ e, a.shows e = b.shows e) : SameView a b := by
  refine ⟨?_, ?_, fun u => ?_, fun u => ?_⟩
  · unfold GraphView.vertices; rw [hg, funext hv]
  · unfold GraphView.edges; rw [hg, funext he]
  · unfold GraphView.outEdges; rw [hg, funext he]
  · unfold GraphView.inEdges; rw [hg, funext he]

/-- **C144** (a view follows its graph, partial because of `C144_forwarded_counterexample`): after any history of calls on an `IncidenceGraph`, a view of it, built before or after, shows exactly the relevant vertices issued
and not removed since, and the relevant edges issued and not removed since between relevant vertices. -/
theorem C144_live_partial {g : IGraph} {l : GLog} (h : History IGraph.exec .empty g l) (p : Nat → Bool) (q : EdgeDesc Nat → Bool) :
    let gv := GraphView.mk g.toI p q
    (∀ u, u ∈ gv.vertices ↔ u ∈ liveVertices l ∧ p u = true) ∧ gv.vertices.Nodup ∧
    (∀ e, e ∈ gv.edges ↔ e ∈ liveEdges l ∧ q e = true ∧ p e.source = true ∧ p e.target = true) ∧ gv.edges.Nodup ∧
    (∀ u e, e ∈ gv.outEdges u ↔ e ∈ gv.edges ∧ e.source = u) ∧ (∀ u e, e ∈ gv.inEdges u ↔ e ∈ gv.edges ∧ e.target = u) ∧
    ∀ u, (gv.outEdges u).Nodup ∧ (gv.inEdges u).Nodup := by
  intro gv
  obtain ⟨h1, h2, h3, h4, h5, h6⟩ := C08_in_edges h
  have hc : g.toI.Consistent := ⟨fun u e => (h2 u).2 e, fun u e => (h1 u).2 e⟩
  obtain ⟨v1, v2, v3, v4, -⟩ := C10_view gv hc
  obtain ⟨n1, n2, n3, n4⟩ := C10_view_nodup gv
  refine ⟨fun u => ?_, n1 h6, fun e => ?_, n2 h4, v3, v4, fun u => ⟨n3 u (h2 u).1, n4 u (h1 u).1⟩⟩
  · rw [v1, ← h5]; rfl
  · rw [v2, ← h3]; rfl

/-- **C144** (nested views): a view of a view shows what the intersection of the two views of the graph shows. -/
theorem C144_nested (gv : GraphView V E) (p : V → Bool) (q : E → Bool) : SameView (gv.nested p q) (gv.and ⟨gv.g, p, q⟩) := by
  have hs : ∀ e, (gv.shows e && (gv.nested p q).shows e) = (gv.and ⟨gv.g, p, q⟩).shows e := fun e => by
    simp only [GraphView.shows, GraphView.nested, GraphView.and, GraphView.toI]
    cases gv.erelevant e <;> cases gv.vrelevant (gv.g.source e) <;> cases gv.vrelevant (gv.g.target e) <;> simp
  refine ⟨?_, ?_, fun u => ?_, fun u => ?_⟩
  · simp only [GraphView.vertices, GraphView.nested, GraphView.and, GraphView.toI, List.filter_filter]
    exact List.filter_congr fun v _ => Bool.and_comm _ _
  · simp only [GraphView.edges, ← funext hs]
    simp only [GraphView.nested, GraphView.toI, GraphView.edges, List.filter_filter]
    exact List.filter_congr fun v _ => Bool.and_comm _ _
  · simp only [GraphView.outEdges, ← funext hs]
    simp only [GraphView.nested, GraphView.toI, GraphView.outEdges, List.filter_filter]
    exact List.filter_congr fun v _ => Bool.and_comm _ _
  · simp only [GraphView.inEdges, ← funext hs]
    simp only [GraphView.nested, GraphView.toI, GraphView.inEdges, List.filter_filter]
    exact List.filter_congr fun v _ => Bool.and_comm _ _

/-- **C144** (laws): on views of the same graph, `|` and `&` are commutative, associative and idempotent, and distribute over each other. -/
theorem C144_laws (a b c : GraphView V E) (hb : a.g = b.g) :
    SameView (a.and b) (b.and a) ∧ SameView (a.or b) (b.or a) ∧
    SameView ((a.and b).and c) (a.and (b.and c)) ∧ SameView ((a.or b).or c) (a.or (b.or c)) ∧
    SameView (a.and a) a ∧ SameView (a.or a) a ∧
    SameView (a.and (b.or c)) ((a.and b).or (a.and c)) ∧ SameView (a.or (b.and c)) ((a.or b).and (a.or c)) := by
  refine ⟨.of_pointwise hb ?_ ?_, .of_pointwise hb ?_ ?_, .of_pointwise rfl ?_ ?_, .of_pointwise rfl ?_ ?_, .of_pointwise rfl ?_ ?_, .of_pointwise rfl ?_ ?_,
    .of_pointwise rfl ?_ ?_, .of_pointwise rfl ?_ ?_⟩ <;> intro x <;>
    rw [Bool.eq_iff_iff] <;> simp only [GraphView.and, GraphView.or, GraphView.shows, ← hb, Bool.and_eq_true, Bool.or_eq_true] <;> tauto

/-- **C144** (union): `a | b` shows the vertices of `a` and those of `b`, and every edge of either; it also shows an edge between a vertex of one and a vertex of the
other as soon as one of the two maps of edges keeps it. -/
theorem C144_or_exact (a b : GraphView V E) (hg : a.g = b.g) :
    (∀ u, u ∈ (a.or b).vertices ↔ u ∈ a.vertices ∨ u ∈ b.vertices) ∧ (∀ e, e ∈ a.edges ∨ e ∈ b.edges → e ∈ (a.or b).edges) ∧
    ∀ e, e ∈ (a.or b).edges ↔ e ∈ a.g.edges ∧ (a.erelevant e = true ∨ b.erelevant e = true) ∧
      (a.vrelevant (a.g.source e) = true ∨ b.vrelevant (a.g.source e) = true) ∧ (a.vrelevant (a.g.target e) = true ∨ b.vrelevant (a.g.target e) = true) := by
  refine ⟨fun u => ?_, fun e => ?_, fun e => ?_⟩
  · simp only [GraphView.or, GraphView.vertices, List.mem_filter, ← hg, Bool.or_eq_true]; tauto
  · simp only [GraphView.or, GraphView.edges, GraphView.shows, List.mem_filter, ← hg, Bool.and_eq_true, Bool.or_eq_true]; tauto
  · simp only [GraphView.or, GraphView.edges, GraphView.shows, List.mem_filter, Bool.and_eq_true, Bool.or_eq_true]; tauto

/-- **C144** (difference): `a - a` shows nothing; `a - b` and `b` share no vertex; and `(a - b) | c` shows exactly the edges between vertices of `a - b` or of `c` that
the map of `c` keeps, or that the map of `a` keeps and the one of `b` does not, or neither end of which is relevant for `b`. -/
theorem C144_sub_exact (a b c : GraphView V E) :
    (a.sub a).vertices = [] ∧ (a.sub a).edges = [] ∧ (∀ u ∈ (a.sub b).vertices, u ∉ b.vertices) ∧
    ∀ e, e ∈ ((a.sub b).or c).edges ↔ e ∈ a.g.edges ∧
      ((a.vrelevant (a.g.source e) = true ∧ b.vrelevant (a.g.source e) = false) ∨ c.vrelevant (a.g.source e) = true) ∧
      ((a.vrelevant (a.g.target e) = true ∧ b.vrelevant (a.g.target e) = false) ∨ c.vrelevant (a.g.target e) = true) ∧
      (c.erelevant e = true ∨ (a.erelevant e = true ∧ b.erelevant e = false) ∨
        (b.vrelevant (a.g.source e) = false ∧ b.vrelevant (a.g.target e) = false)) := by
  refine ⟨?_, ?_, fun u hu => ?_, fun e => ?_⟩
  · simp [GraphView.sub, GraphView.vertices]
  · simp [GraphView.sub, GraphView.edges, GraphView.shows]
  · simp only [GraphView.sub, GraphView.vertices, List.mem_filter, Bool.and_eq_true, Bool.not_eq_true'] at hu ⊢
    rw [hu.2.2]; simp
  · simp only [GraphView.sub, GraphView.or, GraphView.edges, GraphView.shows, List.mem_filter, Bool.and_eq_true, Bool.or_eq_true, Bool.not_eq_true']
    tauto

/-- **C144** (methods forwarded, exact): `has_vertex()`, `has_edge()` and `edge(u, v)` answer about the graph viewed, whatever the view shows. -/
theorem C144_forwarded_exact [DecidableEq V] [DecidableEq E] (gv : GraphView V E) (h : gv.g.Consistent) :
    (gv.hasVertex = true ↔ ∃ u, u ∈ gv.g.vertices) ∧ (gv.hasEdge = true ↔ ∃ e, e ∈ gv.g.edges) ∧
    ∀ u v e, gv.edge u v = (some e, true) ↔
      e ∈ gv.g.edges ∧ gv.g.source e = u ∧ gv.g.target e = v ∧ ∀ e' ∈ gv.g.edges, gv.g.source e' = u → gv.g.target e' = v → e' = e := by
  refine ⟨?_, ?_, fun u v e => ?_⟩
  · unfold GraphView.hasVertex
    cases gv.g.vertices with
    | nil => simp
    | cons x r => simp
  · unfold GraphView.hasEdge
    cases gv.g.edges with
    | nil => simp
    | cons x r => simp
  · have hset : ∀ e, e ∈ mkSet ((gv.g.outEdges u).filter fun e => gv.g.target e = v) ↔
        e ∈ gv.g.edges ∧ gv.g.source e = u ∧ gv.g.target e = v := by
      intro e
      rw [mem_mkSet, List.mem_filter, h.out]
      simp [and_assoc]
    have hnd := nodup_mkSet ((gv.g.outEdges u).filter fun e => gv.g.target e = v)
    unfold GraphView.edge
    generalize mkSet ((gv.g.outEdges u).filter fun e => gv.g.target e = v) = cands at hset hnd
    match cands, hset, hnd with
    | [], hset, _ =>
      simp only [Prod.mk.injEq, reduceCtorEq, false_and, false_iff]
      rintro ⟨h1, h2, h3, -⟩
      have := (hset e).2 ⟨h1, h2, h3⟩
      simp at this
    | [x], hset, _ =>
      simp only [Prod.mk.injEq, Option.some.injEq, and_true]
      constructor
      · rintro rfl
        obtain ⟨h1, h2, h3⟩ := (hset x).1 (by simp)
        exact ⟨h1, h2, h3, fun e' a b c => by simpa using (hset e').2 ⟨a, b, c⟩⟩
      · rintro ⟨h1, h2, h3, h4⟩
        obtain ⟨k1, k2, k3⟩ := (hset x).1 (by simp)
        exact h4 x k1 k2 k3
    | x :: y :: r, hset, hnd =>
      simp only [Prod.mk.injEq, reduceCtorEq, false_and, false_iff]
      rintro ⟨h1, h2, h3, h4⟩
      obtain ⟨k1, k2, k3⟩ := (hset x).1 (by simp)
      obtain ⟨m1, m2, m3⟩ := (hset y).1 (by simp)
      have := (h4 x k1 k2 k3).trans (h4 y m1 m2 m3).symm
      rw [this] at hnd
      simp at hnd

/-- "`has_vertex()`, `has_edge()` and `edge(u, v)` answer about the vertices and edges that the view shows." -/
def C144_forwarded_statement : Prop :=
  ∀ gv : GraphView Nat (EdgeDesc Nat), gv.g.Consistent →
    (gv.hasVertex = true → ∃ u, u ∈ gv.vertices) ∧ (gv.hasEdge = true → ∃ e, e ∈ gv.edges) ∧
    (∀ u v e, gv.edge u v = (some e, true) → e ∈ gv.edges) ∧
    ∀ u v e, (∀ e', e' ∈ gv.outEdges u ∧ gv.g.target e' = v ↔ e' = e) → gv.edge u v = (some e, true)

/-- Vertices 0 and 1, two edges from 0 to 1. -/
def twoParallel : IGraph := ⟨⟨2, [(0, [(1, [0, 1])]), (1, [])]⟩, [(0, []), (1, [(0, [0, 1])])]⟩

theorem twoParallel_history : History IGraph.exec .empty twoParallel
    [(.addEdge 0 1, .edge ⟨0, 1, 1⟩), (.addEdge 0 1, .edge ⟨0, 1, 0⟩), (.addVertex, .vertex 1), (.addVertex, .vertex 0)] :=
  .call (.call (.call (.call .start rfl) rfl) rfl) rfl

/-- **C144** (refuted): a view that hides every vertex, and a view that hides one of two parallel edges: `has_vertex()` and `has_edge()` are true although nothing is
shown, and `edge(0, 1)` misses the only edge shown. -/
theorem C144_forwarded_counterexample :
    ¬ C144_forwarded_statement ∧
    (let gv := GraphView.mk twoParallel.toI (fun _ => false) (fun _ => true); gv.vertices = [] ∧ gv.edges = [] ∧ gv.hasVertex = true ∧ gv.hasEdge = true) ∧
    (let gv := GraphView.mk twoParallel.toI (fun _ => true) (fun e => e.distinguisher == 0); gv.edges = [⟨0, 1, 0⟩] ∧ gv.edge 0 1 = (none, false)) := by
  refine ⟨fun h => ?_, by decide, by decide⟩
  obtain ⟨h1, h2, h3, h4, h5, h6⟩ := C08_in_edges twoParallel_history
  obtain ⟨⟨u, hu⟩, -⟩ := h ⟨twoParallel.toI, fun _ => false, fun _ => true⟩ ⟨fun u e => (h2 u).2 e, fun u e => (h1 u).2 e⟩ |>.imp (fun k => k rfl) id
  simp [GraphView.vertices] at hu

/-- The hypotheses are met, and the views differ from the graph. -/
example : (GraphView.mk twoParallel.toI (fun _ => true) (fun e => e.distinguisher == 0)).outEdges 0 = [⟨0, 1, 0⟩] ∧
    ((GraphView.mk twoParallel.toI (fun _ => true) (fun e => e.distinguisher == 0)).nested (fun v => v != 1) (fun _ => true)).vertices = [0] := by decide

end PyBGL
