import Verif.Props.C154_LazyIteration
import Verif.Proofs.LazyView
import Verif.Model.Interface

/-!
# C164: loops over a `GraphView` that change the graph
-/

namespace PyBGL

private theorem plans {X : Type} {keep : X → Bool} {plan : List X → List GOp} (hp : Adds plan ∨ Removes plan) : Adds (planIf keep plan) ∨ Removes (planIf keep plan) :=
  hp.imp (fun h _ op ho => let ⟨ys, h'⟩ := planIf_mem keep plan ho; h ys op h') (fun h _ op ho => let ⟨ys, h'⟩ := planIf_mem keep plan ho; h ys op h')

private theorem arc_refl (adj : Dict Nat (Dict Nat (List Nat))) (u v : Nat) : QuietArc adj adj u v := ⟨rfl, rfl⟩

/-- The loop over the view, from the loop over the graph. -/
private theorem over {S X Out : Type} {exec : GOp → PyM S Out} (keep : X → Bool) {plan : List X → List GOp} {items shown : S → List X} {quiet : X → S → S → Prop}
    {s : S} {m m' : PyM (Walk S X) Unit} (h : Delivers exec (planIf keep plan) items quiet s (m' ⟨s, []⟩)) (hs : ∀ s, shown s = (items s).filter keep)
    (hq : ∀ x s, quiet x s s) (hl : Lock (fun (w w' : Walk S X) => w.obj = w'.obj ∧ w.seen = w'.seen.filter keep) m m') :
    Delivers exec plan shown quiet s (m ⟨s, []⟩) := by
  have k := hl ⟨s, []⟩ ⟨s, []⟩ ⟨rfl, rfl⟩
  rw [show shown = fun s => (items s).filter keep from funext hs]
  exact Delivers.view exec keep plan hq h k.1 k.2.1 k.2.2

variable {vrel : Nat → Bool} {erel : EdgeDesc Nat → Bool}

/-- **C164** (`edges()` of a view of a directed graph): what C154 says, for the relevant edges; the loop ends normally exactly if no turn, for a relevant edge from `u` to `v`, changes
the vertices, the successors of `u` or the edges from `u` to `v`. -/
theorem C164_edges {g : Graph} {l : CLog} (h : Caught Graph.execM .empty g l) {plan : List (EdgeDesc Nat) → List GOp} (hp : Adds plan ∨ Removes plan) :
    Delivers Graph.execM plan (fun g => (GraphView.mk g.toI vrel erel).edges)
      (fun e g g' => g'.vertices = g.vertices ∧ QuietArc g.adj g'.adj e.source e.target) g
      (viewEdges vrel erel (Graph.forEdges Walk.obj) (Walk.body Graph.execM plan) ⟨g, []⟩) := by
  refine over (edgeShown vrel erel) (C154_edges h (plans hp)) (fun _ => rfl) (fun _ _ => ⟨rfl, arc_refl _ _ _⟩) ?_
  exact Lock.pyFor (fun s t hr => by simp only [hr.1]) fun u => Lock.forAdj (fun s t hr => by simp only [hr.1]) (lock_body _ _ _) u

/-- **C164** (`out_edges(u)` of a view of a directed graph). -/
theorem C164_out_edges {g : Graph} {l : CLog} (h : Caught Graph.execM .empty g l) {plan : List (EdgeDesc Nat) → List GOp} (hp : Adds plan ∨ Removes plan) (u : Nat) :
    Delivers Graph.execM plan (fun g => (GraphView.mk (g.toI) vrel erel).outEdges u) (fun e g g' => QuietArc g.adj g'.adj u e.target) g
      (viewEdges vrel erel (Graph.forOutEdges Walk.obj u) (Walk.body Graph.execM plan) ⟨g, []⟩) := by
  refine over (edgeShown vrel erel) (C154_out_edges h (plans hp) u) (fun _ => rfl) (fun _ _ => arc_refl _ _ _) ?_
  unfold viewEdges Graph.forOutEdges
  exact Lock.forAdj (fun s t hr => by simp only [hr.1]) (lock_body _ _ _) u

/-- **C164** (`vertices()` of a view of a directed graph). -/
theorem C164_vertices {g : Graph} {l : CLog} (h : Caught Graph.execM .empty g l) {plan : List (Nat) → List GOp} (hp : Adds plan ∨ Removes plan) :
    Delivers Graph.execM plan (fun g => (GraphView.mk (g.toI) vrel erel).vertices) (fun _ g g' => g'.vertices = g.vertices) g
      (viewVertices vrel (Graph.forVertices Walk.obj) (Walk.body Graph.execM plan) ⟨g, []⟩) := by
  refine over vrel (C154_vertices h (plans hp)) (fun _ => rfl) (fun _ _ => rfl) ?_
  exact Lock.pyFor (fun s t hr => by simp only [hr.1]) (lock_body _ _ _)

/-- **C164** (undirected graphs). -/
theorem C164_undirected_edges {g : Graph} {l : GLog} (h : History UGraph.exec .empty g l) {plan : List (EdgeDesc Nat) → List GOp} (hp : Adds plan ∨ Removes plan) :
    Delivers UGraph.execM plan (fun g => (GraphView.mk (UGraph.toI g) vrel erel).edges) (fun e g g' => g'.vertices = g.vertices ∧ QuietArc g.adj g'.adj e.source e.target) g
      (viewEdges vrel erel (UGraph.forEdges Walk.obj) (Walk.body UGraph.execM plan) ⟨g, []⟩) := by
  refine over (edgeShown vrel erel) (C154_undirected_edges h (plans hp)) (fun _ => rfl) (fun _ _ => ⟨rfl, arc_refl _ _ _⟩) ?_
  exact Lock.pyFor (fun s t hr => by simp only [hr.1]) fun u => Lock.forAdj (fun s t hr => by simp only [hr.1]) (lock_body _ _ _) u

/-- **C164** (undirected graphs). -/
theorem C164_undirected_out_edges {g : Graph} {l : GLog} (h : History UGraph.exec .empty g l) {plan : List (EdgeDesc Nat) → List GOp} (hp : Adds plan ∨ Removes plan) (u : Nat) :
    Delivers UGraph.execM plan (fun g => (GraphView.mk (UGraph.toI g) vrel erel).outEdges u) (fun e g g' => QuietArc g.adj g'.adj u e.target) g
      (viewEdges vrel erel (Graph.forOutEdges Walk.obj u) (Walk.body UGraph.execM plan) ⟨g, []⟩) := by
  refine over (edgeShown vrel erel) (C154_undirected_out_edges h (plans hp) u) (fun _ => rfl) (fun _ _ => arc_refl _ _ _) ?_
  unfold viewEdges Graph.forOutEdges
  exact Lock.forAdj (fun s t hr => by simp only [hr.1]) (lock_body _ _ _) u

/-- **C164** (undirected graphs). -/
theorem C164_undirected_vertices {g : Graph} {l : GLog} (h : History UGraph.exec .empty g l) {plan : List (Nat) → List GOp} (hp : Adds plan ∨ Removes plan) :
    Delivers UGraph.execM plan (fun g => (GraphView.mk (UGraph.toI g) vrel erel).vertices) (fun _ g g' => g'.vertices = g.vertices) g
      (viewVertices vrel (Graph.forVertices Walk.obj) (Walk.body UGraph.execM plan) ⟨g, []⟩) := by
  refine over vrel (C154_undirected_vertices h (plans hp)) (fun _ => rfl) (fun _ _ => rfl) ?_
  exact Lock.pyFor (fun s t hr => by simp only [hr.1]) (lock_body _ _ _)

/-- **C164** (incidence graphs). -/
theorem C164_incidence_edges {g : IGraph} {l : GLog} (h : History IGraph.exec .empty g l) {plan : List (EdgeDesc Nat) → List GOp} (hp : Adds plan ∨ Removes plan) :
    Delivers IGraph.execM plan (fun g => (GraphView.mk (g.toI) vrel erel).edges) (fun e g g' => g'.vertices = g.vertices ∧ QuietArc g.g.adj g'.g.adj e.source e.target) g
      (viewEdges vrel erel (Graph.forEdges (fun w => w.obj.g)) (Walk.body IGraph.execM plan) ⟨g, []⟩) := by
  refine over (edgeShown vrel erel) (C154_incidence_edges h (plans hp)) (fun _ => rfl) (fun _ _ => ⟨rfl, arc_refl _ _ _⟩) ?_
  exact Lock.pyFor (fun s t hr => by simp only [hr.1]) fun u => Lock.forAdj (fun s t hr => by simp only [hr.1]) (lock_body _ _ _) u

/-- **C164** (incidence graphs). -/
theorem C164_incidence_out_edges {g : IGraph} {l : GLog} (h : History IGraph.exec .empty g l) {plan : List (EdgeDesc Nat) → List GOp} (hp : Adds plan ∨ Removes plan) (u : Nat) :
    Delivers IGraph.execM plan (fun g => (GraphView.mk (g.toI) vrel erel).outEdges u) (fun e g g' => QuietArc g.g.adj g'.g.adj u e.target) g
      (viewEdges vrel erel (Graph.forOutEdges (fun w => w.obj.g) u) (Walk.body IGraph.execM plan) ⟨g, []⟩) := by
  refine over (edgeShown vrel erel) (C154_incidence_out_edges h (plans hp) u) (fun _ => rfl) (fun _ _ => arc_refl _ _ _) ?_
  unfold viewEdges Graph.forOutEdges
  exact Lock.forAdj (fun s t hr => by simp only [hr.1]) (lock_body _ _ _) u

/-- **C164** (`in_edges(v)` of a view of an incidence graph). -/
theorem C164_incidence_in_edges {g : IGraph} {l : GLog} (h : History IGraph.exec .empty g l) {plan : List (EdgeDesc Nat) → List GOp} (hp : Adds plan ∨ Removes plan) (v : Nat) :
    Delivers IGraph.execM plan (fun g => (GraphView.mk (g.toI) vrel erel).inEdges v) (fun e g g' => QuietArc g.inAdj g'.inAdj v e.source) g
      (viewEdges vrel erel (IGraph.forInEdges Walk.obj v) (Walk.body IGraph.execM plan) ⟨g, []⟩) := by
  refine over (edgeShown vrel erel) (C154_incidence_in_edges h (plans hp) v) (fun _ => rfl) (fun _ _ => arc_refl _ _ _) ?_
  unfold viewEdges IGraph.forInEdges
  exact Lock.forAdj (fun s t hr => by simp only [hr.1]) (lock_body _ _ _) v

/-- **C164** (incidence graphs). -/
theorem C164_incidence_vertices {g : IGraph} {l : GLog} (h : History IGraph.exec .empty g l) {plan : List (Nat) → List GOp} (hp : Adds plan ∨ Removes plan) :
    Delivers IGraph.execM plan (fun g => (GraphView.mk (g.toI) vrel erel).vertices) (fun _ g g' => g'.vertices = g.vertices) g
      (viewVertices vrel (Graph.forVertices (fun w => w.obj.g)) (Walk.body IGraph.execM plan) ⟨g, []⟩) := by
  refine over vrel (C154_incidence_vertices h (plans hp)) (fun _ => rfl) (fun _ _ => rfl) ?_
  exact Lock.pyFor (fun s t hr => by simp only [hr.1]) (lock_body _ _ _)

/-- **C164** (views of views): a loop over a view of a view is a loop over the view of the edges that both show. -/
theorem C164_nested {S : Type} (vrel' : Nat → Bool) (erel' : EdgeDesc Nat → Bool) (loop : (EdgeDesc Nat → PyM S Unit) → PyM S Unit) (body : EdgeDesc Nat → PyM S Unit) :
    viewEdges vrel' erel' (viewEdges vrel erel loop) body =
      viewEdges (fun u => vrel u && vrel' u) (fun e => erel e && erel' e) loop body := by
  unfold viewEdges
  congr 1
  funext e
  unfold onlyIf edgeShown
  cases h1 : vrel e.source <;> cases h2 : vrel e.target <;> cases h3 : erel e <;> simp [h1, h2, h3]

/-! ## Examples -/

/-- Three vertices, edges `0 → 1`, `1 → 0`, `1 → 2`, `2 → 0`. -/
private def sample : Graph :=
  afterCalls Graph.execM [.addVertex, .addVertex, .addVertex, .addEdge 0 1, .addEdge 1 0, .addEdge 1 2, .addEdge 2 0] .empty

private theorem sample_caught : ∃ l, Caught Graph.execM .empty sample l := by
  have : ∀ (ops : List GOp) (g : Graph) (l : CLog), Caught Graph.execM .empty g l → ∃ l', Caught Graph.execM .empty (afterCalls Graph.execM ops g) l' := by
    intro ops
    induction ops with
    | nil => intro g l h; exact ⟨l, h⟩
    | cons op ops ih => intro g l h; exact ih _ _ (.call op h)
  exact this _ _ _ .start

/-- The view hides vertex 2; the body removes an edge of this vertex that is not reached yet: nothing is noticed. -/
example : ∃ l, Caught Graph.execM .empty sample l ∧ Removes (fun _ : List (EdgeDesc Nat) => [GOp.removeEdge ⟨2, 0, 0⟩]) ∧
    viewEdges (· != 2) (fun _ => true) (Graph.forEdges Walk.obj) (Walk.body Graph.execM fun _ => [.removeEdge ⟨2, 0, 0⟩]) ⟨sample, []⟩ =
      (.ok (), ⟨afterCalls Graph.execM [.removeEdge ⟨2, 0, 0⟩] sample, [⟨0, 1, 0⟩, ⟨1, 0, 0⟩]⟩) := by
  obtain ⟨l, h⟩ := sample_caught
  exact ⟨l, h, fun _ op ho => .inl ⟨_, by simpa using ho⟩, rfl⟩

/-- The body removes the hidden edge `1 → 2` when it receives `1 → 0`: the dictionary of the successors of 1 changes, which is noticed. -/
example : viewEdges (· != 2) (fun _ => true) (Graph.forEdges Walk.obj) (Walk.body Graph.execM fun es => if es.length = 2 then [.removeEdge ⟨1, 2, 0⟩] else []) ⟨sample, []⟩ =
    (.error .runtimeError, ⟨afterCalls Graph.execM [.removeEdge ⟨1, 2, 0⟩] sample, [⟨0, 1, 0⟩, ⟨1, 0, 0⟩]⟩) := rfl

end PyBGL
