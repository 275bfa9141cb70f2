import Verif.Proofs.LazyWalk
import Verif.Proofs.UndirectedGraph
import Verif.Proofs.IncidenceGraph

/-!
# C154: loops that change the graph they iterate on

`vertices()`, `edges()`, `out_edges()` and `in_edges()` copy nothing: the body of a loop over them may change the graph. If it only adds vertices and
edges, or only removes some, then `Delivers` (Spec/LazyIter.lean) says what happens.
-/

namespace PyBGL
open Lazy

section helpers

private theorem dir_true {a b : Adj} : Dir true a b ↔ Sub a b := by simp [Dir]
private theorem dir_false {a b : Adj} : Dir false a b ↔ Sub b a := by simp [Dir]

private theorem mk_inj {u v n u' v' n' : Nat} (h : (⟨u, v, n⟩ : EdgeDesc Nat) = ⟨u', v', n'⟩) : u = u' ∧ v = v' ∧ n = n' := by
  simpa using h

private theorem mk_inj' {u v n u' v' n' : Nat} (h : (⟨v, u, n⟩ : EdgeDesc Nat) = ⟨v', u', n'⟩) : u = u' ∧ v = v' ∧ n = n' := by
  simp at h; exact ⟨h.2.1, h.1, h.2.2⟩

private theorem graph_up {X : Type} {plan : List X → List GOp} (hp : Adds plan) : Steady Graph.execM plan UpInv Graph.adj true where
  wf _ h := h.wf
  step xs s hs := by
    have := keeps_calls up_refl up_trans (plan xs) (fun op ho => graph_adds (hp xs op ho)) s hs
    exact ⟨this.1, dir_true.2 this.2⟩

private theorem graph_down {X : Type} {plan : List X → List GOp} (hp : Removes plan) : Steady Graph.execM plan (fun g => AdjWF g.adj) Graph.adj false where
  wf _ h := h
  step xs s hs := by
    have := keeps_calls down_refl down_trans (plan xs) (fun op ho => graph_removes (hp xs op ho)) s hs
    exact ⟨this.1, dir_false.2 this.2⟩

private theorem ugraph_up {X : Type} {plan : List X → List GOp} (hp : Adds plan) : Steady UGraph.execM plan UpInv Graph.adj true where
  wf _ h := h.wf
  step xs s hs := by
    have := keeps_calls up_refl up_trans (plan xs) (fun op ho => ugraph_adds (hp xs op ho)) s hs
    exact ⟨this.1, dir_true.2 this.2⟩

private theorem ugraph_down {X : Type} {plan : List X → List GOp} (hp : Removes plan) : Steady UGraph.execM plan (fun g => AdjWF g.adj) Graph.adj false where
  wf _ h := h
  step xs s hs := by
    have := keeps_calls down_refl down_trans (plan xs) (fun op ho => ugraph_removes (hp xs op ho)) s hs
    exact ⟨this.1, dir_false.2 this.2⟩

private theorem igraph_up {X : Type} {plan : List X → List GOp} (hp : Adds plan) :
    Steady IGraph.execM plan BothUp (fun g => g.g.adj) true ∧ Steady IGraph.execM plan BothUp IGraph.inAdj true := by
  have key := fun xs s hs => keeps_calls both_refl both_trans (plan xs) (fun op ho => igraph_adds (hp xs op ho)) s hs
  exact ⟨⟨fun _ h => h.up.wf, fun xs s hs => ⟨(key xs s hs).1, dir_true.2 (key xs s hs).2.1⟩⟩,
    ⟨fun _ h => h.wf, fun xs s hs => ⟨(key xs s hs).1, dir_true.2 (key xs s hs).2.2⟩⟩⟩

private theorem igraph_down {X : Type} {plan : List X → List GOp} (hp : Removes plan) :
    Steady IGraph.execM plan BothWF (fun g => g.g.adj) false ∧ Steady IGraph.execM plan BothWF IGraph.inAdj false := by
  have key := fun xs s hs => keeps_calls (T := fun g g' => BothSub g' g) both_refl both_trans' (plan xs) (fun op ho => igraph_removes (hp xs op ho)) s hs
  exact ⟨⟨fun _ h => h.1, fun xs s hs => ⟨(key xs s hs).1, dir_false.2 (key xs s hs).2.1⟩⟩,
    ⟨fun _ h => h.2, fun xs s hs => ⟨(key xs s hs).1, dir_false.2 (key xs s hs).2.2⟩⟩⟩

private theorem umem_edges {g : Graph} (hw : AdjWF g.adj) (u v n : Nat) :
    (⟨u, v, n⟩ : EdgeDesc Nat) ∈ UGraph.edges g ↔ decide (u ≤ v) = true ∧ n ∈ lk g.adj u v := by
  have h := Graph.mem_edges hw ⟨u, v, n⟩
  simp only [Graph.edges, UGraph.edges, List.mem_flatMap, List.mem_map, Prod.exists] at h ⊢
  rw [← h]
  simp only [decide_eq_true_eq]
  constructor
  · rintro ⟨a, b, h1, c, d, h2, h3⟩
    split at h3
    · next hle =>
      obtain ⟨m, h4, h5⟩ := List.mem_map.1 h3
      cases h5
      exact ⟨hle, u, b, h1, v, d, h2, n, h4, rfl⟩
    · cases h3
  · rintro ⟨hle, a, b, h1, c, d, h2, m, h4, h5⟩
    cases h5
    exact ⟨u, b, h1, v, d, h2, by rw [if_pos hle]; exact List.mem_map.2 ⟨n, h4, rfl⟩⟩

private theorem imem_inEdges {g : IGraph} (hw : AdjWF g.inAdj) (v : Nat) (u n : Nat) :
    (⟨u, v, n⟩ : EdgeDesc Nat) ∈ g.inEdges v ↔ n ∈ lk g.inAdj v u := by
  have h := Graph.mem_outEdges (g := ⟨0, g.inAdj⟩) hw v ⟨v, u, n⟩
  simp only [true_and] at h
  rw [← h]
  simp only [Graph.outEdges, IGraph.inEdges, List.mem_flatMap, List.mem_map, Prod.exists, EdgeDesc.mk.injEq]
  constructor
  · rintro ⟨a, b, h1, m, h2, rfl, -, rfl⟩; exact ⟨a, b, h1, m, h2, trivial, rfl, rfl⟩
  · rintro ⟨a, b, h1, m, h2, -, rfl, rfl⟩; exact ⟨a, b, h1, m, h2, rfl, trivial, rfl⟩

private theorem out_form {g : Graph} {u : Nat} {e : EdgeDesc Nat} (h : e ∈ g.outEdges u) : ∃ v n, e = ⟨u, v, n⟩ := by
  simp only [Graph.outEdges, List.mem_flatMap, List.mem_map] at h
  obtain ⟨p, -, n, -, rfl⟩ := h
  exact ⟨_, _, rfl⟩

private theorem in_form {g : IGraph} {v : Nat} {e : EdgeDesc Nat} (h : e ∈ g.inEdges v) : ∃ u n, e = ⟨u, v, n⟩ := by
  simp only [IGraph.inEdges, List.mem_flatMap, List.mem_map] at h
  obtain ⟨p, -, n, -, rfl⟩ := h
  exact ⟨_, _, rfl⟩

end helpers

/-! ## The edges -/

/-- A loop over `edges()` of a directed graph. It ends normally exactly if no turn, for an edge from `u` to `v`, changes the vertices, the successors
of `u` or the edges from `u` to `v`. -/
theorem C154_edges {g : Graph} {l : CLog} (h : Caught Graph.execM .empty g l) {plan : List (EdgeDesc Nat) → List GOp} (hp : Adds plan ∨ Removes plan) :
    Delivers Graph.execM plan Graph.edges (fun e g g' => g'.vertices = g.vertices ∧ QuietArc g.adj g'.adj e.source e.target) g
      (Graph.forEdges Walk.obj (Walk.body Graph.execM plan) ⟨g, []⟩) := by
  have hi := Graph.caught_inv h
  have e : (fun (e : EdgeDesc Nat) (g g' : Graph) => g'.adj.keys = g.adj.keys ∧ ∀ u v n, e = ⟨u, v, n⟩ → QuietArc g.adj g'.adj u v) =
      fun e g g' => g'.vertices = g.vertices ∧ QuietArc g.adj g'.adj e.source e.target := by
    funext e g g'
    simp only [eq_iff_iff]
    exact and_congr Iff.rfl ⟨fun k => k _ _ _ rfl, by rintro k u v n rfl; exact k⟩
  rcases hp with hp | hp
  · have := (graph_up hp).arcs (keep := fun _ _ => true) (mk := fun u v n => ⟨u, v, n⟩) mk_inj (items := Graph.edges)
      (fun s u v n hs => by rw [Graph.mem_edges hs.wf]; simp) (fun s e _ => ⟨_, _, _, rfl⟩) (s := g) ⟨hi.wf, hi.bound⟩
    rw [e] at this; exact this
  · have := (graph_down hp).arcs (keep := fun _ _ => true) (mk := fun u v n => ⟨u, v, n⟩) mk_inj (items := Graph.edges)
      (fun s u v n hs => by rw [Graph.mem_edges hs]; simp) (fun s e _ => ⟨_, _, _, rfl⟩) (s := g) hi.wf
    rw [e] at this; exact this

/-- The same for an undirected graph. The dictionary of the successors of a vertex may have empty sets, left by the edges removed. -/
theorem C154_undirected_edges {g : Graph} {l : GLog} (h : History UGraph.exec .empty g l) {plan : List (EdgeDesc Nat) → List GOp}
    (hp : Adds plan ∨ Removes plan) :
    Delivers UGraph.execM plan UGraph.edges (fun e g g' => g'.vertices = g.vertices ∧ QuietArc g.adj g'.adj e.source e.target) g
      (UGraph.forEdges Walk.obj (Walk.body UGraph.execM plan) ⟨g, []⟩) := by
  have hi := UGraph.history_inv h
  have e : (fun (e : EdgeDesc Nat) (g g' : Graph) => g'.adj.keys = g.adj.keys ∧ ∀ u v n, e = ⟨u, v, n⟩ → QuietArc g.adj g'.adj u v) =
      fun e g g' => g'.vertices = g.vertices ∧ QuietArc g.adj g'.adj e.source e.target := by
    funext e g g'
    simp only [eq_iff_iff]
    exact and_congr Iff.rfl ⟨fun k => k _ _ _ rfl, by rintro k u v n rfl; exact k⟩
  rcases hp with hp | hp
  · have := (ugraph_up hp).arcs (keep := fun u v => decide (u ≤ v)) (mk := fun u v n => ⟨u, v, n⟩) mk_inj (items := UGraph.edges)
      (fun s u v n hs => umem_edges hs.wf u v n) (fun s e _ => ⟨_, _, _, rfl⟩) (s := g) ⟨hi.wf, hi.bound⟩
    rw [e] at this; exact this
  · have := (ugraph_down hp).arcs (keep := fun u v => decide (u ≤ v)) (mk := fun u v n => ⟨u, v, n⟩) mk_inj (items := UGraph.edges)
      (fun s u v n hs => umem_edges hs u v n) (fun s e _ => ⟨_, _, _, rfl⟩) (s := g) hi.wf
    rw [e] at this; exact this

/-- The same for an incidence graph. -/
theorem C154_incidence_edges {g : IGraph} {l : GLog} (h : History IGraph.exec .empty g l) {plan : List (EdgeDesc Nat) → List GOp}
    (hp : Adds plan ∨ Removes plan) :
    Delivers IGraph.execM plan IGraph.edges (fun e g g' => g'.vertices = g.vertices ∧ QuietArc g.g.adj g'.g.adj e.source e.target) g
      (Graph.forEdges (fun w => w.obj.g) (Walk.body IGraph.execM plan) ⟨g, []⟩) := by
  have hi := IGraph.history_inv h
  have e : (fun (e : EdgeDesc Nat) (g g' : IGraph) => g'.g.adj.keys = g.g.adj.keys ∧ ∀ u v n, e = ⟨u, v, n⟩ → QuietArc g.g.adj g'.g.adj u v) =
      fun e g g' => g'.vertices = g.vertices ∧ QuietArc g.g.adj g'.g.adj e.source e.target := by
    funext e g g'
    simp only [eq_iff_iff]
    exact and_congr Iff.rfl ⟨fun k => k _ _ _ rfl, by rintro k u v n rfl; exact k⟩
  rcases hp with hp | hp
  · have := (igraph_up hp).1.arcs (keep := fun _ _ => true) (mk := fun u v n => ⟨u, v, n⟩) mk_inj (items := IGraph.edges)
      (fun s u v n hs => by rw [IGraph.edges, Graph.mem_edges hs.up.wf]; simp) (fun s e _ => ⟨_, _, _, rfl⟩) (s := g)
      ⟨⟨hi.wf.out, hi.bound⟩, hi.wf.inn, fun u hu => hi.bound u ((hi.wf.keys u).1 hu)⟩
    rw [e] at this; exact this
  · have := (igraph_down hp).1.arcs (keep := fun _ _ => true) (mk := fun u v n => ⟨u, v, n⟩) mk_inj (items := IGraph.edges)
      (fun s u v n hs => by rw [IGraph.edges, Graph.mem_edges hs.1]; simp) (fun s e _ => ⟨_, _, _, rfl⟩) (s := g) ⟨hi.wf.out, hi.wf.inn⟩
    rw [e] at this; exact this

/-! ## The edges of a vertex -/

/-- A loop over `out_edges(u)`: here vertices may be added or removed without being noticed, as long as the successors of `u` are the same. -/
theorem C154_out_edges {g : Graph} {l : CLog} (h : Caught Graph.execM .empty g l) {plan : List (EdgeDesc Nat) → List GOp} (hp : Adds plan ∨ Removes plan)
    (u : Nat) :
    Delivers Graph.execM plan (fun g => g.outEdges u) (fun e g g' => QuietArc g.adj g'.adj u e.target) g
      (Graph.forOutEdges Walk.obj u (Walk.body Graph.execM plan) ⟨g, []⟩) := by
  have hi := Graph.caught_inv h
  rcases hp with hp | hp
  · exact (graph_up hp).arcsOf (keep := fun _ _ => true) (mk := fun u v n => ⟨u, v, n⟩) mk_inj u (items := fun g => g.outEdges u)
      (fun s v n hs => by rw [Graph.mem_outEdges hs.wf]; simp) (fun s e he => out_form he) (tgt := EdgeDesc.target) (fun _ _ => rfl) (s := g)
      ⟨hi.wf, hi.bound⟩
  · exact (graph_down hp).arcsOf (keep := fun _ _ => true) (mk := fun u v n => ⟨u, v, n⟩) mk_inj u (items := fun g => g.outEdges u)
      (fun s v n hs => by rw [Graph.mem_outEdges hs]; simp) (fun s e he => out_form he) (tgt := EdgeDesc.target) (fun _ _ => rfl) (s := g) hi.wf

/-- The same for an undirected graph. -/
theorem C154_undirected_out_edges {g : Graph} {l : GLog} (h : History UGraph.exec .empty g l) {plan : List (EdgeDesc Nat) → List GOp}
    (hp : Adds plan ∨ Removes plan) (u : Nat) :
    Delivers UGraph.execM plan (fun g => UGraph.outEdges g u) (fun e g g' => QuietArc g.adj g'.adj u e.target) g
      (Graph.forOutEdges Walk.obj u (Walk.body UGraph.execM plan) ⟨g, []⟩) := by
  have hi := UGraph.history_inv h
  rcases hp with hp | hp
  · exact (ugraph_up hp).arcsOf (keep := fun _ _ => true) (mk := fun u v n => ⟨u, v, n⟩) mk_inj u (items := fun g => g.outEdges u)
      (fun s v n hs => by rw [Graph.mem_outEdges hs.wf]; simp) (fun s e he => out_form he) (tgt := EdgeDesc.target) (fun _ _ => rfl) (s := g)
      ⟨hi.wf, hi.bound⟩
  · exact (ugraph_down hp).arcsOf (keep := fun _ _ => true) (mk := fun u v n => ⟨u, v, n⟩) mk_inj u (items := fun g => g.outEdges u)
      (fun s v n hs => by rw [Graph.mem_outEdges hs]; simp) (fun s e he => out_form he) (tgt := EdgeDesc.target) (fun _ _ => rfl) (s := g) hi.wf

/-- The same for an incidence graph. -/
theorem C154_incidence_out_edges {g : IGraph} {l : GLog} (h : History IGraph.exec .empty g l) {plan : List (EdgeDesc Nat) → List GOp}
    (hp : Adds plan ∨ Removes plan) (u : Nat) :
    Delivers IGraph.execM plan (fun g => g.outEdges u) (fun e g g' => QuietArc g.g.adj g'.g.adj u e.target) g
      (Graph.forOutEdges (fun w => w.obj.g) u (Walk.body IGraph.execM plan) ⟨g, []⟩) := by
  have hi := IGraph.history_inv h
  rcases hp with hp | hp
  · exact (igraph_up hp).1.arcsOf (keep := fun _ _ => true) (mk := fun u v n => ⟨u, v, n⟩) mk_inj u (items := fun g => g.g.outEdges u)
      (fun s v n hs => by rw [Graph.mem_outEdges hs.up.wf]; simp) (fun s e he => out_form he) (tgt := EdgeDesc.target) (fun _ _ => rfl) (s := g)
      ⟨⟨hi.wf.out, hi.bound⟩, hi.wf.inn, fun u hu => hi.bound u ((hi.wf.keys u).1 hu)⟩
  · exact (igraph_down hp).1.arcsOf (keep := fun _ _ => true) (mk := fun u v n => ⟨u, v, n⟩) mk_inj u (items := fun g => g.g.outEdges u)
      (fun s v n hs => by rw [Graph.mem_outEdges hs.1]; simp) (fun s e he => out_form he) (tgt := EdgeDesc.target) (fun _ _ => rfl) (s := g)
      ⟨hi.wf.out, hi.wf.inn⟩

/-- A loop over `in_edges(v)` of an incidence graph. -/
theorem C154_incidence_in_edges {g : IGraph} {l : GLog} (h : History IGraph.exec .empty g l) {plan : List (EdgeDesc Nat) → List GOp}
    (hp : Adds plan ∨ Removes plan) (v : Nat) :
    Delivers IGraph.execM plan (fun g => g.inEdges v) (fun e g g' => QuietArc g.inAdj g'.inAdj v e.source) g
      (IGraph.forInEdges Walk.obj v (Walk.body IGraph.execM plan) ⟨g, []⟩) := by
  have hi := IGraph.history_inv h
  rcases hp with hp | hp
  · exact (igraph_up hp).2.arcsOf (keep := fun _ _ => true) (mk := fun v u n => ⟨u, v, n⟩) mk_inj' v (items := fun g => g.inEdges v)
      (fun s u n hs => by rw [imem_inEdges hs.wf]; simp) (fun s e he => in_form he) (tgt := EdgeDesc.source) (fun _ _ => rfl) (s := g)
      ⟨⟨hi.wf.out, hi.bound⟩, hi.wf.inn, fun u hu => hi.bound u ((hi.wf.keys u).1 hu)⟩
  · exact (igraph_down hp).2.arcsOf (keep := fun _ _ => true) (mk := fun v u n => ⟨u, v, n⟩) mk_inj' v (items := fun g => g.inEdges v)
      (fun s u n hs => by rw [imem_inEdges hs.2]; simp) (fun s e he => in_form he) (tgt := EdgeDesc.source) (fun _ _ => rfl) (s := g)
      ⟨hi.wf.out, hi.wf.inn⟩

/-! ## The vertices -/

/-- A loop over `vertices()`: it ends normally exactly if no turn adds or removes a vertex. -/
theorem C154_vertices {g : Graph} {l : CLog} (h : Caught Graph.execM .empty g l) {plan : List Nat → List GOp} (hp : Adds plan ∨ Removes plan) :
    Delivers Graph.execM plan Graph.vertices (fun _ g g' => g'.vertices = g.vertices) g
      (Graph.forVertices Walk.obj (Walk.body Graph.execM plan) ⟨g, []⟩) := by
  have hi := Graph.caught_inv h
  rcases hp with hp | hp
  · exact (graph_up hp).vertices (s := g) ⟨hi.wf, hi.bound⟩
  · exact (graph_down hp).vertices (s := g) hi.wf

/-- The same for an undirected graph. -/
theorem C154_undirected_vertices {g : Graph} {l : GLog} (h : History UGraph.exec .empty g l) {plan : List Nat → List GOp} (hp : Adds plan ∨ Removes plan) :
    Delivers UGraph.execM plan Graph.vertices (fun _ g g' => g'.vertices = g.vertices) g
      (Graph.forVertices Walk.obj (Walk.body UGraph.execM plan) ⟨g, []⟩) := by
  have hi := UGraph.history_inv h
  rcases hp with hp | hp
  · exact (ugraph_up hp).vertices (s := g) ⟨hi.wf, hi.bound⟩
  · exact (ugraph_down hp).vertices (s := g) hi.wf

/-- The same for an incidence graph. -/
theorem C154_incidence_vertices {g : IGraph} {l : GLog} (h : History IGraph.exec .empty g l) {plan : List Nat → List GOp} (hp : Adds plan ∨ Removes plan) :
    Delivers IGraph.execM plan IGraph.vertices (fun _ g g' => g'.vertices = g.vertices) g
      (Graph.forVertices (fun w => w.obj.g) (Walk.body IGraph.execM plan) ⟨g, []⟩) := by
  have hi := IGraph.history_inv h
  rcases hp with hp | hp
  · exact (igraph_up hp).1.vertices (s := g) ⟨⟨hi.wf.out, hi.bound⟩, hi.wf.inn, fun u hu => hi.bound u ((hi.wf.keys u).1 hu)⟩
  · exact (igraph_down hp).1.vertices (s := g) ⟨hi.wf.out, hi.wf.inn⟩

/-! ## Consequences -/

/-- In plain words, for additions: if the loop ends normally, no vertex was added, every edge of the graph at the beginning was delivered, once, and
every edge delivered is in the graph at the end. -/
theorem C154_additions {g : Graph} {l : CLog} (h : Caught Graph.execM .empty g l) {plan : List (EdgeDesc Nat) → List GOp} (hp : Adds plan) :
    ∃ r w, Graph.forEdges Walk.obj (Walk.body Graph.execM plan) ⟨g, []⟩ = (r, w) ∧ w.seen.Nodup ∧ (∀ e ∈ w.seen, e ∈ w.obj.edges) ∧
      (r = .error .runtimeError ∨ (r = .ok () ∧ w.obj.vertices = g.vertices ∧ ∀ e ∈ g.edges, e ∈ w.seen)) := by
  have hi := Graph.caught_inv h
  have hd := C154_edges h (plan := plan) (.inl hp)
  generalize Graph.forEdges Walk.obj (Walk.body Graph.execM plan) ⟨g, []⟩ = out at hd ⊢
  obtain ⟨a, b, c⟩ := (graph_up hp).turns out.2.seen [] g ⟨hi.wf, hi.bound⟩
  rw [← hd.obj] at a b c
  refine ⟨out.1, out.2, rfl, hd.once, fun e he => ?_, ?_⟩
  · obtain ⟨t, ht, rfl⟩ := mem_turns (exec := Graph.execM) (plan := plan) (past := []) (s := g) he
    obtain ⟨c1, -, c3⟩ := c t ht
    have := hd.present t ht
    rw [Graph.mem_edges c1.wf] at this
    rw [Graph.mem_edges a.wf]
    exact (Sub.sets (dir_true.1 c3) _ _).mem this
  · rcases hd.outcome with ho | ho
    · refine .inr ⟨ho, ?_, fun e he => hd.complete ho e he ?_⟩
      · rw [hd.obj]
        exact turns_same Graph.vertices _ _ _ fun t ht => (hd.detected.1 ho t ht).1
      · rw [Graph.mem_edges hi.wf] at he
        rw [Graph.mem_edges a.wf]
        exact (Sub.sets (dir_true.1 b) _ _).mem he
    · exact .inl ho

/-- In plain words, for removals: if the loop ends normally, no vertex was removed, every edge of the graph at the end was delivered, once, and every
edge delivered was in the graph at the beginning. -/
theorem C154_removals {g : Graph} {l : CLog} (h : Caught Graph.execM .empty g l) {plan : List (EdgeDesc Nat) → List GOp} (hp : Removes plan) :
    ∃ r w, Graph.forEdges Walk.obj (Walk.body Graph.execM plan) ⟨g, []⟩ = (r, w) ∧ w.seen.Nodup ∧ (∀ e ∈ w.seen, e ∈ g.edges) ∧
      (r = .error .runtimeError ∨ (r = .ok () ∧ w.obj.vertices = g.vertices ∧ ∀ e ∈ w.obj.edges, e ∈ w.seen)) := by
  have hi := Graph.caught_inv h
  have hd := C154_edges h (plan := plan) (.inr hp)
  generalize Graph.forEdges Walk.obj (Walk.body Graph.execM plan) ⟨g, []⟩ = out at hd ⊢
  obtain ⟨a, b, c⟩ := (graph_down hp).turns out.2.seen [] g hi.wf
  rw [← hd.obj] at a b c
  refine ⟨out.1, out.2, rfl, hd.once, fun e he => ?_, ?_⟩
  · obtain ⟨t, ht, rfl⟩ := mem_turns (exec := Graph.execM) (plan := plan) (past := []) (s := g) he
    obtain ⟨c1, c2, -⟩ := c t ht
    have := hd.present t ht
    rw [Graph.mem_edges c1] at this
    rw [Graph.mem_edges hi.wf]
    exact (Sub.sets (dir_false.1 c2) _ _).mem this
  · rcases hd.outcome with ho | ho
    · refine .inr ⟨ho, ?_, fun e he => hd.complete ho e ?_ he⟩
      · rw [hd.obj]
        exact turns_same Graph.vertices _ _ _ fun t ht => (hd.detected.1 ho t ht).1
      · rw [Graph.mem_edges a] at he
        rw [Graph.mem_edges hi.wf]
        exact (Sub.sets (dir_false.1 b) _ _).mem he
    · exact .inl ho

/-- A turn for an edge from `u` to `v` that changes the number of edges from `u` to `v` is the last one, whatever the calls made. -/
theorem C154_at_once (g : Graph) (plan : List (EdgeDesc Nat) → List GOp) :
    ∀ t ∈ turns Graph.execM plan g [] (Graph.forEdges Walk.obj (Walk.body Graph.execM plan) ⟨g, []⟩).2.seen.dropLast,
      (parallelsOf t.2.2.adj t.1.source t.1.target).length = (parallelsOf t.2.1.adj t.1.source t.1.target).length :=
  fun t ht => prompt_arcs (exec := Graph.execM) (plan := plan) (adj := Graph.adj) (keep := fun _ _ => true) (mk := fun u v n => ⟨u, v, n⟩) mk_inj g _ rfl t ht
    _ _ _ rfl

/-- `for e in g.edges(): g.remove_edge(e)` removes one edge, if there is one, and raises. -/
theorem C154_remove_each {g : Graph} {l : CLog} (h : Caught Graph.execM .empty g l) (hne : g.edges ≠ []) :
    ∃ e ∈ g.edges, ∃ g', g.removeEdge e = .ok g' ∧
      Graph.forEdges Walk.obj (Walk.body Graph.execM fun es => es.getLast?.toList.map .removeEdge) ⟨g, []⟩ = (.error .runtimeError, ⟨g', [e]⟩) := by
  have hi := Graph.caught_inv h
  have hp : Removes fun es : List (EdgeDesc Nat) => es.getLast?.toList.map GOp.removeEdge := by
    intro es op ho
    obtain ⟨e, -, rfl⟩ := List.mem_map.1 ho
    exact .inl ⟨e, rfl⟩
  have hd := C154_edges h (.inr hp)
  have ha := C154_at_once g fun es => es.getLast?.toList.map GOp.removeEdge
  generalize Graph.forEdges Walk.obj (Walk.body Graph.execM fun es => es.getLast?.toList.map GOp.removeEdge) ⟨g, []⟩ = out at hd ha
  obtain ⟨r, g', seen⟩ := out
  obtain ⟨h1, h2, h3, h4, h5, h6⟩ := hd
  simp only at h1 h2 h3 h4 h5 h6 ha
  -- the first turn
  have key : ∀ e, e ∈ g.edges → ∃ g1, g.removeEdge e = .ok g1 ∧ afterCalls Graph.execM [GOp.removeEdge e] g = g1 ∧
      (parallelsOf g1.adj e.source e.target).length ≠ (parallelsOf g.adj e.source e.target).length := by
    intro e he
    have hm := (Graph.mem_edges hi.wf e).1 he
    obtain ⟨g1, k1, k2, -, -, -, k5⟩ := Graph.removeEdge_spec hi.wf e hm
    have hex : Graph.execM (.removeEdge e) g = (.ok .unit, g1) := by
      apply PyM.of_result_ok; rw [Graph.result_execM, Graph.exec, k1]; rfl
    refine ⟨g1, k1, ?_, fun hlen => ?_⟩
    · simp only [afterCalls, List.foldl_cons, List.foldl_nil, hex]
    · have hs := (graph_removes (op := .removeEdge e) (.inl ⟨e, rfl⟩) g hi.wf).2.sets e.source e.target
      rw [hex] at hs
      simp only [parallelsOf, getD_getD] at hlen
      rw [← hs.eq_of_length hlen] at hm
      exact ((k5 _ _ _).1 hm).2 ⟨rfl, rfl, rfl⟩
  cases seen with
  | nil =>
    rcases h4 with rfl | rfl
    · obtain ⟨e, he⟩ := List.exists_mem_of_ne_nil _ hne
      simp only [afterTurns] at h2
      subst h2
      exact absurd (h6 rfl e he he) (by simp)
    · exfalso
      have := h5.2 (by simp [turns])
      cases this
  | cons e es =>
    have he : e ∈ g.edges := h3 _ List.mem_cons_self
    obtain ⟨g1, k1, k2, k3⟩ := key e he
    cases es with
    | nil =>
      refine ⟨e, he, g1, k1, ?_⟩
      simp only [afterTurns, List.nil_append, List.getLast?_singleton, Option.toList_some, List.map_cons, List.map_nil, k2] at h2
      subst h2
      rcases h4 with rfl | rfl
      · have := h5.1 rfl _ List.mem_cons_self
        simp only [List.nil_append, List.getLast?_singleton, Option.toList_some, List.map_cons, List.map_nil, k2] at this
        exact absurd (congrArg List.length this.2.2) k3
      · rfl
    | cons e' es =>
      have := ha _ List.mem_cons_self
      simp only [List.nil_append, List.getLast?_singleton, Option.toList_some, List.map_cons, List.map_nil, k2] at this
      exact absurd this k3

/-- `for u in g.vertices(): g.remove_vertex(u)` removes one vertex, if there is one, and raises. -/
theorem C154_remove_each_vertex {g : Graph} {l : CLog} (h : Caught Graph.execM .empty g l) (hne : g.vertices ≠ []) :
    ∃ u ∈ g.vertices, ∃ g', g.removeVertex u = .ok g' ∧
      Graph.forVertices Walk.obj (Walk.body Graph.execM fun us => us.getLast?.toList.map .removeVertex) ⟨g, []⟩ = (.error .runtimeError, ⟨g', [u]⟩) := by
  have hi := Graph.caught_inv h
  have hp : Removes fun us : List Nat => us.getLast?.toList.map GOp.removeVertex := by
    intro us op ho
    obtain ⟨u, -, rfl⟩ := List.mem_map.1 ho
    exact .inr (.inl ⟨u, rfl⟩)
  have hd := C154_vertices h (.inr hp)
  obtain ⟨new, a1, a2, -⟩ := forFrom_prompt_leaf (leaf := leafOf Graph.execM fun us => us.getLast?.toList.map GOp.removeVertex)
    (R := fun _ w w' => w'.obj.adj.keys.length = w.obj.adj.keys.length) (items := fun w : Walk Graph Nat => w.obj.adj.keys)
    (body := Walk.body Graph.execM fun us => us.getLast?.toList.map GOp.removeVertex) (mk := id) (fun _ _ => rfl) (fun _ _ _ h => h)
    g.adj.keys.length g.adj.keys.length ⟨g, []⟩
  have ha := (allQ_leafOf (Q := fun _ s s' => s'.adj.keys.length = s.adj.keys.length) new.dropLast ⟨g, []⟩).1 a2
  have hseen : (Graph.forVertices Walk.obj (Walk.body Graph.execM fun us => us.getLast?.toList.map GOp.removeVertex) ⟨g, []⟩).2.seen = new := by
    have := congrArg Walk.seen a1
    rw [run_leafOf] at this
    exact this
  rw [← hseen] at ha
  generalize Graph.forVertices Walk.obj (Walk.body Graph.execM fun us => us.getLast?.toList.map GOp.removeVertex) ⟨g, []⟩ = out at hd ha
  obtain ⟨r, g', seen⟩ := out
  obtain ⟨h1, h2, h3, h4, h5, h6⟩ := hd
  simp only at h1 h2 h3 h4 h5 h6 ha
  have key : ∀ u, u ∈ g.vertices → ∃ g1, g.removeVertex u = .ok g1 ∧ afterCalls Graph.execM [GOp.removeVertex u] g = g1 ∧
      g1.adj.keys.length ≠ g.adj.keys.length := by
    intro u hu
    obtain ⟨g1, k1, -, -, k4, -⟩ := Graph.removeVertex_spec hi.wf u hu
    have hex : Graph.execM (.removeVertex u) g = (.ok .unit, g1) := by
      apply PyM.of_result_ok; rw [Graph.result_execM, Graph.exec, k1]; rfl
    refine ⟨g1, k1, ?_, fun hlen => ?_⟩
    · simp only [afterCalls, List.foldl_cons, List.foldl_nil, hex]
    · have hs := (graph_removes (op := .removeVertex u) (.inr (.inl ⟨u, rfl⟩)) g hi.wf).2.outer
      rw [hex] at hs
      have := hs.eq_of_length hlen
      have hu' : u ∈ g1.vertices := by rw [Graph.vertices, this]; exact hu
      rw [k4] at hu'
      simp at hu'
  cases seen with
  | nil =>
    rcases h4 with rfl | rfl
    · obtain ⟨e, he⟩ := List.exists_mem_of_ne_nil _ hne
      simp only [afterTurns] at h2
      subst h2
      exact absurd (h6 rfl e he he) (by simp)
    · exfalso
      have := h5.2 (by simp [turns])
      cases this
  | cons e es =>
    have he : e ∈ g.vertices := h3 _ List.mem_cons_self
    obtain ⟨g1, k1, k2, k3⟩ := key e he
    cases es with
    | nil =>
      refine ⟨e, he, g1, k1, ?_⟩
      simp only [afterTurns, List.nil_append, List.getLast?_singleton, Option.toList_some, List.map_cons, List.map_nil, k2] at h2
      subst h2
      rcases h4 with rfl | rfl
      · have := h5.1 rfl _ List.mem_cons_self
        simp only [List.nil_append, List.getLast?_singleton, Option.toList_some, List.map_cons, List.map_nil, k2] at this
        exact absurd (congrArg List.length this) k3
      · rfl
    | cons e' es =>
      have := ha _ List.mem_cons_self
      simp only [List.nil_append, List.getLast?_singleton, Option.toList_some, List.map_cons, List.map_nil, k2] at this
      exact absurd this k3

/-! ## Non-vacuity -/

/-- Three vertices, two edges from 0 to 1, one from 1 to 1. -/
private def triangle : Graph := afterCalls Graph.execM [.addVertex, .addVertex, .addVertex, .addEdge 0 1, .addEdge 0 1, .addEdge 1 1] .empty

private theorem triangle_caught : ∃ l, Caught Graph.execM .empty triangle l := by
  have : ∀ (ops : List GOp) (g : Graph) (l : CLog), Caught Graph.execM .empty g l → ∃ l', Caught Graph.execM .empty (afterCalls Graph.execM ops g) l' := by
    intro ops
    induction ops with
    | nil => intro g l h; exact ⟨l, h⟩
    | cons op ops ih => intro g l h; exact ih _ _ (.call op h)
  exact this _ _ _ .start

/-- An edge added from a vertex not yet visited is delivered; nothing is noticed. -/
example : Graph.forEdges Walk.obj (Walk.body Graph.execM fun es => if es.length = 1 then [.addEdge 2 0] else []) ⟨triangle, []⟩ =
    (.ok (), ⟨afterCalls Graph.execM [.addEdge 2 0] triangle, [⟨0, 1, 0⟩, ⟨0, 1, 1⟩, ⟨1, 1, 0⟩, ⟨2, 0, 0⟩]⟩) := rfl

/-- An edge added from a vertex already visited is not delivered; nothing is noticed. -/
example : (Graph.forEdges Walk.obj (Walk.body Graph.execM fun es => if es.length = 3 then [.addEdge 0 1] else []) ⟨triangle, []⟩).2.seen =
    [⟨0, 1, 0⟩, ⟨0, 1, 1⟩, ⟨1, 1, 0⟩] := rfl

/-- A vertex added is noticed once the edges of the current vertex are delivered. -/
example : Graph.forEdges Walk.obj (Walk.body Graph.execM fun es => if es.length = 1 then [.addVertex] else []) ⟨triangle, []⟩ =
    (.error .runtimeError, ⟨afterCalls Graph.execM [.addVertex] triangle, [⟨0, 1, 0⟩, ⟨0, 1, 1⟩]⟩) := rfl

/-- A parallel edge added is noticed at once. -/
example : (Graph.forEdges Walk.obj (Walk.body Graph.execM fun _ => [.addEdge 0 1]) ⟨triangle, []⟩).1 = .error .runtimeError ∧
    (Graph.forEdges Walk.obj (Walk.body Graph.execM fun _ => [.addEdge 0 1]) ⟨triangle, []⟩).2.seen = [⟨0, 1, 0⟩] := ⟨rfl, rfl⟩

/-- Removing the edges not yet visited is not noticed. -/
example : Graph.forEdges Walk.obj (Walk.body Graph.execM fun es => if es.length = 1 then [.removeEdge ⟨1, 1, 0⟩] else []) ⟨triangle, []⟩ =
    (.ok (), ⟨afterCalls Graph.execM [.removeEdge ⟨1, 1, 0⟩] triangle, [⟨0, 1, 0⟩, ⟨0, 1, 1⟩]⟩) := rfl

example : ∃ l, Caught Graph.execM .empty triangle l ∧ triangle.edges ≠ [] ∧ triangle.vertices ≠ [] := by
  obtain ⟨l, h⟩ := triangle_caught
  exact ⟨l, h, by decide, by decide⟩

end PyBGL
