import Verif.Props.C06_C07_UndirectedGraph
import Verif.Props.C48_C50_Bfs
import Verif.Props.C55_StrongComponents

/-!
# C96: the traversals on an `UndirectedGraph`
-/

namespace PyBGL

/-- Specification: `u` and `v` are joined by a chain of edges of `es`, each followed in either direction. -/
inductive Connected (es : List (EdgeDesc Nat)) (u : Nat) : Nat → Prop
  | refl : Connected es u u
  | forth {e : EdgeDesc Nat} : Connected es u e.source → e ∈ es → Connected es u e.target
  | back {e : EdgeDesc Nat} : Connected es u e.target → e ∈ es → Connected es u e.source

namespace UGraph

theorem mem_out {g : Graph} {l : GLog} (h : History UGraph.exec .empty g l) (u : Nat) (e : EdgeDesc Nat) :
    e ∈ (toI g).outEdges u ↔ e.source = u ∧ (e ∈ liveUEdges l ∨ ⟨e.target, e.source, e.distinguisher⟩ ∈ liveUEdges l) := by
  have hc := C06_edges_once h
  have := (hc.2.2.2.1 u).2 e
  rw [hc.2.2.1, hc.2.2.1] at this
  exact this

theorem reach_iff {g : Graph} {l : GLog} (h : History UGraph.exec .empty g l) (u v : Nat) :
    Reach (toI g) u v ↔ Connected (liveUEdges l) u v := by
  constructor
  · intro hr
    refine hr.closed (P := fun x => Connected (liveUEdges l) u x) ?_ .refl
    intro x hx e he
    rw [mem_out h] at he
    obtain ⟨h1, h2 | h2⟩ := he
    · exact .forth (h1 ▸ hx) h2
    · exact .back (e := ⟨e.target, e.source, e.distinguisher⟩) (h1 ▸ hx) h2
  · intro hc
    induction hc with
    | refl => exact Reach.refl _ _
    | @forth e _ he ih => exact ih.step (e := e) ((mem_out h _ _).2 ⟨rfl, Or.inl he⟩)
    | @back e _ he ih => exact ih.step (e := ⟨e.target, e.source, e.distinguisher⟩) ((mem_out h _ _).2 ⟨rfl, Or.inr he⟩)

theorem closed {g : Graph} {l : GLog} (h : History UGraph.exec .empty g l) : (toI g).Closed := by
  intro u _ e he
  rw [mem_out h] at he
  have hi := history_inv h
  obtain ⟨-, h2 | h2⟩ := he
  · exact (hi.src _ h2).2
  · exact (hi.src _ h2).1

theorem through_true {V E : Type} (g : GraphI V E) : g.through (fun _ => true) = g := by unfold GraphI.through; simp

theorem reach_mem {g : Graph} {l : GLog} (h : History UGraph.exec .empty g l) {s : Nat} (hs : s ∈ g.vertices) (v : Nat)
    (hr : Reach ((toI g).through (fun _ => true)) s v) : v ∈ g.vertices := by
  rw [through_true] at hr
  exact hr.closed (P := fun x => x ∈ g.vertices) (fun u hu e he => closed h u hu e he) hs

end UGraph

theorem Connected.symm {es : List (EdgeDesc Nat)} {u v : Nat} (h : Connected es u v) : Connected es v u := by
  have tr : ∀ {a b c : Nat}, Connected es a b → Connected es b c → Connected es a c := by
    intro a b c h1 h2
    induction h2 with
    | refl => exact h1
    | forth _ he ih => exact .forth ih he
    | back _ he ih => exact .back ih he
  induction h with
  | refl => exact .refl
  | forth _ he ih => exact tr (.back .refl he) ih
  | back _ he ih => exact tr (.forth .refl he) ih

/-- **C96** (breadth first search): on every `UndirectedGraph`, `breadth_first_search(s, g)` discovers exactly the vertices connected to `s`, once each,
whatever the ends by which the edges were added. -/
theorem C96_bfs {g : Graph} {l : GLog} (h : History UGraph.exec .empty g l) {s : Nat} (hs : s ∈ g.vertices) :
    ∃ tr c, Returns (bfs (UGraph.toI g) s (fun _ => true) (some recorder) [] []) (.ok (c, g.vertices.map .initializeVertex ++ tr)) ∧
      (∀ v, v ∈ Bfs.discovered tr ↔ Connected (liveUEdges l) s v) ∧ (Bfs.discovered tr).Nodup ∧
      Bfs.examinedVertices tr = Bfs.discovered tr ∧ Bfs.finished tr = Bfs.discovered tr := by
  obtain ⟨tr, c, h1, h2, h3, h4, h5, -, -⟩ := C48_single (g := UGraph.toI g) (p := fun _ => true) s [] (fun _ _ => rfl) g.vertices
    (UGraph.reach_mem h hs)
  refine ⟨tr, c, h1, fun v => ?_, h3, h4, h5⟩
  rw [h2, UGraph.through_true, UGraph.reach_iff h]

/-- **C96** (depth first search): `depth_first_search(s, g)` discovers and finishes exactly the vertices connected to `s`, once each, and examines each
edge between them once from each of its ends (a loop, once). -/
theorem C96_dfs {g : Graph} {l : GLog} (h : History UGraph.exec .empty g l) {s : Nat} (hs : s ∈ g.vertices) :
    ∃ c tr, Returns (dfs (UGraph.toI g) (fun _ => true) recorder s [] []) (.ok (c, tr)) ∧
      (discovered tr).Nodup ∧ (finished tr).Perm (discovered tr) ∧ (∀ v, v ∈ discovered tr ↔ Connected (liveUEdges l) s v) ∧
      (examined tr).Nodup ∧
      ∀ e, e ∈ examined tr ↔ Connected (liveUEdges l) s e.source ∧ (e ∈ liveUEdges l ∨ ⟨e.target, e.source, e.distinguisher⟩ ∈ liveUEdges l) := by
  obtain ⟨c, tr, h1, h2, h3, h4, h5, -⟩ := C51_visits (g := UGraph.toI g) (p := fun _ => true) s g.vertices (UGraph.reach_mem h hs)
  rw [UGraph.through_true] at h5
  have hm : ∀ v, v ∈ discovered tr ↔ Connected (liveUEdges l) s v := fun v => by rw [h4, UGraph.through_true, UGraph.reach_iff h]
  refine ⟨c, tr, h1, h2, h3, hm, ?_, fun e => ?_⟩
  · rw [h5.nodup_iff, List.nodup_flatMap]
    refine ⟨fun u _ => ((C06_edges_once h).2.2.2.1 u).1, ?_⟩
    refine h2.imp ?_
    intro a b hab
    simp only [Function.onFun, List.disjoint_left]
    intro e h6 h7
    rw [UGraph.mem_out h] at h6 h7
    exact hab (h6.1.symm.trans h7.1)
  · rw [h5.mem_iff]
    simp only [List.mem_flatMap, hm, UGraph.mem_out h]
    constructor
    · rintro ⟨u, h6, rfl, h7⟩; exact ⟨h6, h7⟩
    · rintro ⟨h6, h7⟩; exact ⟨_, h6, rfl, h7⟩

/-- **C96** (components): on an `UndirectedGraph`, `strong_components` computes the connected components: two vertices receive the same identifier iff
they are connected, and the identifiers are exactly `0, …, total - 1`. -/
theorem C96_components {g : Graph} {l : GLog} (h : History UGraph.exec .empty g l) (comp₀ : Dict Nat (Option Nat)) :
    ∃ total comp, Returns (strongComponents (UGraph.toI g) comp₀) (.ok (total, comp)) ∧
    ∃ id : Nat → Nat, (∀ v ∈ g.vertices, comp.get? v = some (some (id v))) ∧
      (∀ u ∈ g.vertices, ∀ v ∈ g.vertices, id u = id v ↔ Connected (liveUEdges l) u v) ∧
      (∀ v ∈ g.vertices, id v < total) ∧ ∀ k < total, ∃ v ∈ g.vertices, id v = k := by
  obtain ⟨total, comp, h1, id, h2, h3, h4, h5, -⟩ := C55_components (UGraph.closed h) comp₀
  refine ⟨total, comp, h1, id, h2, fun u hu v hv => ?_, h4, h5⟩
  rw [h3 u hu v hv, UGraph.reach_iff h, UGraph.reach_iff h]
  exact ⟨fun k => k.1, fun k => ⟨k, k.symm⟩⟩

/-- **C96** (topological sort): an undirected edge is a cycle of length 2, so that `topological_sort` raises `RuntimeError` on every `UndirectedGraph`
that has an edge, and lists the vertices of the others. -/
theorem C96_topological_sort {g : Graph} {l : GLog} (h : History UGraph.exec .empty g l) :
    (UGraph.edges g ≠ [] → Returns (topologicalSort (UGraph.toI g) none) (.error .runtimeError)) ∧
    (UGraph.edges g = [] → ∃ r, Returns (topologicalSort (UGraph.toI g) none) (.ok r) ∧ r.Perm g.vertices) := by
  have hc := C06_edges_once h
  have hi := UGraph.history_inv h
  constructor
  · intro hne
    obtain ⟨e, he⟩ := List.exists_mem_of_ne_nil _ hne
    rw [hc.2.2.1] at he
    refine C54_cyclic (UGraph.closed h) ⟨e.source, (hi.src e he).1, [e, ⟨e.target, e.source, e.distinguisher⟩], by simp, ?_⟩ none
    refine .cons ((UGraph.mem_out h _ _).2 ⟨rfl, Or.inl he⟩) (.cons (e := ⟨e.target, e.source, e.distinguisher⟩) ((UGraph.mem_out h _ _).2 ⟨rfl, Or.inr he⟩) (.nil _))
  · intro hnil
    have hno : ∀ u e, e ∉ (UGraph.toI g).outEdges u := by
      intro u e he
      rw [UGraph.mem_out h] at he
      rcases he.2 with h1 | h1 <;> (rw [← hc.2.2.1, hnil] at h1; cases h1)
    obtain ⟨r, h1, h2, -⟩ := C54_acyclic (g := UGraph.toI g) hc.2.2.2.2.2 (UGraph.closed h) (by
      rintro ⟨u, -, es, hne, hp⟩
      cases hp with
      | nil => exact hne rfl
      | cons he _ => exact hno _ _ he) none
    refine ⟨r, by simpa using h1, h2⟩

/-! Non-vacuity: three vertices, the second edge added from its greater end, so that vertex 0 and vertex 1 are connected and vertex 3 is not. -/

example : ∃ g l, History UGraph.exec .empty g l ∧ g.vertices = [0, 1, 2, 3] ∧ 0 ∈ g.vertices ∧ UGraph.edges g = [⟨0, 2, 0⟩, ⟨1, 2, 0⟩] ∧
    Connected (liveUEdges l) 0 1 := by
  have h1 := History.start (exec := UGraph.exec) (s0 := .empty)
  have h2 := h1.call (op := .addVertex) rfl
  have h3 := h2.call (op := .addVertex) rfl
  have h4 := h3.call (op := .addVertex) rfl
  have h5 := h4.call (op := .addVertex) rfl
  have h6 := h5.call (op := .addEdge 0 2) rfl
  have h7 := h6.call (op := .addEdge 2 1) rfl
  refine ⟨_, _, h7, rfl, by decide, rfl, ?_⟩
  exact Connected.back (e := ⟨1, 2, 0⟩) (.forth (e := ⟨0, 2, 0⟩) .refl (by decide)) (by decide)

end PyBGL
