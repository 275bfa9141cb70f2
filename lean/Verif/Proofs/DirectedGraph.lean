import Verif.Spec.GraphHistory
import Verif.Proofs.GraphLemmas

namespace PyBGL.Graph

/-- Everything the histories of a `DirectedGraph` maintain. -/
structure HInv (g : Graph) (l : GLog) : Prop where
  wf : AdjWF g.adj
  issued : ∀ u ∈ issuedVertices l, u < g.lastVertexId
  bound : ∀ u ∈ g.vertices, u < g.lastVertexId
  verts : ∀ u, u ∈ g.vertices ↔ u ∈ liveVertices l
  eds : ∀ e : EdgeDesc Nat, e.distinguisher ∈ lk g.adj e.source e.target ↔ e ∈ liveEdges l
  src : ∀ e ∈ liveEdges l, e.source ∈ g.vertices

theorem except_map_ok {α β : Type} {x : Except PyErr α} {f : α → β} {b : β}
    (h : x.map f = .ok b) : ∃ a, x = .ok a ∧ f a = b := by
  cases x with
  | error e => simp [Except.map] at h
  | ok a => exact ⟨a, rfl, by simpa [Except.map] using h⟩

theorem addVertex_inv {g : Graph} {l : GLog} (hi : HInv g l) :
    HInv g.addVertex.2 ((.addVertex, .vertex g.addVertex.1) :: l) := by
  have hne : ∀ e ∈ liveEdges l, e.source ≠ g.lastVertexId := by
    intro e he h
    have := hi.bound _ (hi.src e he)
    omega
  have hnew : g.lastVertexId ∉ g.vertices := fun h => by have := hi.bound _ h; omega
  refine ⟨hi.wf.addKey _, ?_, ?_, ?_, ?_, ?_⟩
  · intro u hu
    simp only [issuedVertices, addVertex, List.mem_cons] at hu ⊢
    rcases hu with rfl | hu
    · omega
    · have := hi.issued u hu; omega
  · intro u hu
    simp only [vertices, addVertex, Dict.mem_keys_set] at hu ⊢
    rcases hu with rfl | hu
    · omega
    · have := hi.bound u hu; omega
  · intro u
    simp only [vertices, addVertex, Dict.mem_keys_set, liveVertices, List.mem_cons]
    rw [show u ∈ Dict.keys g.adj ↔ _ from hi.verts u]
  · intro e
    show _ ↔ e ∈ liveEdges l
    simp only [addVertex, lk_addKey]
    split
    · rename_i h
      constructor
      · intro h; simp at h
      · intro he; exact absurd h.symm (hne e he)
    · exact hi.eds e
  · intro e he
    have := hi.src e he
    simp only [vertices, addVertex, Dict.mem_keys_set]
    exact Or.inr this

theorem exec_inv {g g' : Graph} {l : GLog} {op : GOp} {out : GOut} (hi : HInv g l)
    (h : g.exec op = .ok (out, g')) : HInv g' ((op, out) :: l) := by
  cases op with
  | addVertex =>
    simp only [exec, Except.ok.injEq, Prod.mk.injEq] at h
    obtain ⟨rfl, rfl⟩ := h
    exact addVertex_inv hi
  | addEdge u v =>
    obtain ⟨⟨e, g1⟩, h1, h2⟩ := except_map_ok h
    simp only [Prod.mk.injEq] at h2
    obtain ⟨rfl, rfl⟩ := h2
    by_cases hu : u ∈ g.vertices
    · obtain ⟨n, g2, a, b, c, d, e', f⟩ := addEdge_spec hi.wf u v hu
      rw [a] at h1
      simp only [Except.ok.injEq, Prod.mk.injEq] at h1
      obtain ⟨rfl, rfl⟩ := h1
      refine ⟨b, ?_, ?_, ?_, ?_, ?_⟩
      · rw [d]; exact hi.issued
      · rw [d, e']; exact hi.bound
      · rw [e']; exact hi.verts
      · rintro ⟨x, y, m⟩
        rw [f, hi.eds ⟨x, y, m⟩]
        simp [liveEdges, or_comm]
      · intro e he
        rw [e']
        simp only [liveEdges, List.mem_cons] at he
        rcases he with rfl | he
        · exact hu
        · exact hi.src e he
    · rw [addEdge_error u v hu] at h1; simp at h1
  | removeEdge e =>
    obtain ⟨g1, h1, h2⟩ := except_map_ok h
    simp only [Prod.mk.injEq] at h2
    obtain ⟨rfl, rfl⟩ := h2
    by_cases he : e.distinguisher ∈ lk g.adj e.source e.target
    · obtain ⟨g2, a, b, c, d, -, f⟩ := removeEdge_spec hi.wf e he
      rw [a] at h1
      simp only [Except.ok.injEq] at h1
      subst h1
      refine ⟨b, ?_, ?_, ?_, ?_, ?_⟩
      · rw [c]; exact hi.issued
      · rw [c, d]; exact hi.bound
      · rw [d]; exact hi.verts
      · rintro ⟨x, y, m⟩
        rw [f, hi.eds ⟨x, y, m⟩]
        obtain ⟨p, q, r⟩ := e
        simp only [liveEdges, List.mem_filter, ne_eq, decide_eq_true_eq, EdgeDesc.mk.injEq]
      · intro e he
        rw [d]
        simp only [liveEdges, List.mem_filter] at he
        exact hi.src e he.1
    · have hle : (liveEdges l).filter (· ≠ e) = liveEdges l := by
        rw [List.filter_eq_self]
        intro x hx
        simp only [ne_eq, decide_not, Bool.not_eq_eq_eq_not, Bool.not_true, decide_eq_false_iff_not]
        rintro rfl
        exact he ((hi.eds _).2 hx)
      rcases removeEdge_absent e he with h3 | h3
      · rw [h3] at h1; simp at h1
      · rw [h3] at h1
        simp only [Except.ok.injEq] at h1
        subst h1
        refine ⟨hi.wf, hi.issued, hi.bound, hi.verts, ?_, ?_⟩
        · intro x; simp only [liveEdges, hle]; exact hi.eds x
        · intro x; simp only [liveEdges, hle]; exact hi.src x
  | removeVertex u =>
    obtain ⟨g1, h1, h2⟩ := except_map_ok h
    simp only [Prod.mk.injEq] at h2
    obtain ⟨rfl, rfl⟩ := h2
    by_cases hu : u ∈ g.vertices
    · obtain ⟨g2, a, b, c, d, f⟩ := removeVertex_spec hi.wf u hu
      rw [a] at h1
      simp only [Except.ok.injEq] at h1
      subst h1
      have hv : ∀ x, x ∈ g2.vertices ↔ x ∈ g.vertices ∧ x ≠ u := by
        intro x; rw [d]; simp [vertices]
      refine ⟨b, ?_, ?_, ?_, ?_, ?_⟩
      · rw [c]; exact hi.issued
      · intro x hx; rw [c]; exact hi.bound x ((hv x).1 hx).1
      · intro x; rw [hv, hi.verts]; simp [liveVertices]
      · intro e
        rw [f, hi.eds e]
        simp [liveEdges]
      · intro e he
        simp only [liveEdges, List.mem_filter, decide_eq_true_eq] at he
        rw [hv]
        exact ⟨hi.src e he.1, he.2.1⟩
    · rw [removeVertex_absent hi.wf u hu] at h1; simp at h1
  | clear =>
    obtain ⟨g1, h1, h2⟩ := except_map_ok h
    simp only [Prod.mk.injEq] at h2
    obtain ⟨rfl, rfl⟩ := h2
    rw [clear_spec hi.wf] at h1
    simp only [Except.ok.injEq] at h1
    subst h1
    refine ⟨adjWF_nil, ?_, ?_, ?_, ?_, ?_⟩ <;> simp [issuedVertices, liveVertices, liveEdges, vertices, Dict.keys, lk]

theorem history_inv {g : Graph} {l : GLog} (h : History exec .empty g l) : HInv g l := by
  induction h with
  | start =>
    refine ⟨adjWF_nil, ?_, ?_, ?_, ?_, ?_⟩ <;>
      simp [issuedVertices, liveVertices, liveEdges, vertices, Dict.keys, lk, empty]
  | call _ he ih => exact exec_inv ih he

end PyBGL.Graph
