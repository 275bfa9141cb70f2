import Verif.Proofs.NodeAutomaton

/-!
# `clear` on node automata
-/

namespace PyBGL
variable {A : Type} [DecidableEq A]

namespace NodeAutomaton

/-- The automaton with another counter. -/
def withLast (g : NodeAutomaton A) (n : Nat) : NodeAutomaton A := ⟨{ g.a with lastVertexId := n }, g.symbols⟩

theorem removeEdge_last (g : NodeAutomaton A) (n : Nat) (e : EdgeDesc (Option A)) : (g.withLast n).removeEdge e = (g.removeEdge e).withLast n := by
  rw [removeEdge_eq, removeEdge_eq]
  show (⟨Automaton.removeEdge { g.a with lastVertexId := n } _, g.symbols⟩ : NodeAutomaton A) = _
  rw [Automaton.removeEdge_last]
  rfl

theorem foldl_removeEdge_last (n : Nat) : ∀ (es : List (EdgeDesc (Option A))) (g : NodeAutomaton A),
    es.foldl removeEdge (g.withLast n) = (es.foldl removeEdge g).withLast n
  | [], _ => rfl
  | e :: es, g => by
    rw [List.foldl_cons, List.foldl_cons, removeEdge_last]
    exact foldl_removeEdge_last n es _

theorem removeVertex_last (g : NodeAutomaton A) (n u : Nat) : (g.withLast n).removeVertex u = (g.removeVertex u).map fun g' => g'.withLast n := by
  have h1 := foldl_removeEdge_last n (g.edges.filter fun e => u = e.target) g
  unfold removeVertex
  simp only [show edges (g.withLast n) = g.edges from rfl]
  rw [h1]
  generalize (g.edges.filter fun e => u = e.target).foldl removeEdge g = g1
  rw [show (g1.withLast n).outEdges u = g1.outEdges u from rfl]
  cases g1.outEdges u with
  | error e => rfl
  | ok es =>
    simp only [bind, Except.bind]
    rw [foldl_removeEdge_last n]
    generalize es.foldl removeEdge g1 = g2
    rw [show (g2.withLast n).a.adj.delE u = g2.a.adj.delE u from rfl]
    cases g2.a.adj.delE u <;> rfl

theorem removeVertices_last (n : Nat) : ∀ (us : List Nat) (g : NodeAutomaton A),
    us.foldlM removeVertex (g.withLast n) = (us.foldlM removeVertex g).map fun g' => g'.withLast n
  | [], _ => rfl
  | u :: us, g => by
    rw [List.foldlM_cons, List.foldlM_cons, removeVertex_last]
    cases g.removeVertex u with
    | error e => rfl
    | ok g1 => exact removeVertices_last n us g1

theorem removeVertex_keeps {g : NodeAutomaton A} (hw : WF g) {u : Nat} (hu : u ∈ g.vertices) :
    ∃ g', g.removeVertex u = .ok g' ∧ WF g' ∧ g'.symbols = g.symbols ∧ g'.vertices = g.vertices.filter (· ≠ u) ∧ g'.a.q0 = g.a.q0 ∧ g'.a.final = g.a.final := by
  obtain ⟨g1, h1, h2, h3, h4, -⟩ := removeVertex_spec hw hu
  obtain ⟨a1, b1, -, -, -, b5, b6, -⟩ := Automaton.removeVertex_spec hw.out hu
  have : g1 = ⟨a1, g.symbols⟩ := by
    have h := removeVertex_eq hw hu
    rw [h1, b1] at h
    exact Except.ok.inj h
  subst this
  exact ⟨_, h1, h2, rfl, h4, b5, b6⟩

theorem removeVertices_spec : ∀ (us : List Nat) {g : NodeAutomaton A}, WF g → us.Nodup → (∀ u ∈ us, u ∈ g.vertices) →
    ∃ g', us.foldlM removeVertex g = .ok g' ∧ WF g' ∧ g'.symbols = g.symbols ∧ g'.a.q0 = g.a.q0 ∧ g'.a.final = g.a.final ∧ ∀ u, u ∈ g'.vertices ↔ u ∈ g.vertices ∧ u ∉ us
  | [], g, hg, _, _ => ⟨g, rfl, hg, rfl, rfl, rfl, by simp⟩
  | u :: us, g, hg, hnd, h => by
    rw [List.nodup_cons] at hnd
    obtain ⟨g1, a1, a2, a4, a3, a5, a6⟩ := removeVertex_keeps hg (h u (by simp))
    have hm : ∀ x, x ∈ g1.vertices ↔ x ∈ g.vertices ∧ x ≠ u := by
      intro x; rw [a3]; simp
    obtain ⟨g2, b1, b2, b0, b3, b4, b5⟩ := removeVertices_spec us a2 hnd.2 (fun x hx => (hm x).mpr ⟨h x (by simp [hx]), fun e => hnd.1 (e ▸ hx)⟩)
    refine ⟨g2, ?_, b2, b0.trans a4, b3.trans a5, b4.trans a6, fun x => ?_⟩
    · rw [List.foldlM_cons, a1]; exact b1
    · rw [b5, hm]; simp [and_assoc]

/-- `clear` removes every state and transition and resets the counter; it keeps the initial state, the final flags and the symbols. -/
theorem clear_spec {g : NodeAutomaton A} (hg : WF g) : g.clear = .ok ⟨⟨0, [], g.a.q0, g.a.final⟩, g.symbols⟩ := by
  obtain ⟨g1, a1, a2, a0, a3, a4, a5⟩ := removeVertices_spec g.vertices hg hg.out.outer (fun _ h => h)
  unfold clear
  show g.vertices.foldlM removeVertex (g.withLast 0) = _
  rw [removeVertices_last, a1]
  have hk : g1.vertices = [] := List.eq_nil_iff_forall_not_mem.mpr fun x hx => ((a5 x).mp hx).2 ((a5 x).mp hx).1
  obtain ⟨⟨n, adj, q0, f⟩, i⟩ := g1
  unfold vertices Automaton.vertices Dict.keys at hk
  have hk' := List.map_eq_nil_iff.mp hk
  simp only at hk' a0 a3 a4
  subst hk' a0 a3 a4
  rfl

end NodeAutomaton

namespace INodeAutomaton

/-- The automaton with another counter. -/
def withLast (g : INodeAutomaton A) (n : Nat) : INodeAutomaton A := ⟨g.n.withLast n, g.pred⟩

theorem removeVertex_last (g : INodeAutomaton A) (n u : Nat) : (g.withLast n).removeVertex u = (g.removeVertex u).map fun g' => g'.withLast n := by
  unfold removeVertex
  have h : (g.withLast n).dropIn u = g.dropIn u := rfl
  rw [h]
  cases g.dropIn u with
  | error e => rfl
  | ok p =>
    obtain ⟨adj, pred⟩ := p
    simp only [bind, Except.bind]
    by_cases hc : adj.contains u = true
    · rw [if_pos hc, if_pos hc]
      have ho : NodeAutomaton.outEdges (⟨{ (g.withLast n).n.a with adj := adj }, (g.withLast n).n.symbols⟩ : NodeAutomaton A) u =
          NodeAutomaton.outEdges (⟨{ g.n.a with adj := adj }, g.n.symbols⟩ : NodeAutomaton A) u := rfl
      rw [ho]
      cases NodeAutomaton.outEdges (⟨{ g.n.a with adj := adj }, g.n.symbols⟩ : NodeAutomaton A) u with
      | error e => rfl
      | ok es =>
        simp only
        cases adj.delE u <;> rfl
    · rw [if_neg hc, if_neg hc]; rfl

theorem removeVertices_last (n : Nat) : ∀ (us : List Nat) (g : INodeAutomaton A),
    us.foldlM removeVertex (g.withLast n) = (us.foldlM removeVertex g).map fun g' => g'.withLast n
  | [], _ => rfl
  | u :: us, g => by
    rw [List.foldlM_cons, List.foldlM_cons, removeVertex_last]
    cases g.removeVertex u with
    | error e => rfl
    | ok g1 => exact removeVertices_last n us g1

theorem removeVertex_q0 {g g' : INodeAutomaton A} {u : Nat} (h : g.removeVertex u = .ok g') : g'.n.a.q0 = g.n.a.q0 ∧ g'.n.a.final = g.n.a.final := by
  unfold removeVertex at h
  cases hd : g.dropIn u with
  | error e => rw [hd] at h; cases h
  | ok p =>
    obtain ⟨adj, pred⟩ := p
    rw [hd] at h
    simp only [bind, Except.bind] at h
    by_cases hc : adj.contains u = true
    · rw [if_pos hc] at h
      cases ho : NodeAutomaton.outEdges (⟨{ g.n.a with adj := adj }, g.n.symbols⟩ : NodeAutomaton A) u with
      | error e => simp [ho] at h
      | ok es =>
        simp only [ho] at h
        cases hx : adj.delE u with
        | error e => rw [hx] at h; cases h
        | ok adj' => rw [hx] at h; cases h; exact ⟨rfl, rfl⟩
    · rw [if_neg hc] at h; cases h; exact ⟨rfl, rfl⟩

theorem removeVertices_spec : ∀ (us : List Nat) {g : INodeAutomaton A}, WF g →
    ∃ g', us.foldlM removeVertex g = .ok g' ∧ WF g' ∧ g'.n.symbols = g.n.symbols ∧ g'.n.a.q0 = g.n.a.q0 ∧ g'.n.a.final = g.n.a.final ∧
      ∀ u, u ∈ g'.n.vertices ↔ u ∈ g.n.vertices ∧ u ∉ us
  | [], g, hg => ⟨g, rfl, hg, rfl, rfl, rfl, by simp⟩
  | u :: us, g, hg => by
    obtain ⟨g1, a1, a2, a4, a3, -⟩ := removeVertex_spec hg u
    obtain ⟨a5, a6⟩ := removeVertex_q0 a1
    have hm : ∀ x, x ∈ g1.n.vertices ↔ x ∈ g.n.vertices ∧ x ≠ u := by
      intro x; rw [a3]; simp
    obtain ⟨g2, b1, b2, b0, b3, b4, b5⟩ := removeVertices_spec us a2
    refine ⟨g2, ?_, b2, b0.trans a4, b3.trans a5, b4.trans a6, fun x => ?_⟩
    · rw [List.foldlM_cons, a1]; exact b1
    · rw [b5, hm]; simp [and_assoc]

/-- `clear` removes every state and transition and resets the counter; it keeps the initial state, the final flags and the symbols. -/
theorem clear_spec {g : INodeAutomaton A} (hg : WF g) :
    ∃ pred, g.clear = .ok ⟨⟨⟨0, [], g.n.a.q0, g.n.a.final⟩, g.n.symbols⟩, pred⟩ ∧ ∀ r, pred.getD r [] = [] := by
  obtain ⟨g1, a1, a2, a0, a3, a4, a5⟩ := removeVertices_spec g.n.vertices hg
  have hk : g1.n.vertices = [] := List.eq_nil_iff_forall_not_mem.mpr fun x hx => ((a5 x).mp hx).2 ((a5 x).mp hx).1
  have hp : ∀ r, g1.pred.getD r [] = [] := by
    intro r
    refine List.eq_nil_iff_forall_not_mem.mpr fun q hq => ?_
    have := a2.n.closed _ _ _ ((a2.mirror q r).mp hq)
    unfold NodeAutomaton.vertices at hk
    rw [hk] at this; cases this
  refine ⟨g1.pred, ?_, hp⟩
  unfold clear
  show g.n.vertices.foldlM removeVertex (g.withLast 0) = _
  rw [removeVertices_last, a1]
  obtain ⟨⟨⟨n, adj, q0, f⟩, i⟩, p⟩ := g1
  unfold NodeAutomaton.vertices Automaton.vertices Dict.keys at hk
  have hk' := List.map_eq_nil_iff.mp hk
  simp only at hk' a0 a3 a4
  subst hk' a0 a3 a4
  rfl

end INodeAutomaton
end PyBGL
