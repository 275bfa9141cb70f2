import Verif.Proofs.IncidenceGraph
import Verif.Props.C01_C05_DirectedGraph

/-!
# C08: `IncidenceGraph`
-/

namespace PyBGL
open IGraph

/-- **C08** (in-edges mirror out-edges): after any history `in_edges(v)` yields exactly the edges of
target `v`, `out_edges(u)` exactly the edges of source `u`, and `edges()` exactly the live edges. -/
theorem C08_in_edges {g : IGraph} {l : GLog} (h : History IGraph.exec .empty g l) :
    (∀ v, (g.inEdges v).Nodup ∧ ∀ e, e ∈ g.inEdges v ↔ e ∈ g.edges ∧ e.target = v) ∧
    (∀ u, (g.outEdges u).Nodup ∧ ∀ e, e ∈ g.outEdges u ↔ e ∈ g.edges ∧ e.source = u) ∧
    (∀ e, e ∈ g.edges ↔ e ∈ liveEdges l) ∧ g.edges.Nodup ∧
    (∀ u, u ∈ g.vertices ↔ u ∈ liveVertices l) ∧ g.vertices.Nodup := by
  have hi := history_inv h
  refine ⟨?_, ?_, ?_, Graph.nodup_edges hi.wf.out, hi.verts, hi.wf.out.outer⟩
  · intro v
    refine ⟨nodup_inEdges hi.wf v, ?_⟩
    intro e
    simp only [edges]
    rw [mem_inEdges hi.wf, Graph.mem_edges hi.wf.out, and_comm]
  · intro u
    refine ⟨Graph.nodup_outEdges hi.wf.out u, ?_⟩
    intro e
    simp only [edges, outEdges]
    rw [Graph.mem_outEdges hi.wf.out, Graph.mem_edges hi.wf.out, and_comm]
  · intro e
    simp only [edges]
    rw [Graph.mem_edges hi.wf.out, hi.eds]

/-- Counting a duplicate-free list by the value of a key. -/
theorem length_eq_sum_filter {E : Type} (key : E → Nat) (es : List E) (vs : List Nat) (hvs : vs.Nodup)
    (hk : ∀ e ∈ es, key e ∈ vs) :
    es.length = (vs.map fun v => (es.filter fun e => key e = v).length).sum := by
  induction es with
  | nil => simp
  | cons e es ih =>
    have hk' := hk e (by simp)
    rw [List.length_cons, ih (fun x hx => hk x (by simp [hx]))]
    clear ih hk
    have : ∀ v, ((e :: es).filter fun e => key e = v).length =
        (es.filter fun e => key e = v).length + (if key e = v then 1 else 0) := by
      intro v; by_cases h : key e = v <;> simp [h]
    simp only [this]
    have hsum : ∀ (l : List Nat) (f h : Nat → Nat), (l.map fun v => f v + h v).sum = (l.map f).sum + (l.map h).sum := by
      intro l f h
      induction l with
      | nil => rfl
      | cons a l ih => simp only [List.map_cons, List.sum_cons, ih]; omega
    rw [hsum]
    have hone : (vs.map fun v => if key e = v then 1 else 0).sum = 1 := by
      clear this hsum
      induction vs with
      | nil => simp at hk'
      | cons a l ih =>
        rw [List.nodup_cons] at hvs
        simp only [List.map_cons, List.sum_cons]
        by_cases h : key e = a
        · have hz : (l.map fun v => if key e = v then 1 else 0).sum = 0 := by
            have hl : ∀ (l' : List Nat), (∀ v ∈ l', key e ≠ v) →
                (l'.map fun v => if key e = v then 1 else 0).sum = 0 := by
              intro l' hl'
              induction l' with
              | nil => rfl
              | cons b l' ih' =>
                simp only [List.map_cons, List.sum_cons, ih' (fun v hv => hl' v (by simp [hv]))]
                simp [hl' b (by simp)]
            exact hl l (fun v hv hvk => hvs.1 (h ▸ hvk ▸ hv))
          simp [h] at hz ⊢
          exact hz
        · have : key e ∈ l := by simpa [h] using hk'
          rw [ih hvs.2 this]; simp [h]
    rw [hone]

/-- **C08** (degree sums): the in-degrees and the out-degrees both sum up to `num_edges()`. -/
theorem C08_degree_sums {g : IGraph} {l : GLog} (h : History IGraph.exec .empty g l) :
    (g.vertices.map g.inDegree).sum = g.g.numEdges ∧ (g.vertices.map g.g.outDegree).sum = g.g.numEdges := by
  have hi := history_inv h
  obtain ⟨h1, h2, h3, h4, h5, h6⟩ := C08_in_edges h
  have perm : ∀ (l1 l2 : List (EdgeDesc Nat)), l1.Nodup → l2.Nodup → (∀ e, e ∈ l1 ↔ e ∈ l2) →
      l1.length = l2.length := fun l1 l2 n1 n2 hm => ((List.perm_ext_iff_of_nodup n1 n2).2 hm).length_eq
  constructor
  · rw [show g.g.numEdges = g.edges.length from rfl,
      length_eq_sum_filter (fun e => e.target) g.edges g.vertices h6
        (fun e he => (hi.src e ((h3 e).1 he)).2)]
    congr 1
    apply List.map_congr_left
    intro v _
    refine perm _ _ (h1 v).1 (h4.filter _) ?_
    intro e; rw [(h1 v).2, List.mem_filter]; simp
  · rw [show g.g.numEdges = g.edges.length from rfl,
      length_eq_sum_filter (fun e => e.source) g.edges g.vertices h6
        (fun e he => (hi.src e ((h3 e).1 he)).1)]
    congr 1
    apply List.map_congr_left
    intro u _
    refine perm _ _ (h2 u).1 (h4.filter _) ?_
    intro e
    rw [List.mem_filter]
    have := (h2 u).2 e
    simpa [outEdges] using this

example : ∃ g l, History IGraph.exec .empty g l ∧ g.vertices = [0, 1, 3] ∧
    g.edges = [⟨0, 1, 1⟩, ⟨0, 1, 2⟩, ⟨1, 1, 0⟩] ∧ g.inEdges 1 = [⟨0, 1, 1⟩, ⟨0, 1, 2⟩, ⟨1, 1, 0⟩] ∧
    g.inEdges 0 = [] := by
  refine ⟨_, _, runCalls_history exampleCalls .start rfl, ?_, ?_, ?_, ?_⟩ <;> decide

end PyBGL
