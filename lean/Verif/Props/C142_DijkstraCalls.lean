import Verif.Proofs.DijkstraCalls
import Verif.Props.C140_DijkstraAny

/-!
# C142: the calls received by a `DijkstraVisitor`

C60 and C140 tell which vertices and arcs are examined. C142 gives the whole sequence of calls, with `edge_relaxed` and `edge_not_relaxed`, and the maps left by the
search, as those of someone who examines the same vertices with a notebook and no heap (see `Verif.Spec.DijkstraCalls`).
-/

namespace PyBGL
open Dijkstra Notebook
variable {V E D : Type} [DecidableEq V] [DecidableEq E] [DecidableEq D] {g : GraphI V E} {s : V}

/-- **C142**: whatever the weights, `compare`, `combine` and the maps given, the search ends without error. The visitor is first told of each vertex of the graph;
then, for each vertex examined, of each arc that leaves it, which is reported as relaxed if it improves the distance of its target or equals it, and as not relaxed
otherwise; the target is discovered, before the report, the first time that it is improved. If the visitor stops the search when `u` is examined, the last call is
the examination of `u`. The distances, the predecessor arcs and the white vertices at the end are those of the notebook. -/
theorem C142_calls_exact (a : DijkstraArgs E D) (hg : g.Closed) (hs : s ∈ g.vertices) (stop : V → Bool) (dist : Dict V D) (preds : Dict V (List E))
    (color : Dict V Color) :
    ∃ b st us evs n, Returns (dijkstraFrom a g s stop dist preds color) (.ok (b, st)) ∧
      Examines a.compare a.combine a.weight g
        ⟨fun v => if v ∈ g.vertices then (if v = s then a.zero else a.infty) else dist.getD v a.dflt, fun v e => e ∈ preds.getD v [],
          fun v => v = s ∨ colorOf color v = .white⟩ us evs n ∧
      (∀ u ∈ us, stop u = false) ∧
      ((b = false ∧ st.trace = g.vertices.map .initializeVertex ++ evs) ∨
        (b = true ∧ ∃ u, stop u = true ∧ st.trace = g.vertices.map .initializeVertex ++ evs ++ [.examineVertex u])) ∧
      (∀ v, st.distOf a v = n.dist v) ∧ (∀ v e, e ∈ st.predsOf v ↔ n.preds v e) ∧ (∀ v, colorOf st.color v = .white ↔ n.fresh v) := by
  obtain ⟨b, st, hr, _⟩ := C140_any a hg hs stop dist preds color
  obtain ⟨N, hN⟩ := id hr
  have ht := told_init (a := a) (g := g) (s := s) dist preds color
  have hs₀ : ∀ u ∈ finished (dijkstraInitFrom a g s dist preds color).trace, stop u = false := by
    obtain ⟨_, _, _, h4⟩ := initFold (a := a) (s := s) g.vertices ⟨dist, preds, color.set s .white, ⟨[], 0⟩, []⟩
    have : (dijkstraInitFrom a g s dist preds color).trace = g.vertices.map .initializeVertex := h4.trans (by simp)
    rw [this]
    simp [finished]
  obtain ⟨us, evs, n, h1, h2, h3, h4⟩ := told_run stop ht hs₀ (hN N (Nat.le_refl N))
  exact ⟨b, st, us, evs, n, hr, h1, h3, h4, fun v => (h2.dist v).symm, fun v e => (h2.preds v e).symm, fun v => (h2.fresh v).symm⟩

/-- **C142**: the calls and the notebook at the end are determined by the vertices examined. -/
theorem C142_determined (a : DijkstraArgs E D) {n n₁ n₂ : Notebook V E D} {us : List V} {ev₁ ev₂ : List (DijkstraEvent V E)}
    (h₁ : Examines a.compare a.combine a.weight g n us ev₁ n₁) (h₂ : Examines a.compare a.combine a.weight g n us ev₂ n₂) : ev₁ = ev₂ ∧ n₁ = n₂ :=
  examines_det h₁ h₂

/-- **C142**: each predecessor arc that was not there before has been reported by `edge_relaxed`. -/
theorem C142_predecessors_reported (a : DijkstraArgs E D) (hg : g.Closed) (hs : s ∈ g.vertices) (stop : V → Bool) (dist : Dict V D)
    (preds : Dict V (List E)) (color : Dict V Color) :
    ∃ b st, Returns (dijkstraFrom a g s stop dist preds color) (.ok (b, st)) ∧
      ∀ v, ∀ e ∈ st.predsOf v, e ∈ preds.getD v [] ∨ .edgeRelaxed e ∈ st.trace := by
  obtain ⟨b, st, us, evs, n, hr, h1, _, h4, _, h6, _⟩ := C142_calls_exact a hg hs stop dist preds color
  refine ⟨b, st, hr, fun v e he => (examines_preds h1 v e ((h6 v e).mp he)).imp id fun h => ?_⟩
  rcases h4 with ⟨_, h4⟩ | ⟨_, u, _, h4⟩ <;> rw [h4] <;> simp [h]

/-- **C142** (`compare`, `combine`, `zero` and `infty` as in C64): no best path ends with an arc reported by `edge_not_relaxed`: at the end, passing through it is
strictly worse than the distance of its target. -/
theorem C142_not_relaxed {W : D → Prop} {weight : E → D} {compare : D → D → Bool} {combine : D → D → D} {zero infty dflt : D}
    (h : SelectiveAlgebra compare combine zero infty W) (hg : g.Closed) (hs : s ∈ g.vertices) (hW : ∀ u ∈ g.vertices, ∀ e ∈ g.outEdges u, W (weight e))
    (stop : V → Bool) (dist : Dict V D) (preds : Dict V (List E)) (hp : ∀ v, preds.getD v [] = []) :
    ∃ b st, Returns (dijkstra (argsWith weight compare combine zero infty dflt) g s stop dist preds) (.ok (b, st)) ∧
      ∀ e, .edgeNotRelaxed e ∈ st.trace → ∃ u ∈ examined st.trace, e ∈ g.outEdges u ∧
        compare (st.dist.getD (g.target e) dflt) (combine (st.dist.getD u dflt) (weight e)) = true := by
  have hy := hyp_with (dflt := dflt) h hg hs hW
  obtain ⟨r, st, bs, h1, _⟩ := run hy stop dist hp
  obtain ⟨N, hN⟩ := id h1
  exact ⟨r, st, h1, worse_run hy stop dist hp (hN N (Nat.le_refl N))⟩

/-- **C142**, with the default arguments: at the end, `dist[target(e)] < dist[u] + weight(e)` for each arc `e` from `u` reported by `edge_not_relaxed`. -/
theorem C142_not_relaxed_default {weight : E → Int} {dflt : Int} (hg : g.Closed) (hs : s ∈ g.vertices)
    (hW : ∀ u ∈ g.vertices, ∀ e ∈ g.outEdges u, 0 ≤ weight e) (stop : V → Bool) (dist : Dict V Int) (preds : Dict V (List E))
    (hp : ∀ v, preds.getD v [] = []) :
    ∃ b st, Returns (dijkstra (argsDefault weight dflt) g s stop dist preds) (.ok (b, st)) ∧
      ∀ e, .edgeNotRelaxed e ∈ st.trace → ∃ u ∈ examined st.trace, e ∈ g.outEdges u ∧
        st.dist.getD (g.target e) dflt < st.dist.getD u dflt + weight e := by
  have hy := hyp_default (dflt := dflt) hg hs hW
  obtain ⟨r, st, bs, h1, _, h3⟩ := run hy stop dist hp
  obtain ⟨N, hN⟩ := id h1
  refine ⟨r, st, h1, fun e he => ?_⟩
  obtain ⟨u, k1, k2, k3⟩ := worse_run hy stop dist hp (hN N (Nat.le_refl N)) e he
  refine ⟨u, k1, k2, ?_⟩
  have hd : ∃ p, IsPath g s p u ∧ st.distOf (argsDefault weight dflt) u < INFINITY ∧
      pathWeight (closedPlus INFINITY) 0 weight p = st.distOf (argsDefault weight dflt) u := by
    rcases h3 with ⟨_, i, _⟩ | ⟨_, u', _, i⟩
    · rw [i.trEx] at k1
      obtain ⟨j1, p, j2, j3⟩ := i.disc u (.inr (by simpa using k1))
      exact ⟨p, j2, by simpa [argsDefault, less] using j1, j3⟩
    · rw [i.trEx, List.mem_append] at k1
      have : Open s st u ∨ u ∈ bs := by
        rcases k1 with k1 | k1
        · exact .inr k1
        · exact .inl (i.curOk u (by simpa [eq_comm] using k1))
      obtain ⟨j1, p, j2, j3⟩ := i.disc u this
      exact ⟨p, j2, by simpa [argsDefault, less] using j1, j3⟩
  obtain ⟨p, j1, j2, j3⟩ := hd
  obtain ⟨m1, m2, m3⟩ := pathWeight_plus weight p (path_edges hg hW j1 hs)
  rw [j3] at m2 m3
  have m4 := m3 (m2.mp j2)
  have k4 : st.distOf (argsDefault weight dflt) (g.target e) < closedPlus INFINITY (st.distOf (argsDefault weight dflt) u) (weight e) := by
    simpa [argsDefault, less] using k3
  show st.distOf (argsDefault weight dflt) (g.target e) < st.distOf (argsDefault weight dflt) u + weight e
  generalize st.distOf (argsDefault weight dflt) (g.target e) = x at *
  generalize st.distOf (argsDefault weight dflt) u = y at *
  unfold closedPlus closedOperator at k4
  split at k4
  · rename_i h
    rcases h with h | h <;> omega
  · exact k4

/-! An arc is reported as not relaxed, one improves a distance found before, one equals it. -/

/-- `0 → 1` (1), `0 → 2` (5), `1 → 2` (1), `1 → 3` (2), `2 → 3` (1), `3 → 1` (4). -/
def callsGraph : GraphI Nat (EdgeDesc Nat) :=
  (Graph.mk 4 [(0, [(1, [0]), (2, [0])]), (1, [(2, [0]), (3, [0])]), (2, [(3, [0])]), (3, [(1, [0])])]).toI

def callsWeight (e : EdgeDesc Nat) : Int := if e = ⟨0, 2, 0⟩ then 5 else if e = ⟨1, 3, 0⟩ then 2 else if e = ⟨3, 1, 0⟩ then 4 else 1

example : callsGraph.Closed ∧ 0 ∈ callsGraph.vertices ∧ ∀ u ∈ callsGraph.vertices, ∀ e ∈ callsGraph.outEdges u, 0 ≤ callsWeight e :=
  ⟨by unfold GraphI.Closed; decide, by decide, by decide⟩

set_option maxRecDepth 20000 in
example : (match dijkstra (argsDefault callsWeight 0) callsGraph 0 (fun _ => false) [] [] 9 with
    | some (.ok (false, st)) => decide (st.trace = [.initializeVertex 0, .initializeVertex 1, .initializeVertex 2, .initializeVertex 3,
        .examineVertex 0, .examineEdge ⟨0, 1, 0⟩, .discoverVertex 1, .edgeRelaxed ⟨0, 1, 0⟩, .examineEdge ⟨0, 2, 0⟩, .discoverVertex 2, .edgeRelaxed ⟨0, 2, 0⟩,
        .finishVertex 0,
        .examineVertex 1, .examineEdge ⟨1, 2, 0⟩, .edgeRelaxed ⟨1, 2, 0⟩, .examineEdge ⟨1, 3, 0⟩, .discoverVertex 3, .edgeRelaxed ⟨1, 3, 0⟩, .finishVertex 1,
        .examineVertex 2, .examineEdge ⟨2, 3, 0⟩, .edgeRelaxed ⟨2, 3, 0⟩, .finishVertex 2,
        .examineVertex 3, .examineEdge ⟨3, 1, 0⟩, .edgeNotRelaxed ⟨3, 1, 0⟩, .finishVertex 3])
    | _ => false) = true := by decide

end PyBGL
