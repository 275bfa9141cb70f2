import Verif.Proofs.Tarjan
import Verif.Props.C51_C54_Dfs

/-!
# C55: strongly connected components
-/

namespace PyBGL
variable {V E : Type} [DecidableEq V]

/-- **C55**: whatever `pmap_component` contains beforehand, `strong_components(g, pmap_component)` returns some `total` and stores an identifier for each vertex, such that two
vertices have the same identifier iff each is reachable from the other; the identifiers are exactly `0, …, total - 1`;
an edge never leads to a greater identifier. -/
theorem C55_components {g : GraphI V E} (hc : g.Closed) (comp₀ : Dict V (Option Nat)) :
    ∃ total comp, Returns (strongComponents g comp₀) (.ok (total, comp)) ∧
    ∃ id : V → Nat, (∀ v ∈ g.vertices, comp.get? v = some (some (id v))) ∧
      (∀ u ∈ g.vertices, ∀ v ∈ g.vertices, id u = id v ↔ Reach g u v ∧ Reach g v u) ∧
      (∀ v ∈ g.vertices, id v < total) ∧ (∀ k < total, ∃ v ∈ g.vertices, id v = k) ∧
      (∀ u ∈ g.vertices, ∀ e ∈ g.outEdges u, id (g.target e) ≤ id u) := by
  have hthr : g.through (fun _ => true) = g := by unfold GraphI.through; simp
  obtain ⟨c, tr, f, hr⟩ := dfsSources_facts (g := g) (p := fun _ => true) (us := g.vertices) (U := g.vertices) (by
    intro s hs v hr
    rw [hthr] at hr
    exact hr.closed (P := fun x => x ∈ g.vertices) (fun u hu e he => hc u hu e he) hs)
  have hdisc : ∀ v, v ∈ discovered tr ↔ v ∈ g.vertices := by
    intro v
    rw [f.reach, hthr]
    refine ⟨fun ⟨s, hs, hr⟩ => hr.closed (P := fun x => x ∈ g.vertices) (fun u hu e he => hc u hu e he) hs,
      fun h => ⟨v, h, Reach.refl _ _⟩⟩
  obtain ⟨s, hs, i⟩ := Tarjan.emit_inv f [] tr rfl _ (Tarjan.Inv.init comp₀)
  have hdone := i.done f
  refine ⟨s.total, s.comp, ?_, fun v => (s.compOf v).getD 0, ?_, ?_, ?_, ?_, ?_⟩
  · obtain ⟨N, hN⟩ := hr _ (tarjanVisitor g) ⟨0, comp₀, [], [], 0, []⟩
    refine ⟨N, fun fuel hf => ?_⟩
    have : dfsSources g (fun _ => true) (tarjanVisitor g) fuel g.vertices [] ⟨0, comp₀, [], [], 0, []⟩ = _ := hN fuel hf
    unfold strongComponents dfsGraph
    rw [ite_self, this, hs]; rfl
  · intro v hv
    have h1 := hdone v ((hdisc v).mpr hv)
    have h2 := i.key v ((hdisc v).mpr hv)
    cases hcv : s.compOf v with
    | none => exact absurd hcv h1
    | some k =>
      rw [hcv] at h2
      unfold Dict.getD at h2
      cases hg : s.comp.get? v with
      | none => rw [hg] at h2; cases h2
      | some x => rw [hg] at h2; simp at h2; simp [h2, hcv]
  · intro u hu v hv
    rw [← i.scc u ((hdisc u).mpr hu) v ((hdisc v).mpr hv) (hdone u ((hdisc u).mpr hu)) (hdone v ((hdisc v).mpr hv))]
    have h1 := hdone u ((hdisc u).mpr hu)
    have h2 := hdone v ((hdisc v).mpr hv)
    cases h3 : s.compOf u with
    | none => exact absurd h3 h1
    | some k =>
      cases h4 : s.compOf v with
      | none => exact absurd h4 h2
      | some k' => simp [h3, h4]
  · intro v hv
    have h1 := hdone v ((hdisc v).mpr hv)
    cases h3 : s.compOf v with
    | none => exact absurd h3 h1
    | some k => simpa [h3] using (i.asg v ((hdisc v).mpr hv) k h3).2
  · intro k hk
    obtain ⟨v, hv, h⟩ := i.used k hk
    exact ⟨v, (hdisc v).mp hv, by simp [h]⟩
  · intro u hu e he
    have h1 := hdone u ((hdisc u).mpr hu)
    cases h3 : s.compOf u with
    | none => exact absurd h3 h1
    | some k =>
      obtain ⟨_, k', h4, h5⟩ := i.closed u ((hdisc u).mpr hu) k h3 e he
      simpa [h3, h4] using h5

/-- A graph with two components `{0, 1}` and `{2}`. -/
def twoComponents : GraphI Nat (EdgeDesc Nat) := (Graph.mk 3 [(0, [(1, [0])]), (1, [(0, [0]), (2, [0])]), (2, [])]).toI

example : twoComponents.Closed ∧ Reach twoComponents 0 1 ∧ Reach twoComponents 1 0 := by
  refine ⟨by unfold GraphI.Closed; decide, ?_, ?_⟩
  · exact Reach.edge (g := twoComponents) (u := 0) (e := ⟨0, 1, 0⟩) (by decide)
  · exact Reach.edge (g := twoComponents) (u := 1) (e := ⟨1, 0, 0⟩) (by decide)

end PyBGL
