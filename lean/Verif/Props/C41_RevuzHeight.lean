import Verif.Proofs.RevuzHeight
import Verif.Proofs.PathLemmas

/-!
# C41: `revuz_height`
-/

namespace PyBGL
variable {V E : Type} [DecidableEq V]

/-- The vertices without out-edge. -/
def sinks (g : GraphI V E) : List V := g.vertices.filter fun q => (g.outEdges q).isEmpty

/-- A finite acyclic graph as the algorithms see it: its listings agree, and the ends of the edges are vertices. -/
structure AcyclicGraph (g : GraphI V E) : Prop where
  nodup : g.vertices.Nodup
  consistent : g.Consistent
  closed : g.Closed
  source : ∀ e ∈ g.edges, g.source e ∈ g.vertices
  acyclic : ¬ HasCycle g

theorem pathTo_bound {g : GraphI V E} (hg : AcyclicGraph g) {L : List V} (hL : ∀ v ∈ L, v ∈ g.vertices) {k : Nat} {v : V}
    (h : PathTo g L k v) : v ∈ g.vertices ∧ k < g.vertices.length := by
  have hv : v ∈ g.vertices := by
    cases k with
    | zero => exact hL v (pathTo_zero.mp h)
    | succ k =>
      obtain ⟨e, he, _⟩ := pathTo_succ.mp h
      obtain ⟨h1, rfl⟩ := (hg.consistent.out v e).mp he
      exact hg.source e h1
  obtain ⟨es, w, _, hp, rfl⟩ := h
  exact ⟨hv, path_short hg.nodup hg.closed hg.acyclic hp hv⟩

theorem revuzLeaves_nil_mem (g : GraphI V E) (v : V) : v ∈ revuzLeaves g [] ↔ v ∈ sinks g := by
  simp [revuzLeaves, mem_mkSet, sinks]

theorem PathTo.congr {g : GraphI V E} {L L' : List V} (h : ∀ v, v ∈ L ↔ v ∈ L') {k : Nat} {v : V} : PathTo g L k v ↔ PathTo g L' k v := by
  unfold PathTo; simp only [h]

/-- **C41.** On an acyclic graph `revuz_height` returns, whatever the enumeration of the sets and the previous contents of the map; every
vertex is mapped to the length of the longest path from it to a leaf, which is the longest path from it at all; and the returned value is the
maximum of the heights (`-1` for the graph without vertices). -/
theorem C41_heights {g : GraphI V E} (hg : AcyclicGraph g) {ord : SetOracle V} (hord : ord.Valid) (pmap₀ : Dict V Nat) :
    ∃ pmap hmax, Returns (revuzHeight ord g [] pmap₀) (.ok (pmap, hmax)) ∧
      (∀ v ∈ g.vertices, ∃ m, pmap.get? v = some m ∧ IsHeight g (sinks g) v m ∧ IsLongest g v m ∧ (m : Int) ≤ hmax) ∧
      (∀ v, v ∉ g.vertices → pmap.get? v = pmap₀.get? v) ∧
      ((g.vertices = [] ∧ hmax = -1) ∨ ∃ v ∈ g.vertices, ∃ m : Nat, hmax = m ∧ IsLongest g v m) := by
  have hmem := revuzLeaves_nil_mem g
  have hL : ∀ v ∈ revuzLeaves g [], v ∈ g.vertices := fun v hv => (List.mem_filter.mp ((hmem v).mp hv)).1
  obtain ⟨pmap, hmax, hr, h1, h2, h3⟩ := revuzHeight_spec hg.consistent (L := revuzLeaves g []) (N := g.vertices.length)
    (fun k v h => (pathTo_bound hg hL h).2) hord pmap₀ 0
  have hlong : ∀ v ∈ g.vertices, ∀ m, IsHeight g (revuzLeaves g []) v m → IsLongest g v m := by
    rintro v hv m ⟨⟨es, w, hw, hp, hl⟩, hmx⟩
    refine ⟨⟨es, w, hp, hl⟩, fun es' w' hp' => ?_⟩
    have hw' : w' ∈ g.vertices := by
      obtain ⟨rank, _, hr⟩ := acyclic_rank hg.nodup hg.closed hg.acyclic
      exact (path_rank hg.closed hr hp' hv).1
    obtain ⟨es2, x, hp2, hx, hx2⟩ := exists_sink hg.nodup hg.closed hg.acyclic hw'
    have := hmx (es' ++ es2).length ⟨_, x, (hmem x).mpr (List.mem_filter.mpr ⟨hx, by simp [hx2]⟩), hp'.append hp2, rfl⟩
    simp at this; omega
  refine ⟨pmap, hmax, hr, fun v hv => ?_, fun v hv => h2 v fun k hk => hv (pathTo_bound hg hL hk).1, ?_⟩
  · obtain ⟨es, w, hp, hw, hw2⟩ := exists_sink hg.nodup hg.closed hg.acyclic hv
    obtain ⟨m, e1, e2, e3⟩ := h1 v ⟨_, es, w, (hmem w).mpr (List.mem_filter.mpr ⟨hw, by simp [hw2]⟩), hp, rfl⟩
    refine ⟨m, e1, ⟨(PathTo.congr hmem).mp e2.1, fun j hj => e2.2 j ((PathTo.congr hmem).mpr hj)⟩, hlong v hv m e2, e3⟩
  · rcases h3 with ⟨h3, rfl⟩ | ⟨v, m, rfl, hm⟩
    · left
      refine ⟨?_, rfl⟩
      cases hv : g.vertices with
      | nil => rfl
      | cons a l =>
        obtain ⟨es, w, _, hw, hw2⟩ := exists_sink hg.nodup hg.closed hg.acyclic (u := a) (by rw [hv]; simp)
        have := (hmem w).mpr (List.mem_filter.mpr ⟨hw, by simp [hw2]⟩)
        rw [h3] at this; cases this
    · right
      have hv := (pathTo_bound hg hL hm.1).1
      exact ⟨v, hv, m, rfl, hlong v hv m hm⟩

/-- **C41.** With a set of leaves handed over: heights above these leaves; the vertices that do not lead to them are left alone. -/
theorem C41_given_leaves {g : GraphI V E} (hg : AcyclicGraph g) {L : List V} (hL : ∀ v ∈ L, v ∈ g.vertices) (hL0 : L ≠ [])
    {ord : SetOracle V} (hord : ord.Valid) (pmap₀ : Dict V Nat) :
    ∃ (pmap : Dict V Nat) (hmax : Nat), Returns (revuzHeight ord g L pmap₀) (.ok (pmap, (hmax : Int))) ∧
      (∀ v, (∃ k, PathTo g L k v) → ∃ m, pmap.get? v = some m ∧ IsHeight g L v m ∧ m ≤ hmax) ∧
      (∀ v, (∀ k, ¬ PathTo g L k v) → pmap.get? v = pmap₀.get? v) ∧ ∃ v, IsHeight g L v hmax := by
  obtain ⟨pmap, hmax, hr, h1, h2, h3⟩ := revuzHeight_spec hg.consistent (L := L) (N := g.vertices.length)
    (fun k v h => (pathTo_bound hg hL h).2) hord pmap₀ 0
  rcases h3 with ⟨h3, _⟩ | ⟨v, m, rfl, hm⟩
  · exact absurd h3 hL0
  · refine ⟨pmap, m, ?_, fun v hv => ?_, h2, v, hm⟩
    · unfold revuzHeight revuzLeaves
      rw [if_neg hL0]
      exact hr
    · obtain ⟨k, a, b, c⟩ := h1 v hv
      exact ⟨k, a, b, by omega⟩

/-- **C41**, the hypothesis is needed: if a leaf can be reached from a cycle, `revuz_height` runs for ever. -/
theorem C41_cyclic {g : GraphI V E} (hg : g.Consistent) {u w : V} {es es' : List E} (hc : IsPath g u es u) (hne : es ≠ [])
    (hw : w ∈ sinks g) (hp : IsPath g u es' w) {ord : SetOracle V} (hord : ord.Valid) (pmap₀ : Dict V Nat) :
    Diverges (revuzHeight ord g [] pmap₀) := by
  have hlong : ∀ k, ∃ v, PathTo g (revuzLeaves g []) k v := by
    intro k
    have hpump : ∀ n, ∃ es'', IsPath g u es'' w ∧ n ≤ es''.length := by
      intro n
      induction n with
      | zero => exact ⟨es', hp, Nat.zero_le _⟩
      | succ n ih =>
        obtain ⟨es'', h1, h2⟩ := ih
        refine ⟨es ++ es'', hc.append h1, ?_⟩
        have := List.length_pos_iff.mpr hne
        simp; omega
    obtain ⟨es'', h1, h2⟩ := hpump k
    exact PathTo.lower ⟨es'', w, (revuzLeaves_nil_mem g w).mpr hw, h1, rfl⟩ h2
  intro fuel
  have key : ∀ fuel t s, HeightInv g (revuzLeaves g []) pmap₀ s → loop (heightStep ord g) fuel t s = none := by
    intro fuel
    induction fuel with
    | zero => intros; rfl
    | succ fuel ih =>
      intro t s i
      rw [loop]
      cases h : heightStep ord g t s with
      | next s' => exact ih _ _ (heightInv_step hg hord i h).1
      | done r =>
        obtain ⟨v, hv⟩ := hlong s.h
        exact absurd hv ((heightInv_done hord i h).2 v)
      | fail e => unfold heightStep at h; split at h <;> cases h
  exact key fuel 0 _ (heightInv_init g _ pmap₀)

/-! ## Non-vacuity -/

/-- The graph of tests/test_revuz_minimize.py:68-72. -/
def heightExample : GraphI Nat (Nat × Nat) where
  vertices := [0, 1, 2, 3, 4]
  edges := [(0, 1), (0, 2), (1, 2), (1, 3), (2, 4), (3, 4)]
  outEdges u := [(0, 1), (0, 2), (1, 2), (1, 3), (2, 4), (3, 4)].filter fun e => e.1 = u
  inEdges u := [(0, 1), (0, 2), (1, 2), (1, 3), (2, 4), (3, 4)].filter fun e => e.2 = u
  source := Prod.fst
  target := Prod.snd

theorem heightExample_acyclic : AcyclicGraph heightExample where
  nodup := by decide
  consistent := ⟨fun u e => by simp [heightExample], fun u e => by simp [heightExample]⟩
  closed := by unfold GraphI.Closed; decide
  source := by decide
  acyclic := by
    have hinc : ∀ u es v, IsPath heightExample u es v → u + es.length ≤ v := by
      intro u es v h
      induction h with
      | nil => simp
      | @cons u v e es he hp ih =>
        have h1 := (List.mem_filter.mp he)
        have h2 : e.1 = u := by simpa using h1.2
        have h3 : ∀ e ∈ [(0, 1), (0, 2), (1, 2), (1, 3), (2, 4), (3, 4)], e.1 < (e.2 : Nat) := by decide
        have h4 := h3 e h1.1
        have h5 : heightExample.target e = e.2 := rfl
        simp only [List.length_cons]
        omega
    rintro ⟨u, _, es, hne, hp⟩
    have := hinc _ _ _ hp
    have := List.length_pos_iff.mpr hne
    omega

example : ∃ pmap, Returns (revuzHeight (fun _ l => l) heightExample [] []) (.ok (pmap, 3)) ∧
    pmap = [(4, 0), (2, 1), (3, 1), (0, 3), (1, 2)] :=
  ⟨_, ⟨6, fun fuel h => by
    obtain ⟨n, rfl⟩ : ∃ n, fuel = n + 6 := ⟨fuel - 6, by omega⟩
    rfl⟩, rfl⟩

/-- A cycle with a way out. -/
example : ∃ g : GraphI Nat (Nat × Nat), g.Consistent ∧ ∃ u w es es', IsPath g u es u ∧ es ≠ [] ∧ w ∈ sinks g ∧ IsPath g u es' w :=
  let l := [(0, 0), (0, 1)]
  ⟨⟨[0, 1], l, fun u => l.filter fun e => e.1 = u, fun u => l.filter fun e => e.2 = u, Prod.fst, Prod.snd⟩,
    ⟨fun _ _ => List.mem_filter.trans (by simp), fun _ _ => List.mem_filter.trans (by simp)⟩,
    0, 1, [(0, 0)], [(0, 1)], .cons (by decide) (.nil _), by simp, by decide, .cons (by decide) (.nil _)⟩

end PyBGL
