import Verif.Props.C126_Agreement

/-!
# C126: when the arcs returned by `make_shortest_paths_dag` form a cycle
-/

namespace PyBGL
open Dijkstra
variable {V E : Type} [DecidableEq V] [DecidableEq E]

/-- **C126** (exactly when): with non-negative weights, the arcs returned by `make_shortest_paths_dag` after Dijkstra are those of the shortest paths from `s` to `t`, and
the two outcomes of `topological_sort` on these arcs are told apart by the cycles of weight 0: it raises `RuntimeError` if some cycle of weight 0 is attached to a shortest
path from `s` to `t`, and returns otherwise. -/
theorem C126_dag_exact (ord : SetOracle E) {g : GraphI V E} {s t : V} {weight : E → Int} {dflt : Int} (dist : Dict V Int) (preds : Dict V (List E))
    (hn : g.vertices.Nodup) (hg : g.Closed) (hs : s ∈ g.vertices) (ht : t ∈ g.vertices) (hsrc : ∀ u ∈ g.vertices, ∀ e ∈ g.outEdges u, g.source e = u)
    (hW : ∀ u ∈ g.vertices, ∀ e ∈ g.outEdges u, 0 ≤ weight e) (hp : ∀ v, preds.getD v [] = []) :
    ∃ st, Returns (dijkstra (argsDefault weight dflt) g s (fun _ => false) dist preds) (.ok (false, st)) ∧
      (st.dist.getD t dflt < INFINITY → ∃ kept, Returns (makeShortestPathsDag ord g t st.preds false) (.ok kept) ∧
        (∀ e, e ∈ kept ↔ ∃ p, IsPath g s p t ∧ e ∈ p ∧ ∀ r, IsPath g s r t → (p.map weight).sum ≤ (r.map weight).sum) ∧
        ((∃ u q c p, IsPath g s q u ∧ IsPath g u c u ∧ c ≠ [] ∧ (c.map weight).sum = 0 ∧ IsPath g u p t ∧
            ∀ r, IsPath g s r t → ((q ++ p).map weight).sum ≤ (r.map weight).sum) →
          Returns (topologicalSort (GraphView.toI ⟨g, fun _ => true, fun e => decide (e ∈ kept)⟩) none) (.error .runtimeError)) ∧
        ((¬ ∃ u q c p, IsPath g s q u ∧ IsPath g u c u ∧ c ≠ [] ∧ (c.map weight).sum = 0 ∧ IsPath g u p t ∧
            ∀ r, IsPath g s r t → ((q ++ p).map weight).sum ≤ (r.map weight).sum) →
          ∃ l, Returns (topologicalSort (GraphView.toI ⟨g, fun _ => true, fun e => decide (e ∈ kept)⟩) none) (.ok l) ∧ l.Perm g.vertices ∧
            ∀ e ∈ kept, ∃ a b d, l = a ++ g.source e :: b ++ g.target e :: d)) := by
  obtain ⟨st, h1, h2⟩ := C60_distances (dflt := dflt) hg hs hW dist preds hp
  obtain ⟨st', h1', h3⟩ := C61_shortest (dflt := dflt) hg hs hW dist preds hp
  obtain rfl : st = st' := by simpa using returns_unique h1 h1'
  refine ⟨st, h1, fun hlt => ?_⟩
  obtain ⟨kept, k1, _, k2⟩ := C63_dag ord g t st.preds
  have hlow : ∀ u q, IsPath g s q u → st.dist.getD u dflt ≤ (q.map weight).sum ∨ INFINITY ≤ (q.map weight).sum := by
    intro u q hq
    rcases h2 u (hq.end_mem hg hs) with ⟨_, _, k⟩ | ⟨_, k⟩
    · have := k _ ⟨q, hq, rfl⟩
      simp [less] at this; exact .inl this
    · have := k _ ⟨q, hq, rfl⟩
      simp [less] at this; exact .inr this
  have hbest : ∀ u ∈ g.vertices, st.dist.getD u dflt < INFINITY → ∃ q, IsPath g s q u ∧ (q.map weight).sum = st.dist.getD u dflt := by
    intro u hu hlt
    rcases h2 u hu with ⟨⟨q, k1, k2⟩, _, _⟩ | ⟨k, _⟩
    · exact ⟨q, k1, k2⟩
    · omega
  have hnn : ∀ {u v : V} {p : List E}, u ∈ g.vertices → IsPath g u p v → 0 ≤ (p.map weight).sum := by
    intro u v p hu h
    exact (pathWeight_plus weight p (path_edges hg hW h hu)).1
  -- the arcs recorded
  have arc : ∀ v, st.dist.getD v dflt < INFINITY → ∀ e ∈ st.preds.getD v [],
      g.target e = v ∧ g.source e ∈ g.vertices ∧ e ∈ g.outEdges (g.source e) ∧ 0 ≤ weight e ∧ st.dist.getD (g.source e) dflt + weight e = st.dist.getD v dflt := by
    intro v hv e he
    obtain ⟨p, hpp, hsum⟩ := (h3 v hv e).mp he
    obtain ⟨u, hu1, hu2⟩ := isPath_append_iff.mp hpp
    cases hu2 with
    | cons hee hnil =>
      have hum := hu1.end_mem hg hs
      have hse := hsrc u hum e hee
      have htgt : g.target e = v := by cases hnil; rfl
      have hwe := hW u hum e hee
      rw [hse]
      refine ⟨htgt, hum, hee, hwe, ?_⟩
      simp only [List.map_append, List.map_cons, List.map_nil, List.sum_append, List.sum_cons, List.sum_nil] at hsum
      have hu : st.dist.getD u dflt ≤ (p.map weight).sum := by rcases hlow u p hu1 with h | h <;> omega
      obtain ⟨q, q1, q2⟩ := hbest u hum (by omega)
      have hq := q1.snoc hee
      rw [htgt] at hq
      have := hlow v _ hq
      simp only [List.map_append, List.map_cons, List.map_nil, List.sum_append, List.sum_cons, List.sum_nil] at this
      omega
  have chain : ∀ u p, PredPath g (st.preds.getD · []) t u p → u ∈ g.vertices ∧ IsPath g u p t ∧ st.dist.getD u dflt + (p.map weight).sum = st.dist.getD t dflt ∧
      ∀ e ∈ p, e ∈ g.outEdges (g.source e) ∧ st.dist.getD (g.source e) dflt + weight e = st.dist.getD (g.target e) dflt ∧
        ∃ p', PredPath g (st.preds.getD · []) t (g.source e) (e :: p') := by
    intro u p h
    induction h with
    | nil => exact ⟨ht, .nil _, by simp, by simp⟩
    | @cons u p e hpp he ih =>
      obtain ⟨i1, i2, i3, i4⟩ := ih
      have := hnn i1 i2
      obtain ⟨a1, a2, a3, a0, a4⟩ := arc u (by omega) e he
      refine ⟨a2, .cons a3 (by rw [a1]; exact i2), ?_, fun x hx => ?_⟩
      · simp only [List.map_cons, List.sum_cons]; omega
      · rcases List.mem_cons.mp hx with rfl | hx
        · exact ⟨a3, by rw [a1]; exact a4, p, .cons hpp he⟩
        · exact i4 x hx
  -- the arcs of a shortest path are recorded
  have back : ∀ {B : List E} {u : V}, IsPath g u B t → ∀ A, IsPath g s A u → (A.map weight).sum + (B.map weight).sum = st.dist.getD t dflt →
      PredPath g (st.preds.getD · []) t u B := by
    intro B u hB
    induction hB with
    | nil => intro A _ _; exact .nil
    | @cons u v e B he hB ih =>
      intro A hA hsum
      have hu := hA.end_mem hg hs
      have hAe := hA.snoc he
      have hv := hAe.end_mem hg hs
      simp only [List.map_cons, List.sum_cons] at hsum
      have hsumA : ((A ++ [e]).map weight).sum = (A.map weight).sum + weight e := by simp
      have hBn := hnn hv hB
      have hrec := ih ht hlt k1 k2 chain (A ++ [e]) hAe (by rw [hsumA]; omega)
      have hdv : st.dist.getD (g.target e) dflt = (A.map weight).sum + weight e := by
        have h5 := hlow (g.target e) _ hAe
        rw [hsumA] at h5
        have h6 : st.dist.getD (g.target e) dflt ≤ (A.map weight).sum + weight e := by omega
        obtain ⟨q, q1, q2⟩ := hbest (g.target e) hv (by omega)
        have h7 := hlow v _ (q1.append hB)
        simp only [List.map_append, List.sum_append] at h7
        omega
      have hmem : e ∈ st.preds.getD (g.target e) [] := (h3 (g.target e) (by omega) e).mpr ⟨A, hAe, by rw [hsumA]; omega⟩
      have := PredPath.cons hrec hmem
      rwa [hsrc u hu e he] at this
  have least : ∀ r, IsPath g s r t → st.dist.getD t dflt ≤ (r.map weight).sum := by
    intro r hr
    rcases hlow t r hr with h | h <;> omega
  obtain ⟨q0, hq0, hs0⟩ := hbest t ht hlt
  refine ⟨kept, k1, ?_, ?_, ?_⟩
  · intro e
    rw [k2]
    constructor
    · rintro ⟨u, p, hpp, he⟩
      obtain ⟨c1, c2, c3, c4⟩ := chain u p hpp
      have := hnn c1 c2
      obtain ⟨q, q1, q2⟩ := hbest u c1 (by omega)
      refine ⟨q ++ p, q1.append c2, by simp [he], fun r hr => ?_⟩
      have := least r hr
      simp only [List.map_append, List.sum_append]
      omega
    · rintro ⟨p, p1, p2, p3⟩
      exact ⟨s, p, back p1 [] (.nil _) (by have := p3 q0 hq0; have := least p p1; simp; omega), p2⟩
  · rintro ⟨u, q, c, p, z1, z2, z3, z4, z5, z6⟩
    have hqp := least _ (z1.append z5)
    have := z6 q0 hq0
    simp only [List.map_append, List.sum_append] at hqp this
    have hB := back (z2.append z5) q z1 (by simp only [List.map_append, List.sum_append]; omega)
    refine (C121_view_topological_sort ⟨g, fun _ => true, fun e => decide (e ∈ kept)⟩ hg hn none).1 ⟨u, List.mem_filter.mpr ⟨z1.end_mem hg hs, rfl⟩, c, z3, z2, ?_⟩
    intro e he
    have : e ∈ kept := (k2 e).mpr ⟨u, _, hB, by simp [he]⟩
    simp [this]
  · intro hno
    obtain ⟨l, m1, m2, m3⟩ := (C121_view_topological_sort ⟨g, fun _ => true, fun e => decide (e ∈ kept)⟩ hg hn none).2 (by
      rintro ⟨u, hu, c, hne, hpp, hrel⟩
      have hum := (List.mem_filter.mp hu).1
      have hk : ∀ e ∈ c, e ∈ kept := fun e he => by simpa using (hrel e he).1
      have mono : ∀ {u v : V} {p : List E}, IsPath g u p v → u ∈ g.vertices → (∀ e ∈ p, e ∈ kept) →
          st.dist.getD u dflt + (p.map weight).sum = st.dist.getD v dflt := by
        intro u v p h
        induction h with
        | nil => intro _ _; simp
        | @cons u v e es he _ ih =>
          intro hu hk
          obtain ⟨w, p, c1, c2⟩ := (k2 e).mp (hk e (by simp))
          have h5 := ((chain w p c1).2.2.2 e c2).2.1
          rw [hsrc u hu e he] at h5
          have h6 := ih (hg u hu e he) fun x hx => hk x (List.mem_cons_of_mem _ hx)
          simp only [List.map_cons, List.sum_cons]
          omega
      have hm := mono hpp hum hk
      cases hpp with
      | nil => exact hne rfl
      | @cons _ _ e es he hes =>
        obtain ⟨w, p, c1, c2⟩ := (k2 e).mp (hk e (by simp))
        obtain ⟨p', c3⟩ := ((chain w p c1).2.2.2 e c2).2.2
        rw [hsrc u hum e he] at c3
        obtain ⟨d1, d2, d3, _⟩ := chain _ _ c3
        have := hnn d1 d2
        obtain ⟨q, q1, q2⟩ := hbest u hum (by omega)
        refine hno ⟨u, q, e :: es, e :: p', q1, .cons he hes, hne, by omega, d2, fun r hr => ?_⟩
        have := least r hr
        rw [List.map_append, List.sum_append]
        omega)
    refine ⟨l, by simpa using m1, ?_, fun e he => ?_⟩
    · have hv : (GraphView.vertices ⟨g, fun _ => true, fun e => decide (e ∈ kept)⟩ : List V) = g.vertices := by
        show g.vertices.filter (fun _ => true) = _
        simp
      rwa [hv] at m2
    · obtain ⟨w, p, c1, c2⟩ := (k2 e).mp he
      obtain ⟨a2, _, p', c3⟩ := (chain w p c1).2.2.2 e c2
      refine m3 (g.source e) (List.mem_filter.mpr ⟨(chain _ _ c3).1, rfl⟩) e (List.mem_filter.mpr ⟨a2, ?_⟩)
      simp [GraphView.shows, he]

/-- The hypotheses are met, and a cycle of weight 0 is attached to a shortest path: `0 → 1 → 2 → 3` in `loopGraph`, with the cycle `1 → 2 → 1`. -/
example : loopGraph.vertices.Nodup ∧ loopGraph.Closed ∧ 0 ∈ loopGraph.vertices ∧ 3 ∈ loopGraph.vertices ∧
    (∀ u ∈ loopGraph.vertices, ∀ e ∈ loopGraph.outEdges u, loopGraph.source e = u) ∧ (∀ u ∈ loopGraph.vertices, ∀ e ∈ loopGraph.outEdges u, 0 ≤ loopWeight e) ∧
    IsPath loopGraph 0 [⟨0, 1, 0⟩] 1 ∧ IsPath loopGraph 1 [⟨1, 2, 0⟩, ⟨2, 1, 0⟩] 1 ∧ (([⟨1, 2, 0⟩, ⟨2, 1, 0⟩] : List (EdgeDesc Nat)).map loopWeight).sum = 0 ∧
    IsPath loopGraph 1 [⟨1, 2, 0⟩, ⟨2, 3, 0⟩] 3 := by
  refine ⟨by decide, by unfold GraphI.Closed; decide, by decide, by decide, by decide, by decide, .cons (by decide) (.nil _), .cons (by decide) (.cons (by decide) (.nil _)),
    by decide, .cons (by decide) (.cons (by decide) (.nil _))⟩

end PyBGL
