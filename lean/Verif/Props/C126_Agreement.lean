import Verif.Props.C121_Views

/-!
# C126: the algorithms agree with each other
-/

namespace PyBGL
open Dijkstra
variable {V E : Type} [DecidableEq V]

/-! ## `topological_sort` and `strong_components` -/

omit [DecidableEq V] in
theorem IsPath.append_reach {g : GraphI V E} {u v w : V} {es : List E} (h : IsPath g u es v) (h' : Reach g v w) : Reach g u w := by
  induction h with
  | nil => exact h'
  | cons he _ ih =>
    obtain ⟨fs, hf⟩ := ih h'
    exact ⟨_, .cons he hf⟩

/-- **C126**: `topological_sort` raises `RuntimeError` iff `strong_components` puts two different vertices in the same component, or some edge is
a loop; otherwise each component is a single vertex and there are as many as vertices. -/
theorem C126_topological_components {g : GraphI V E} (hn : g.vertices.Nodup) (hc : g.Closed) (stack : Option (List V))
    (comp₀ : Dict V (Option Nat)) :
    ∃ total comp, Returns (strongComponents g comp₀) (.ok (total, comp)) ∧
      (((∃ u ∈ g.vertices, ∃ v ∈ g.vertices, u ≠ v ∧ comp.get? u = comp.get? v) ∨ (∃ u ∈ g.vertices, ∃ e ∈ g.outEdges u, g.target e = u)) →
        Returns (topologicalSort g stack) (.error .runtimeError)) ∧
      (¬ ((∃ u ∈ g.vertices, ∃ v ∈ g.vertices, u ≠ v ∧ comp.get? u = comp.get? v) ∨ (∃ u ∈ g.vertices, ∃ e ∈ g.outEdges u, g.target e = u)) →
        total = g.vertices.length ∧ ∃ l, Returns (topologicalSort g stack) (.ok (l ++ stack.getD [])) ∧ l.Perm g.vertices) := by
  obtain ⟨total, comp, h1, id, h2, h3, h4, h5, _⟩ := C55_components hc comp₀
  have hcomp : ∀ u ∈ g.vertices, ∀ v ∈ g.vertices, comp.get? u = comp.get? v ↔ Reach g u v ∧ Reach g v u := by
    intro u hu v hv
    rw [h2 u hu, h2 v hv, ← h3 u hu v hv]
    simp
  have hmem : ∀ {u v : V}, u ∈ g.vertices → Reach g u v → v ∈ g.vertices := fun hu hr =>
    hr.closed (P := fun x => x ∈ g.vertices) (fun u hu e he => hc u hu e he) hu
  have hcy : HasCycle g ↔ (∃ u ∈ g.vertices, ∃ v ∈ g.vertices, u ≠ v ∧ comp.get? u = comp.get? v) ∨
      (∃ u ∈ g.vertices, ∃ e ∈ g.outEdges u, g.target e = u) := by
    constructor
    · rintro ⟨u, hu, es, hne, hp⟩
      cases hp with
      | nil => exact absurd rfl hne
      | @cons _ _ e es he hp =>
        by_cases h : g.target e = u
        · exact .inr ⟨u, hu, e, he, h⟩
        · have hv := hc u hu e he
          exact .inl ⟨u, hu, g.target e, hv, fun e => h e.symm, (hcomp u hu _ hv).mpr ⟨⟨[e], .cons he (.nil _)⟩, es, hp⟩⟩
    · rintro (⟨u, hu, v, hv, hne, e⟩ | ⟨u, hu, e, he, ht⟩)
      · obtain ⟨⟨es, hp⟩, hr⟩ := (hcomp u hu v hv).mp e
        cases hp with
        | nil => exact absurd rfl hne
        | cons he hp =>
          obtain ⟨fs, hf⟩ := hp.append_reach hr
          exact ⟨u, hu, _ :: fs, by simp, .cons he hf⟩
      · exact ⟨u, hu, [e], by simp, .cons he (by rw [ht]; exact .nil _)⟩
  refine ⟨total, comp, h1, fun h => C54_cyclic hc (hcy.mpr h) stack, fun h => ⟨?_, ?_⟩⟩
  · have hinj : ∀ u ∈ g.vertices, ∀ v ∈ g.vertices, id u = id v → u = v := by
      intro u hu v hv e
      by_contra hne
      exact h (.inl ⟨u, hu, v, hv, hne, by rw [h2 u hu, h2 v hv, e]⟩)
    have hp : (g.vertices.map id).Perm (List.range total) := by
      refine (List.perm_ext_iff_of_nodup (List.Nodup.map_on hinj hn) List.nodup_range).mpr fun k => ?_
      rw [List.mem_map, List.mem_range]
      exact ⟨fun ⟨v, hv, e⟩ => e ▸ h4 v hv, fun hk => h5 k hk⟩
    have := hp.length_eq
    simpa using this.symm
  · obtain ⟨l, k1, k2, _⟩ := C54_acyclic hn hc (fun hh => h (hcy.mp hh)) stack
    exact ⟨l, k1, k2⟩

/-! ## `breadth_first_search` and `dijkstra_shortest_paths` -/

theorem sum_ones (p : List E) : (p.map fun _ => (1 : Int)).sum = p.length := by
  induction p with
  | nil => rfl
  | cons e p ih => simp; omega

omit [DecidableEq V] in
theorem exists_hopDist {g : GraphI V E} {s v : V} (h : Reach g s v) : ∃ d, HopDist g [s] v d := by
  classical
  have hex : ∃ d, ∃ es, IsPath g s es v ∧ es.length = d := by obtain ⟨es, h⟩ := h; exact ⟨_, es, h, rfl⟩
  refine ⟨Nat.find hex, ⟨s, by simp, Nat.find_spec hex⟩, ?_⟩
  intro s' hs es hp
  rw [List.mem_singleton] at hs; subst hs
  exact Nat.find_min' hex ⟨es, hp, rfl⟩

/-- **C126**: if every edge weighs 1, the distances that `dijkstra_shortest_paths` computes are the numbers of hops (as long as they are below
`INFINITY`), and `breadth_first_search` discovers the vertices by increasing distances. -/
theorem C126_unit_weights {g : GraphI V E} {s : V} {dflt : Int} [DecidableEq E] (hg : g.Closed) (hs : s ∈ g.vertices) (dist : Dict V Int)
    (preds : Dict V (List E)) (hp : ∀ v, preds.getD v [] = []) :
    ∃ st tr c, Returns (dijkstra (argsDefault (fun _ => 1) dflt) g s (fun _ => false) dist preds) (.ok (false, st)) ∧
      Returns (bfsGraph g [s] (fun _ => true) recorder [] []) (.ok (c, tr)) ∧
      (∀ v ∈ g.vertices, (∃ d : Nat, HopDist g [s] v d ∧ st.dist.getD v dflt = if (d : Int) < INFINITY then (d : Int) else INFINITY) ∨
        ¬ Reach g s v ∧ st.dist.getD v dflt = INFINITY) ∧
      (∀ v, v ∈ Bfs.discovered tr ↔ Reach g s v) ∧
      (Bfs.discovered tr).Pairwise fun u v => st.dist.getD u dflt ≤ st.dist.getD v dflt := by
  have hthr : g.through (fun _ => true) = g := by unfold GraphI.through; simp
  have hmem : ∀ {v : V}, Reach g s v → v ∈ g.vertices := fun hr =>
    hr.closed (P := fun x => x ∈ g.vertices) (fun u hu e he => hg u hu e he) hs
  obtain ⟨st, h1, h2⟩ := C60_distances (dflt := dflt) (weight := fun _ => 1) hg hs (fun _ _ _ _ => by omega) dist preds hp
  have hdist : ∀ v ∈ g.vertices, ∀ d, HopDist g [s] v d → st.dist.getD v dflt = if (d : Int) < INFINITY then (d : Int) else INFINITY := by
    intro v hv d ⟨⟨s', hs', es, hes, hl⟩, hmin⟩
    rw [List.mem_singleton] at hs'; subst hs'
    have hmin := hmin s' (by simp)
    rcases h2 v hv with ⟨⟨q, hq, e⟩, k2, k3⟩ | ⟨e, k3⟩
    · have := k3 _ ⟨es, hes, rfl⟩
      have hle := hmin q hq
      rw [sum_ones] at e this
      simp [less] at this k2
      rw [if_pos (by omega)]
      omega
    · have := k3 _ ⟨es, hes, rfl⟩
      rw [sum_ones] at this
      simp [less] at this
      rw [if_neg (by omega), e]
  obtain ⟨tr, c, k1, k2, k3⟩ : ∃ tr c, Returns (bfsGraph g [s] (fun _ => true) recorder [] []) (.ok (c, tr)) ∧
      (∀ v, v ∈ Bfs.discovered tr ↔ Reach g s v) ∧ True := by
    obtain ⟨tr, c, k1, k2, _⟩ := C48_graph (g := g) (p := fun _ => true) [s] (by simp) g.vertices (by
      intro s' hs' v hr
      rw [List.mem_singleton] at hs'; subst hs'
      rw [hthr] at hr; exact hmem hr)
    exact ⟨tr, c, k1, fun v => by rw [k2, hthr]; simp, trivial⟩
  refine ⟨st, tr, c, h1, k1, fun v hv => ?_, k2, ?_⟩
  · by_cases hr : Reach g s v
    · obtain ⟨d, hd⟩ := exists_hopDist hr
      exact .inl ⟨d, hd, hdist v hv d hd⟩
    · refine .inr ⟨hr, ?_⟩
      rcases h2 v hv with ⟨⟨q, hq, _⟩, _⟩ | ⟨e, _⟩
      · exact absurd ⟨q, hq⟩ hr
      · exact e
  · have := (C49_distance (g := g) (p := fun _ => true) [s] (by simp) g.vertices (by
      intro s' hs' v hr
      rw [List.mem_singleton] at hs'; subst hs'
      rw [hthr] at hr; exact hmem hr) k1).1
    rw [hthr] at this
    refine this.imp_of_mem fun {u v} hu hv h => ?_
    have hu := (k2 u).mp hu
    have hv := (k2 v).mp hv
    obtain ⟨d, hd⟩ := exists_hopDist hu
    obtain ⟨d', hd'⟩ := exists_hopDist hv
    have hle := h d d' hd hd'
    rw [hdist u (hmem hu) d hd, hdist v (hmem hv) d' hd']
    split <;> split <;> omega

/-! ## `make_shortest_paths_dag` and `topological_sort` -/

/-- "The arcs returned by `make_shortest_paths_dag` after Dijkstra form a graph without cycle, which `topological_sort` sorts." -/
def C126_dag_statement (hyp : ∀ V E : Type, GraphI V E → V → (E → Int) → Prop) : Prop :=
  ∀ (V : Type) (E : Type) (_ : DecidableEq V) (_ : DecidableEq E) (ord : SetOracle E) (g : GraphI V E) (s t : V) (weight : E → Int) (dflt : Int)
    (dist : Dict V Int) (preds : Dict V (List E)), g.vertices.Nodup → g.Closed → s ∈ g.vertices → t ∈ g.vertices →
    (∀ u ∈ g.vertices, ∀ e ∈ g.outEdges u, g.source e = u) → (∀ u ∈ g.vertices, ∀ e ∈ g.outEdges u, 0 ≤ weight e) →
    hyp V E g s weight → (∀ v, preds.getD v [] = []) →
    ∃ st, Returns (dijkstra (argsDefault weight dflt) g s (fun _ => false) dist preds) (.ok (false, st)) ∧
      (st.dist.getD t dflt < INFINITY →
        ∃ kept, Returns (makeShortestPathsDag ord g t st.preds false) (.ok kept) ∧
          ∃ l, Returns (topologicalSort (GraphView.toI ⟨g, fun _ => true, fun e => decide (e ∈ kept)⟩) none) (.ok l) ∧ l.Perm g.vertices ∧
            ∀ e ∈ kept, ∃ a b d, l = a ++ g.source e :: b ++ g.target e :: d)

/-- No cycle reached from `s` weighs 0. -/
def NoZeroCycle (V E : Type) (g : GraphI V E) (s : V) (weight : E → Int) : Prop :=
  ∀ u q p, IsPath g s q u → IsPath g u p u → p ≠ [] → (p.map weight).sum ≠ 0

/-- **C126, partial** (missing: cycles of weight 0): if no cycle reached from `s` weighs 0, the arcs returned by `make_shortest_paths_dag` form a graph
without cycle; `topological_sort` on the view of these arcs returns the vertices in an order compatible with them. -/
theorem C126_dag_partial : C126_dag_statement NoZeroCycle := by
  intro V E _ _ ord g s t weight dflt dist preds hn hg hs ht hsrc hW hcyc hp
  obtain ⟨st, h1, h2⟩ := C60_distances (dflt := dflt) hg hs hW dist preds hp
  obtain ⟨st', h1', h3⟩ := C61_shortest (dflt := dflt) hg hs hW dist preds hp
  obtain rfl : st = st' := by simpa using returns_unique h1 h1'
  refine ⟨st, h1, fun hlt => ?_⟩
  obtain ⟨kept, k1, _, k2⟩ := C63_dag ord g t st.preds
  -- an arc recorded for a vertex at finite distance comes from a vertex strictly nearer
  have hpath : ∀ {u v : V} {p : List E}, u ∈ g.vertices → IsPath g u p v → v ∈ g.vertices := fun hu h =>
    (show Reach g _ _ from ⟨_, h⟩).closed (P := fun x => x ∈ g.vertices) (fun u hu e he => hg u hu e he) hu
  have arc : ∀ v, st.dist.getD v dflt < INFINITY → ∀ e ∈ st.preds.getD v [],
      g.target e = v ∧ (∃ q, IsPath g s q (g.source e)) ∧ e ∈ g.outEdges (g.source e) ∧ 0 ≤ weight e ∧ st.dist.getD (g.source e) dflt + weight e ≤ st.dist.getD v dflt := by
    intro v hv e he
    obtain ⟨p, hpp, hsum⟩ := (h3 v hv e).mp he
    obtain ⟨u, hu1, hu2⟩ := isPath_append_iff.mp hpp
    cases hu2 with
    | cons hee hnil =>
      have hum := hpath hs hu1
      have hse := hsrc u hum e hee
      have htgt : g.target e = v := by cases hnil; rfl
      refine ⟨htgt, ⟨p, hse ▸ hu1⟩, hse ▸ hee, hW u hum e hee, ?_⟩
      rw [hse]
      have hwe := hW u hum e hee
      simp at hsum
      rcases h2 u hum with ⟨_, _, k⟩ | ⟨_, k⟩
      · have := k _ ⟨p, hu1, rfl⟩
        simp [less] at this; omega
      · have := k _ ⟨p, hu1, rfl⟩
        simp [less] at this; omega
  have chain : ∀ u p, PredPath g (st.preds.getD · []) t u p → st.dist.getD u dflt < INFINITY ∧
      ∀ e ∈ p, (∃ q, IsPath g s q (g.source e)) ∧ e ∈ g.outEdges (g.source e) ∧ st.dist.getD (g.source e) dflt + weight e ≤ st.dist.getD (g.target e) dflt := by
    intro u p h
    induction h with
    | nil => exact ⟨hlt, by simp⟩
    | @cons u p e _ he ih =>
      obtain ⟨a1, a2, a3, a0, a4⟩ := arc u ih.1 e he
      refine ⟨by have := ih.1; omega, fun x hx => ?_⟩
      rcases List.mem_cons.mp hx with rfl | hx
      · exact ⟨a2, a3, by rw [a1]; exact a4⟩
      · exact ih.2 x hx
  have karc : ∀ e ∈ kept, (∃ q, IsPath g s q (g.source e)) ∧ e ∈ g.outEdges (g.source e) ∧
      st.dist.getD (g.source e) dflt + weight e ≤ st.dist.getD (g.target e) dflt := by
    intro e he
    obtain ⟨u, p, hpp, hep⟩ := (k2 e).mp he
    exact (chain u p hpp).2 e hep
  let gv : GraphView V E := ⟨g, fun _ => true, fun e => decide (e ∈ kept)⟩
  have hac : ¬ ∃ u ∈ gv.vertices, ∃ p, p ≠ [] ∧ SeenPath gv.g gv.vrelevant gv.erelevant u p u := by
    rintro ⟨u, hu, p, hne, hpp, hrel⟩
    have mono : ∀ {u v : V} {p : List E}, IsPath g u p v → u ∈ g.vertices → (∀ e ∈ p, e ∈ kept) →
        st.dist.getD u dflt + (p.map weight).sum ≤ st.dist.getD v dflt ∧ 0 ≤ (p.map weight).sum := by
      intro u v p h
      induction h with
      | nil => intro _ _; simp
      | @cons u v e es he _ ih =>
        intro hu hk
        have := (karc e (hk e (by simp))).2.2
        rw [hsrc u hu e he] at this
        have h1 := ih (hg u hu e he) fun x hx => hk x (List.mem_cons_of_mem _ hx)
        have h2 := hW u hu e he
        simp only [List.map_cons, List.sum_cons]
        omega
    have hum := (List.mem_filter.mp hu).1
    have hk : ∀ e ∈ p, e ∈ kept := fun e he => by simpa [gv] using (hrel e he).1
    have hm := mono hpp hum hk
    cases hpp with
    | nil => exact hne rfl
    | @cons _ _ e es he hes =>
      obtain ⟨q, hq⟩ := (karc e (hk e (by simp))).1
      rw [hsrc u hum e he] at hq
      exact hcyc u q (e :: es) hq (.cons he hes) hne (by omega)
  obtain ⟨l, m1, m2, m3⟩ := (C121_view_topological_sort gv hg hn none).2 hac
  refine ⟨kept, k1, l, by simpa using m1, ?_, fun e he => ?_⟩
  · have : gv.vertices = g.vertices := by
      show g.vertices.filter (fun _ => true) = _
      simp
    rwa [this] at m2
  · obtain ⟨⟨q, a1⟩, a2, _⟩ := karc e he
    refine m3 (g.source e) (List.mem_filter.mpr ⟨hpath hs a1, rfl⟩) e (List.mem_filter.mpr ⟨a2, ?_⟩)
    simp [gv, GraphView.shows, he]

/-- **C126 is false when weights can be 0**: the arcs returned can contain a cycle, and `topological_sort` raises. -/
theorem C126_dag_counterexample : ¬ C126_dag_statement (fun _ _ _ _ _ => True) := by
  intro h
  obtain ⟨st, h1, h2⟩ := h Nat (EdgeDesc Nat) inferInstance inferInstance (fun _ s => s) loopGraph 0 3 loopWeight 0 [] [] (by decide)
    (by unfold GraphI.Closed; decide) (by decide) (by decide) (by decide) (by decide) trivial (fun _ => rfl)
  have hrun : ∃ st, dijkstra (argsDefault loopWeight 0) loopGraph 0 (fun _ => false) [] [] 6 = some (.ok (false, st)) ∧
      st.preds = [(1, [⟨0, 1, 0⟩, ⟨2, 1, 0⟩]), (2, [⟨1, 2, 0⟩]), (3, [⟨2, 3, 0⟩])] ∧ st.dist.getD 3 0 = 6 := by
    have h : (match dijkstra (argsDefault loopWeight 0) loopGraph 0 (fun _ => false) [] [] 6 with
      | some (.ok (false, st)) => decide (st.preds = [(1, [⟨0, 1, 0⟩, ⟨2, 1, 0⟩]), (2, [⟨1, 2, 0⟩]), (3, [⟨2, 3, 0⟩])] ∧ st.dist.getD 3 0 = 6)
      | _ => false) = true := by decide
    split at h
    · rename_i st heq
      exact ⟨st, heq, by simpa using h⟩
    · cases h
  obtain ⟨st', r1, r2, r3⟩ := hrun
  have hret : Returns (dijkstra (argsDefault loopWeight 0) loopGraph 0 (fun _ => false) [] []) (.ok (false, st')) :=
    ⟨6, fun fuel hf => loop_mono _ r1 hf⟩
  obtain rfl : st = st' := by simpa using returns_unique h1 hret
  obtain ⟨kept, k1, l, k2, _⟩ := h2 (by rw [r3]; decide)
  obtain ⟨kept', m1, _, m2⟩ := C63_dag (fun _ s => s) loopGraph 3 st.preds
  obtain rfl : kept = kept' := by simpa using returns_unique k1 m1
  have hp : PredPath loopGraph (st.preds.getD · []) 3 1 [⟨1, 2, 0⟩, ⟨2, 1, 0⟩, ⟨1, 2, 0⟩, ⟨2, 3, 0⟩] := by
    rw [r2]
    have x1 := PredPath.nil (g := loopGraph) (preds := fun v => Dict.getD [(1, [⟨0, 1, 0⟩, ⟨2, 1, 0⟩]), (2, [⟨1, 2, 0⟩]), (3, [⟨2, 3, 0⟩])] v []) (t := 3)
    have x2 := x1.cons (e := ⟨2, 3, 0⟩) (by decide)
    have x3 := x2.cons (e := ⟨1, 2, 0⟩) (by decide)
    have x4 := x3.cons (e := ⟨2, 1, 0⟩) (by decide)
    exact x4.cons (e := ⟨1, 2, 0⟩) (by decide)
  have e1 : (⟨1, 2, 0⟩ : EdgeDesc Nat) ∈ kept := (m2 _).mpr ⟨1, _, hp, by simp⟩
  have e2 : (⟨2, 1, 0⟩ : EdgeDesc Nat) ∈ kept := (m2 _).mpr ⟨1, _, hp, by simp⟩
  have c0 : loopGraph.Closed := by unfold GraphI.Closed; decide
  have c1 : loopGraph.vertices.Nodup := by decide
  have c2 : 1 ∈ loopGraph.vertices.filter fun _ => true := by decide
  have c3 : (⟨1, 2, 0⟩ : EdgeDesc Nat) ∈ loopGraph.outEdges 1 := by decide
  have c4 : (⟨2, 1, 0⟩ : EdgeDesc Nat) ∈ loopGraph.outEdges 2 := by decide
  have := (C121_view_topological_sort (⟨loopGraph, fun _ => true, fun e => decide (e ∈ kept)⟩ : GraphView Nat (EdgeDesc Nat))
    c0 c1 none).1
    ⟨1, c2, [⟨1, 2, 0⟩, ⟨2, 1, 0⟩], by simp, .cons c3 (.cons c4 (.nil _)), by
      intro e he
      simp only [List.mem_cons, List.not_mem_nil, or_false] at he
      rcases he with rfl | rfl
      · exact ⟨decide_eq_true e1, rfl, rfl⟩
      · exact ⟨decide_eq_true e2, rfl, rfl⟩⟩
  cases returns_unique k2 this

/-! ## Non-vacuity -/

example : loopGraph.vertices.Nodup ∧ loopGraph.Closed ∧ 0 ∈ loopGraph.vertices :=
  ⟨by decide, by unfold GraphI.Closed; decide, by decide⟩

/-- A graph with an arc of weight 0 on a cycle of weight 1. -/
example : NoZeroCycle Nat (EdgeDesc Nat) Examples.zeroGraph 0 Examples.zeroWeight := by
  have hc : Examples.zeroGraph.Closed := by unfold GraphI.Closed; decide
  intro u q p hq hp hne
  have := Examples.cycles_of_potential (weight := Examples.zeroWeight) hc 2 (by decide) (fun u => if u = 0 then 1 else 0) (by decide)
    (hq.end_mem hc (by decide)) hp hne
  omega

end PyBGL
