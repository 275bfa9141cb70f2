import Verif.Proofs.Dfs
import Verif.Model.DfsApps

/-!
# C51–C54: depth-first search and topological sort

Calls received by a visitor are described through the visitor `recorder`, which stores them; `C51_any_visitor` transfers the
description to every other visitor.
-/

namespace PyBGL
variable {V E : Type} [DecidableEq V] {g : GraphI V E} {p : E → Bool}

theorem emit_recorder_nil {Ev : Type} (evs : List Ev) : emit recorder evs [] = .ok evs := by
  rw [emit_recorder]; rfl

/-- **C51**: `depth_first_search(s, g, if_push=p)` on a graph where finitely many vertices are reachable from `s` through the edges
satisfying `p` terminates; each vertex so reachable is discovered exactly once and finished exactly once; no other vertex is;
each edge satisfying `p` and leaving such a vertex is examined exactly once (as many times as it is listed), and no other edge is;
the visited vertices are left black and the other ones white. -/
theorem C51_visits (s : V) (U : List V) (hU : ∀ v, Reach (g.through p) s v → v ∈ U) :
    ∃ c tr, Returns (dfs g p recorder s [] []) (.ok (c, tr)) ∧
      (discovered tr).Nodup ∧ (finished tr).Perm (discovered tr) ∧
      (∀ v, v ∈ discovered tr ↔ Reach (g.through p) s v) ∧
      (examined tr).Perm ((discovered tr).flatMap (g.through p).outEdges) ∧
      (∀ v, (Reach (g.through p) s v → colorOf c v = .black) ∧ (¬ Reach (g.through p) s v → colorOf c v = .white)) := by
  obtain ⟨c, tr, h, _, hr⟩ := dfs_facts hU
  have hv := hr _ recorder []
  rw [emit_recorder_nil] at hv
  have hreach : ∀ v, v ∈ discovered tr ↔ Reach (g.through p) s v := fun v => by
    rw [h.reach]; exact ⟨fun ⟨x, hx, h'⟩ => by simp at hx; exact hx ▸ h', fun h' => ⟨s, by simp, h'⟩⟩
  refine ⟨c, tr, hv, h.nodup, h.perm, hreach, h.examined, fun v => ⟨fun h' => ?_, fun h' => ?_⟩⟩
  · rw [h.color, if_pos ((hreach v).mpr h')]
  · rw [h.color, if_neg (fun hm => h' ((hreach v).mp hm))]

/-- **C51** (whatever the visitor): the calls do not depend on the visitor: any visitor receives the calls that `recorder` records,
up to the first one at which it raises, and the search ends with the outcome of these calls. -/
theorem C51_any_visitor {σ : Type} (vis : Visitor (DfsEvent V E) σ) (st : σ) (s : V) (U : List V)
    (hU : ∀ v, Reach (g.through p) s v → v ∈ U) :
    ∃ c tr, Returns (dfs g p recorder s [] []) (.ok (c, tr)) ∧
      Returns (dfs g p vis s [] st) ((emit vis tr st).map (fun st' => (c, st'))) := by
  obtain ⟨c, tr, h, _, hr⟩ := dfs_facts hU
  have hv := hr _ recorder []
  rw [emit_recorder_nil] at hv
  exact ⟨c, tr, hv, hr σ vis st⟩

/-- **C51** (`depth_first_search_graph`): same statement for several sources, all the vertices when none is given. -/
theorem C51_graph (sources U : List V)
    (hU : ∀ s ∈ (if sources = [] then g.vertices else sources), ∀ v, Reach (g.through p) s v → v ∈ U) :
    ∃ c tr, Returns (dfsGraph g sources p recorder [] []) (.ok (c, tr)) ∧
      (discovered tr).Nodup ∧ (finished tr).Perm (discovered tr) ∧
      (∀ v, v ∈ discovered tr ↔ ∃ s ∈ (if sources = [] then g.vertices else sources), Reach (g.through p) s v) ∧
      (examined tr).Perm ((discovered tr).flatMap (g.through p).outEdges) := by
  obtain ⟨c, tr, h, hr⟩ := dfsSources_facts hU
  have hv := hr _ recorder []
  rw [emit_recorder_nil] at hv
  refine ⟨c, tr, ?_, h.nodup, h.perm, h.reach, h.examined⟩
  unfold dfsGraph
  cases sources <;> exact hv

/-- Consequence of the invariants shared by C52 and C53. -/
theorem dfs_trace (s : V) (U : List V) (hU : ∀ v, Reach (g.through p) s v → v ∈ U) {c : Dict V Color} {tr : List (DfsEvent V E)}
    (h : Returns (dfs g p recorder s [] []) (.ok (c, tr))) : DfsFacts g p [s] c tr := by
  obtain ⟨c', tr', h', _, hr⟩ := dfs_facts hU
  have hv := hr _ recorder []
  rw [emit_recorder_nil] at hv
  have := returns_unique hv h
  simp only [Except.map, Except.ok.injEq, Prod.mk.injEq] at this
  obtain ⟨rfl, rfl⟩ := this
  exact h'

/-- The split of a list at an element that occurs once is unique. -/
theorem split_unique {α : Type} {x : α} {a a' b b' : List α} (e : a ++ x :: b = a' ++ x :: b') (h1 : x ∉ a) (h2 : x ∉ b) :
    a = a' ∧ b = b' := by
  induction a generalizing a' with
  | nil =>
    cases a' with
    | nil => simp at e; exact ⟨rfl, e⟩
    | cons y a' =>
      simp at e
      exact absurd (e.2 ▸ (by simp : x ∈ a' ++ x :: b')) h2
  | cons y a ih =>
    cases a' with
    | nil => simp at e; exact absurd (e.1 ▸ (by simp)) h1
    | cons z a' =>
      simp at e
      obtain ⟨rfl, e2⟩ := e
      obtain ⟨e3, e4⟩ := ih e2 (fun hm => h1 (by simp [hm]))
      exact ⟨by rw [e3], e4⟩

/-- **C52**: let `b` be the calls made between `discover_vertex(u)` and `finish_vertex(u)`. A vertex is discovered in this interval iff it is
finished in it: any two intervals are disjoint or nested. The vertices discovered in this interval are exactly those that can be
reached from `u` through edges leading to vertices not yet discovered when `u` was; in particular they are reachable from `u`. -/
theorem C52_nesting (s : V) (U : List V) (hU : ∀ v, Reach (g.through p) s v → v ∈ U) {c : Dict V Color} {a b d : List (DfsEvent V E)}
    {u : V} (h : Returns (dfs g p recorder s [] []) (.ok (c, a ++ .discover u :: b ++ .finish u :: d))) :
    (∀ w, .discover w ∈ b ↔ .finish w ∈ b) ∧
    (∀ w, .discover w ∈ b ↔ w ≠ u ∧ Reach (g.through (fun e => p e && decide (g.target e ∉ discovered a))) u w) ∧
    (∀ w, .discover w ∈ b → Reach (g.through p) u w) := by
  have f := dfs_trace s U hU h
  obtain ⟨_, _, _, a', b', e, h1, h2, _⟩ := f.ok (a ++ .discover u :: b) (.finish u) d rfl
  -- the split is unique
  have hnd := f.nodup
  have hab : a = a' ∧ b = b' := by
    have hu : DfsEvent.discover u ∉ a := by
      intro hm
      simp only [discovered_append, discovered_cons, List.append_assoc] at hnd
      have := (List.nodup_append.mp hnd).2.2 u (mem_discovered.mpr hm) u (by simp)
      exact this rfl
    have hu' : DfsEvent.discover u ∉ b := by
      intro hm
      simp only [discovered_append, discovered_cons, List.append_assoc] at hnd
      have h1 := (List.nodup_append.mp hnd).2.1
      have := (List.nodup_append.mp h1).2.2 u (by simp) u (by simp [mem_discovered.mpr hm])
      exact this rfl
    exact split_unique e hu hu'
  obtain ⟨rfl, rfl⟩ := hab
  refine ⟨fun w => by rw [← mem_discovered, ← mem_finished]; exact h1 w, fun w => by rw [← mem_discovered]; exact h2 w, ?_⟩
  intro w hw
  exact (((h2 w).mp (mem_discovered.mpr hw)).2).through_mono (fun e he => by simp at he; exact he.1)

/-- A vertex is finished after it is discovered. -/
theorem C52_order (s : V) (U : List V) (hU : ∀ v, Reach (g.through p) s v → v ∈ U) {c : Dict V Color} {a b : List (DfsEvent V E)}
    {u : V} (h : Returns (dfs g p recorder s [] []) (.ok (c, a ++ .finish u :: b))) : .discover u ∈ a ∧ .finish u ∉ a := by
  have f := dfs_trace s U hU h
  obtain ⟨h1, _⟩ := f.ok a (.finish u) b rfl
  have := traceColor_gray.mp h1
  exact ⟨mem_discovered.mp this.1, fun hm => this.2 (mem_finished.mpr hm)⟩

theorem DfsFacts.fin_disc {us : List V} {c : Dict V Color} {tr a b : List (DfsEvent V E)} (f : DfsFacts g p us c tr) (e : tr = a ++ b)
    {v : V} (hv : v ∈ finished a) : v ∈ discovered a := by
  obtain ⟨a1, a2, rfl⟩ := List.append_of_mem (mem_finished.mp hv)
  have := (traceColor_gray.mp (f.ok a1 (.finish v) (a2 ++ b) (by simp [e])).1).1
  simp [this]

/-- **C53**: the edges reported as tree, back, forward or cross edges are the edges examined, in the same order. When an edge is reported, it is reported
as a tree edge iff its target has not been discovered yet, as a back edge iff its target has been discovered and is not finished,
as a forward or cross edge iff its target is finished. A back edge closes a cycle: it leaves a vertex reachable from its target. -/
theorem C53_edges (s : V) (U : List V) (hU : ∀ v, Reach (g.through p) s v → v ∈ U) {c : Dict V Color} {tr : List (DfsEvent V E)}
    (h : Returns (dfs g p recorder s [] []) (.ok (c, tr))) :
    classified tr = examined tr ∧
    (∀ a x b e, tr = a ++ x :: b → x ∈ [DfsEvent.treeEdge e, .backEdge e, .forwardOrCrossEdge e] →
      (x = .treeEdge e ↔ .discover (g.target e) ∉ a) ∧
      (x = .backEdge e ↔ .discover (g.target e) ∈ a ∧ .finish (g.target e) ∉ a) ∧
      (x = .forwardOrCrossEdge e ↔ .finish (g.target e) ∈ a)) ∧
    (∀ e, .backEdge e ∈ tr → ∃ u, e ∈ (g.through p).outEdges u ∧ Reach (g.through p) (g.target e) u ∧ Reach (g.through p) s u) := by
  have f := dfs_trace s U hU h
  refine ⟨f.classified, ?_, ?_⟩
  · intro a x b e ht hx
    have hok := f.ok a x b ht
    have hfd := fun v => f.fin_disc ht (v := v)
    simp only [List.mem_cons, List.not_mem_nil, or_false] at hx
    simp only [← mem_discovered, ← mem_finished]
    rcases hx with rfl | rfl | rfl
    · obtain ⟨h1, h2⟩ := traceColor_white.mp hok
      simp [h1, h2]
    · obtain ⟨h1, h2⟩ := traceColor_gray.mp hok.1
      simp [h1, h2]
    · have h1 := traceColor_black.mp hok
      simp [h1, hfd _ h1]
  · intro e he
    obtain ⟨a, b, ht⟩ := List.append_of_mem he
    obtain ⟨_, u, hu, hp, hr⟩ := f.ok a _ b ht
    refine ⟨u, hp, hr, ?_⟩
    obtain ⟨x, hx, hr'⟩ := (f.reach u).mp (by rw [ht]; simp [hu])
    simp at hx; exact hx ▸ hr'

/-! ## Topological sort -/

theorem emit_topo (tr : List (DfsEvent V E)) (st : List V) :
    ((∀ e, .backEdge e ∉ tr) → emit topoVisitor tr st = .ok ((finished tr).reverse ++ st)) ∧
    (∀ e, .backEdge e ∈ tr → emit topoVisitor tr st = .error .runtimeError) := by
  induction tr generalizing st with
  | nil => simp
  | cons x tr ih =>
    rw [emit_cons]
    cases x with
    | backEdge e =>
      refine ⟨fun h => absurd (by simp) (h e), fun _ _ => rfl⟩
    | finish u =>
      simp only [topoVisitor]
      obtain ⟨h1, h2⟩ := ih (u :: st)
      refine ⟨fun h => ?_, fun e he => h2 e (by simpa using he)⟩
      rw [h1 (fun e he => h e (by simp [he]))]
      simp
    | _ =>
      simp only [topoVisitor]
      obtain ⟨h1, h2⟩ := ih st
      refine ⟨fun h => ?_, fun e he => h2 e (by simpa using he)⟩
      rw [h1 (fun e he => h e (by simp [he]))]
      simp

/-- Without back edge, what follows a vertex is finished before it. -/
theorem DfsFacts.finish_order {us : List V} {c : Dict V Color} {tr : List (DfsEvent V E)}
    (f : DfsFacts g (fun _ => true) us c tr) (hnb : ∀ e, .backEdge e ∉ tr) {u w : V} {es : List E} (hp : IsPath g u es w) (hne : es ≠ []) :
    ∀ a b, tr = a ++ .finish u :: b → w ∈ finished a := by
  induction hp with
  | nil => exact absurd rfl hne
  | @cons u v e es he hp' ih =>
    intro a b ht
    obtain ⟨_, h2, _⟩ := f.ok a _ b ht
    have hb : g.target e ∈ finished a := by
      rcases h2 e (List.mem_filter.mpr ⟨he, rfl⟩) with h | ⟨_, h⟩
      · exact traceColor_black.mp h
      · exact absurd (by rw [ht]; simp [h]) (hnb e)
    cases es with
    | nil => cases hp'; exact hb
    | cons e' es' =>
      obtain ⟨a1, a2, rfl⟩ := List.append_of_mem (mem_finished.mp hb)
      have := ih (by simp) a1 (a2 ++ .finish u :: b) (by simp [ht])
      simp [this]

theorem topo_returns {g : GraphI V E} (hc : g.Closed) (stack : Option (List V)) :
    ∃ c tr, DfsFacts g (fun _ => true) g.vertices c tr ∧
      Returns (topologicalSort g stack) (emit topoVisitor tr (stack.getD [])) := by
  have hthr : g.through (fun _ => true) = g := by unfold GraphI.through; simp
  obtain ⟨c, tr, f, hr⟩ := dfsSources_facts (g := g) (p := fun _ => true) (us := g.vertices) (U := g.vertices) (by
    intro s hs v hr
    rw [hthr] at hr
    exact hr.closed (P := fun x => x ∈ g.vertices) (fun u hu e he => hc u hu e he) hs)
  refine ⟨c, tr, f, ?_⟩
  obtain ⟨N, hN⟩ := hr _ topoVisitor (stack.getD [])
  refine ⟨N, fun fuel hf => ?_⟩
  have : dfsSources g (fun _ => true) topoVisitor fuel g.vertices [] (stack.getD []) = _ := hN fuel hf
  unfold topologicalSort dfsGraph
  rw [show ([] : List V).isEmpty = true from rfl, if_pos rfl, this]
  cases emit topoVisitor tr (stack.getD []) <;> rfl

/-- **C54** (acyclic graphs): on a graph without cycle, `topological_sort(g, stack)` returns a permutation of the vertices, put in front of the
elements of `stack`, in which the source of each edge comes before its target. -/
theorem C54_acyclic {g : GraphI V E} (hn : g.vertices.Nodup) (hc : g.Closed) (hac : ¬ HasCycle g) (stack : Option (List V)) :
    ∃ l, Returns (topologicalSort g stack) (.ok (l ++ stack.getD [])) ∧ l.Perm g.vertices ∧
      ∀ u ∈ g.vertices, ∀ e ∈ g.outEdges u, ∃ a b d, l = a ++ u :: b ++ g.target e :: d := by
  obtain ⟨c, tr, f, hr⟩ := topo_returns hc stack
  have hthr : g.through (fun _ => true) = g := by unfold GraphI.through; simp
  have hdisc : ∀ v, v ∈ discovered tr ↔ v ∈ g.vertices := by
    intro v
    rw [f.reach, hthr]
    refine ⟨fun ⟨s, hs, hr⟩ => hr.closed (P := fun x => x ∈ g.vertices) (fun u hu e he => hc u hu e he) hs,
      fun h => ⟨v, h, Reach.refl _ _⟩⟩
  have hnb : ∀ e, .backEdge e ∉ tr := by
    intro e he
    obtain ⟨a, b, ht⟩ := List.append_of_mem he
    obtain ⟨_, u, hu, hp, es, hes⟩ := f.ok a _ b ht
    rw [hthr] at hes
    exact hac ⟨u, (hdisc u).mp (by rw [ht]; simp [hu]), e :: es, by simp, .cons (List.mem_filter.mp hp).1 hes⟩
  rw [(emit_topo tr _).1 hnb] at hr
  refine ⟨_, hr, ?_, ?_⟩
  · refine (List.reverse_perm _).trans (f.perm.trans ?_)
    exact (List.perm_ext_iff_of_nodup f.nodup hn).mpr hdisc
  · intro u hu e he
    have : u ∈ finished tr := f.perm.mem_iff.mpr ((hdisc u).mpr hu)
    obtain ⟨a, b, ht⟩ := List.append_of_mem (mem_finished.mp this)
    have hv := f.finish_order hnb (.cons he (.nil _)) (by simp) a b ht
    obtain ⟨x, y, hxy⟩ := List.append_of_mem hv
    refine ⟨(finished b).reverse, y.reverse, x.reverse, ?_⟩
    rw [ht]; simp [hxy]

/-- **C54** (cyclic graphs): `topological_sort` raises `RuntimeError` if the graph has a cycle. -/
theorem C54_cyclic {g : GraphI V E} (hc : g.Closed) (hcy : HasCycle g) (stack : Option (List V)) :
    Returns (topologicalSort g stack) (.error .runtimeError) := by
  obtain ⟨c, tr, f, hr⟩ := topo_returns hc stack
  have hthr : g.through (fun _ => true) = g := by unfold GraphI.through; simp
  suffices h : ∃ e, .backEdge e ∈ tr by
    obtain ⟨e, he⟩ := h
    rwa [(emit_topo tr _).2 e he] at hr
  by_contra hnb
  have hnb : ∀ e, .backEdge e ∉ tr := fun e he => hnb ⟨e, he⟩
  obtain ⟨u, hu, es, hne, hp⟩ := hcy
  have : u ∈ finished tr := f.perm.mem_iff.mpr ((f.reach u).mpr ⟨u, hu, Reach.refl _ _⟩)
  obtain ⟨a, b, ht⟩ := List.append_of_mem (mem_finished.mp this)
  have h1 := f.finish_order hnb hp hne a b ht
  have h2 := (traceColor_gray.mp (f.ok a _ b ht).1).2
  exact h2 h1

/-! ## A concrete graph -/

/-- The graph `0 → 1`, `0 → 2`, `1 → 2`. -/
def triangle : GraphI Nat (EdgeDesc Nat) := (Graph.mk 3 [(0, [(1, [0]), (2, [0])]), (1, [(2, [0])]), (2, [])]).toI

theorem triangle_closed : triangle.Closed := by unfold GraphI.Closed; decide

theorem triangle_acyclic : ¬ HasCycle triangle := by
  rintro ⟨u, hu, es, hne, hp⟩
  have key : ∀ u es v, IsPath triangle u es v → es ≠ [] → u < v := by
    intro u es v h
    induction h with
    | nil => exact fun h => absurd rfl h
    | @cons u v e es he hp ih =>
      intro _
      have h1 : u < triangle.target e := by
        have : ∀ u, u ≤ 2 ∨ triangle.outEdges u = [] := by
          intro u
          by_cases h : u ≤ 2
          · exact .inl h
          · right
            have e0 : ¬ 0 = u := by omega
            have e1 : ¬ 1 = u := by omega
            have e2 : ¬ 2 = u := by omega
            simp [triangle, Graph.toI, Graph.outEdges, Dict.getD, Dict.get?, e0, e1, e2]
        rcases this u with h | h
        · have : ∀ u ≤ 2, ∀ e ∈ triangle.outEdges u, u < triangle.target e := by decide
          exact this u h e he
        · rw [h] at he; simp at he
      cases es with
      | nil => cases hp; exact h1
      | cons e' es' => exact Nat.lt_trans h1 (ih (by simp))
  exact absurd (key u es u hp hne) (Nat.lt_irrefl _)

example : triangle.vertices.Nodup ∧ triangle.Closed ∧ ¬ HasCycle triangle := ⟨by decide, triangle_closed, triangle_acyclic⟩

example : (∀ v, Reach (triangle.through (fun _ => true)) 0 v → v ∈ triangle.vertices) := by
  intro v h
  have : triangle.through (fun _ => true) = triangle := by unfold GraphI.through; simp
  rw [this] at h
  exact h.closed (P := fun x => x ∈ triangle.vertices) (fun u hu e he => triangle_closed u hu e he) (by decide)

/-- The graph `0 → 1 → 0`. -/
def twoCycle : GraphI Nat (EdgeDesc Nat) := (Graph.mk 2 [(0, [(1, [0])]), (1, [(0, [0])])]).toI

example : twoCycle.Closed ∧ HasCycle twoCycle := by
  refine ⟨by unfold GraphI.Closed; decide, 0, by decide, [⟨0, 1, 0⟩, ⟨1, 0, 0⟩], by simp, ?_⟩
  exact .cons (by decide) (.cons (by decide) (.nil _))

end PyBGL
