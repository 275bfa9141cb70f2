import Verif.Proofs.SearchObjects
import Verif.Props.C51_C54_Dfs

/-!
# C163: what a visitor has received when an exception leaves a depth-first search; the deque handed over to `topological_sort`
-/

namespace PyBGL
variable {V E σ : Type} [DecidableEq V]

/-- **C163** (visitors): `depth_first_search_graph` makes the same calls to every visitor; the first exception of the visitor is the outcome, and the visitor has then received the calls
that precede it and no other. -/
theorem C163_visitor (g : GraphI V E) (p : E → Bool) (sources U : List V) (hU : ∀ s ∈ (if sources = [] then g.vertices else sources), ∀ v, Reach (g.through p) s v → v ∈ U) :
    ∃ c tr, Returns (dfsGraph g sources p recorder [] []) (.ok (c, tr)) ∧
      ∀ (σ : Type) (vis : DfsEvent V E → PyM σ Unit) (x : σ),
        Returns (dfsGraphM g sources p vis [] x) (.ok ((PyM.each vis tr x).1.map (fun _ => c), (PyM.each vis tr x).2)) := by
  obtain ⟨c, tr, f, hr⟩ := dfsSources_facts hU
  have hs : (if sources.isEmpty then g.vertices else sources) = if sources = [] then g.vertices else sources := by cases sources <;> rfl
  refine ⟨c, tr, ?_, fun σ vis x => ?_⟩
  · have hv := hr _ recorder []
    rw [emit_recorder_nil] at hv
    unfold dfsGraph
    rw [hs]
    exact hv
  · obtain ⟨N, hN⟩ := hr _ (recall vis) (.ok (), x)
    refine ⟨N, fun fuel hf => ?_⟩
    have h := hN fuel hf
    rw [emit_recall] at h
    unfold dfsGraphM
    rw [hs]
    exact dfsSources_recall _ h

/-- "`l` is a sorted set of vertices": without repetition, and every edge from one of them leads to one that comes later. -/
def SortedSet (g : GraphI V E) (l : List V) : Prop :=
  l.Nodup ∧ ∀ u ∈ l, ∀ e ∈ g.outEdges u, ∃ a b d, l = a ++ u :: b ++ g.target e :: d

omit [DecidableEq V] in
/-- The calls received by the visitor of `topological_sort`: those before the first back edge. -/
theorem each_topo (tr : List (DfsEvent V E)) : ∀ st : List V,
    ((∀ e, .backEdge e ∉ tr) ∧ PyM.each topoListener tr st = (.ok (), (finished tr).reverse ++ st)) ∨
    ∃ pre e rest, tr = pre ++ .backEdge e :: rest ∧ (∀ e, .backEdge e ∉ pre) ∧ PyM.each topoListener tr st = (.error .runtimeError, (finished pre).reverse ++ st) := by
  induction tr with
  | nil => intro st; exact .inl ⟨by simp, rfl⟩
  | cons x tr ih =>
    intro st
    have other : ∀ y st', topoListener y st = (.ok (), st') → x = y → (∀ e, y ≠ .backEdge e) → st' = (finished [y]).reverse ++ st →
        ((∀ e, .backEdge e ∉ x :: tr) ∧ PyM.each topoListener (x :: tr) st = (.ok (), (finished (x :: tr)).reverse ++ st)) ∨
        ∃ pre e rest, x :: tr = pre ++ .backEdge e :: rest ∧ (∀ e, .backEdge e ∉ pre) ∧
          PyM.each topoListener (x :: tr) st = (.error .runtimeError, (finished pre).reverse ++ st) := by
      rintro y st' hy rfl hne hst
      have hstep : PyM.each topoListener (x :: tr) st = PyM.each topoListener tr st' := by
        simp only [PyM.each, PyM.bind, hy]
      have hf : ∀ l, finished (x :: l) = finished [x] ++ finished l := fun l => by rw [← finished_append]; rfl
      rcases ih st' with ⟨h1, h2⟩ | ⟨pre, e, rest, h1, h2, h3⟩
      · refine .inl ⟨fun e he => ?_, ?_⟩
        · rcases List.mem_cons.mp he with h | h
          · exact hne e h.symm
          · exact h1 e h
        · rw [hstep, h2, hst, hf]; simp
      · refine .inr ⟨x :: pre, e, rest, by rw [h1]; rfl, fun e he => ?_, ?_⟩
        · rcases List.mem_cons.mp he with h | h
          · exact hne e h.symm
          · exact h2 e h
        · rw [hstep, h3, hst, hf]; simp
    cases x with
    | backEdge e => exact .inr ⟨[], e, tr, rfl, by simp, rfl⟩
    | finish u => exact other _ (u :: st) rfl rfl (by simp) (by simp)
    | _ => exact other _ st rfl rfl (by simp) (by simp)

/-- Until the first back edge, the vertices finished form a sorted set closed under successors. -/
theorem DfsFacts.sorted_prefix {g : GraphI V E} {us : List V} {c : Dict V Color} {tr : List (DfsEvent V E)} (f : DfsFacts g (fun _ => true) us c tr)
    {pre rest : List (DfsEvent V E)} (ht : tr = pre ++ rest) (hnb : ∀ e, .backEdge e ∉ pre) :
    (finished pre).Nodup ∧ ∀ u ∈ finished pre, ∀ e ∈ g.outEdges u, ∃ a b d, (finished pre).reverse = a ++ u :: b ++ g.target e :: d := by
  constructor
  · have : (finished tr).Nodup := f.perm.nodup_iff.mpr f.nodup
    rw [ht, finished_append] at this
    exact (List.nodup_append.mp this).1
  · intro u hu e he
    obtain ⟨a, b, hp⟩ := List.append_of_mem (mem_finished.mp hu)
    have ht' : tr = a ++ .finish u :: (b ++ rest) := by rw [ht, hp]; simp
    obtain ⟨_, h2, _⟩ := f.ok a _ _ ht'
    have hv : g.target e ∈ finished a := by
      rcases h2 e (List.mem_filter.mpr ⟨he, rfl⟩) with h | ⟨_, h⟩
      · exact traceColor_black.mp h
      · exact absurd (by rw [hp]; simp [h]) (hnb e)
    obtain ⟨x, y, hxy⟩ := List.append_of_mem hv
    refine ⟨(finished b).reverse, y.reverse, x.reverse, ?_⟩
    rw [hp]; simp [hxy]

/-- What happens to the deque the vertices are put into. -/
theorem topo_deque {g : GraphI V E} (hn : g.vertices.Nodup) (hc : g.Closed) (st : List V) :
    (¬ HasCycle g ∧ ∃ c l, Returns (dfsGraphM g [] (fun _ => true) topoListener [] st) (.ok (.ok c, l ++ st)) ∧ l.Perm g.vertices ∧ SortedSet g l) ∨
    (HasCycle g ∧ ∃ l, Returns (dfsGraphM g [] (fun _ => true) topoListener [] st) (.ok (.error .runtimeError, l ++ st)) ∧ l ⊆ g.vertices ∧ SortedSet g l) := by
  have hthr : g.through (fun _ => true) = g := by unfold GraphI.through; simp
  have hU : ∀ s ∈ g.vertices, ∀ v, Reach (g.through (fun _ => true)) s v → v ∈ g.vertices := by
    intro s hs v hr
    rw [hthr] at hr
    exact hr.closed (P := fun x => x ∈ g.vertices) (fun u hu e he => hc u hu e he) hs
  obtain ⟨c, tr, f, hr⟩ := dfsSources_facts hU
  have hrun : Returns (dfsGraphM g [] (fun _ => true) topoListener [] st)
      (.ok ((PyM.each topoListener tr st).1.map (fun _ => c), (PyM.each topoListener tr st).2)) := by
    obtain ⟨N, hN⟩ := hr _ (recall topoListener) (.ok (), st)
    refine ⟨N, fun fuel hf => ?_⟩
    have h := hN fuel hf
    rw [emit_recall] at h
    exact dfsSources_recall _ h
  have hdisc : ∀ v, v ∈ discovered tr ↔ v ∈ g.vertices := by
    intro v
    rw [f.reach, hthr]
    refine ⟨fun ⟨s, hs, hr⟩ => hr.closed (P := fun x => x ∈ g.vertices) (fun u hu e he => hc u hu e he) hs, fun h => ⟨v, h, Reach.refl _ _⟩⟩
  have sorted : ∀ pre rest, tr = pre ++ rest → (∀ e, .backEdge e ∉ pre) → SortedSet g (finished pre).reverse := by
    intro pre rest ht hnb
    have := f.sorted_prefix ht hnb
    exact ⟨List.nodup_reverse.mpr this.1, fun u hu => this.2 u (List.mem_reverse.mp hu)⟩
  rcases each_topo tr st with ⟨h1, h2⟩ | ⟨pre, e, rest, h1, h2, h3⟩
  · refine .inl ⟨fun hcy => ?_, c, (finished tr).reverse, ?_, ?_, sorted tr [] (by simp) h1⟩
    · obtain ⟨u, hu, es, hne, hp⟩ := hcy
      have : u ∈ finished tr := f.perm.mem_iff.mpr ((hdisc u).mpr hu)
      obtain ⟨a, b, ht⟩ := List.append_of_mem (mem_finished.mp this)
      exact (traceColor_gray.mp (f.ok a _ b ht).1).2 (f.finish_order h1 hp hne a b ht)
    · rw [h2] at hrun; exact hrun
    · exact (List.reverse_perm _).trans (f.perm.trans ((List.perm_ext_iff_of_nodup f.nodup hn).mpr hdisc))
  · refine .inr ⟨?_, (finished pre).reverse, ?_, ?_, sorted pre _ h1 h2⟩
    · obtain ⟨_, u, hu, hp, es, hes⟩ := f.ok pre _ rest h1
      rw [hthr] at hes
      exact ⟨u, (hdisc u).mp (by rw [h1]; simp [hu]), e :: es, by simp, .cons (List.mem_filter.mp hp).1 hes⟩
    · rw [h3] at hrun; exact hrun
    · intro v hv
      have : v ∈ finished tr := by rw [h1, finished_append]; simp [List.mem_reverse.mp hv]
      exact (hdisc v).mp (f.perm.mem_iff.mp this)

/-- "The deque handed over is updated in place": after the call it holds the vertices, in front of what it held, sorted if the graph has no cycle, and it is what is returned; if
the graph has a cycle, `RuntimeError` is raised, and what was put in front of the deque is a sorted set of vertices. -/
def SortsInPlace (g : GraphI V E) (stack : List V) (r : SortCall V) : Prop :=
  ∃ l, r.given = some (l ++ stack) ∧ SortedSet g l ∧
    ((¬ HasCycle g ∧ r.result = .ok (l ++ stack) ∧ l.Perm g.vertices) ∨ (HasCycle g ∧ r.result = .error .runtimeError ∧ l ⊆ g.vertices))

/-- **C163 for deques that are not empty**: `topological_sort(g, stack)` updates `stack` in place. -/
theorem C163_in_place_partial {g : GraphI V E} (hn : g.vertices.Nodup) (hc : g.Closed) {stack : List V} (hs : stack ≠ []) :
    ∃ r, Returns (topologicalSortM g (some stack)) (.ok r) ∧ SortsInPlace g stack r := by
  cases stack with
  | nil => exact absurd rfl hs
  | cons x xs =>
    rcases topo_deque hn hc (x :: xs) with ⟨h1, c, l, ⟨N, h2⟩, h3, h4⟩ | ⟨h1, l, ⟨N, h2⟩, h3, h4⟩
    · refine ⟨⟨.ok (l ++ x :: xs), some (l ++ x :: xs)⟩, ⟨N, fun fuel hf => ?_⟩, l, rfl, h4, .inl ⟨h1, rfl, h3⟩⟩
      rw [topologicalSortM, h2 fuel hf]; rfl
    · refine ⟨⟨.error .runtimeError, some (l ++ x :: xs)⟩, ⟨N, fun fuel hf => ?_⟩, l, rfl, h4, .inr ⟨h1, rfl, h3⟩⟩
      rw [topologicalSortM, h2 fuel hf]; rfl

/-- **C163** (no deque, or an empty one): the deque handed over is left as it is; the one returned is new. -/
theorem C163_new_deque {g : GraphI V E} (hn : g.vertices.Nodup) (hc : g.Closed) {stack : Option (List V)} (hs : stack = none ∨ stack = some []) :
    ∃ r, Returns (topologicalSortM g stack) (.ok r) ∧ r.given = stack ∧
      ((¬ HasCycle g ∧ ∃ l, r.result = .ok l ∧ l.Perm g.vertices ∧ SortedSet g l) ∨ (HasCycle g ∧ r.result = .error .runtimeError)) := by
  have hm : ∀ fuel, topologicalSortM g stack fuel =
      (dfsGraphM g [] (fun _ => true) topoListener [] [] fuel).map (·.map fun r => ⟨r.1.map (fun _ => r.2), stack⟩) := by
    intro fuel
    rcases hs with rfl | rfl <;> rfl
  rcases topo_deque hn hc [] with ⟨h1, c, l, ⟨N, h2⟩, h3, h4⟩ | ⟨h1, l, ⟨N, h2⟩, h3, h4⟩
  · refine ⟨⟨.ok (l ++ []), stack⟩, ⟨N, fun fuel hf => ?_⟩, rfl, .inl ⟨h1, l, by simp, h3, h4⟩⟩
    rw [hm, h2 fuel hf]; rfl
  · refine ⟨⟨.error .runtimeError, stack⟩, ⟨N, fun fuel hf => ?_⟩, rfl, .inr ⟨h1, rfl⟩⟩
    rw [hm, h2 fuel hf]; rfl

/-- **C163 is false of an empty deque**: it is still empty after the call. -/
theorem C163_empty_counterexample :
    ¬ ∀ (g : GraphI Nat (EdgeDesc Nat)) (stack : List Nat), g.vertices.Nodup → g.Closed →
      ∃ r, Returns (topologicalSortM g (some stack)) (.ok r) ∧ SortsInPlace g stack r := by
  intro h
  obtain ⟨r, h1, l, h2, _, h3⟩ := h triangle [] (by decide) triangle_closed
  obtain ⟨r', h1', h2', _⟩ := C163_new_deque (g := triangle) (by decide) triangle_closed (stack := some []) (.inr rfl)
  have : r = r' := by have := returns_unique h1 h1'; cases this; rfl
  subst this
  rw [h2'] at h2
  have hl : l = [] := by simpa using h2
  subst hl
  rcases h3 with ⟨_, _, h3⟩ | ⟨h3, _⟩
  · exact absurd h3.length_eq (by decide)
  · exact triangle_acyclic h3

/-- **C163** (the other model): `topologicalSort` of C54 gives the same result. -/
theorem C163_same_result {g : GraphI V E} (hc : g.Closed) (stack : Option (List V)) :
    ∃ r, Returns (topologicalSortM g stack) (.ok r) ∧ Returns (topologicalSort g stack) r.result := by
  have key : ∀ (st : List V) (given : List V → Option (List V)) (st0 : Option (List V)), st0.getD [] = st → ∃ r,
      Returns (fun fuel => (dfsGraphM g [] (fun _ => true) topoListener [] st fuel).map (·.map fun r => (⟨r.1.map (fun _ => r.2), given r.2⟩ : SortCall V))) (.ok r) ∧
      Returns (topologicalSort g st0) r.result := by
    intro st given st0 hst
    have hthr : g.through (fun _ => true) = g := by unfold GraphI.through; simp
    obtain ⟨c, tr, _, hr⟩ := dfsSources_facts (g := g) (p := fun _ => true) (us := g.vertices) (U := g.vertices) (by
      intro s hs v hr
      rw [hthr] at hr
      exact hr.closed (P := fun x => x ∈ g.vertices) (fun u hu e he => hc u hu e he) hs)
    refine ⟨⟨(PyM.each topoListener tr st).1.map (fun _ => (PyM.each topoListener tr st).2), given (PyM.each topoListener tr st).2⟩, ?_, ?_⟩
    · obtain ⟨N, hN⟩ := hr _ (recall topoListener) (.ok (), st)
      refine ⟨N, fun fuel hf => ?_⟩
      have h := hN fuel hf
      rw [emit_recall] at h
      have h' : dfsGraphM g [] (fun _ => true) topoListener [] st fuel = _ := dfsSources_recall _ h
      dsimp only
      rw [h']
      simp only [Option.map_some, Except.map, outcome]
      cases (PyM.each topoListener tr st).1 <;> rfl
    · have hsame : emit topoVisitor tr st = (PyM.each topoListener tr st).1.map (fun _ => (PyM.each topoListener tr st).2) := by
        rcases each_topo tr st with ⟨h1, h2⟩ | ⟨pre, e, rest, h1, _, h3⟩
        · rw [h2, (emit_topo tr st).1 h1]; rfl
        · rw [h3, (emit_topo tr st).2 e (by rw [h1]; simp)]; rfl
      obtain ⟨N, hN⟩ := hr _ topoVisitor st
      refine ⟨N, fun fuel hf => ?_⟩
      have h : dfsSources g (fun _ => true) topoVisitor fuel g.vertices [] st = _ := hN fuel hf
      unfold topologicalSort dfsGraph
      rw [hst, show ([] : List V).isEmpty = true from rfl, if_pos rfl, h, ← hsame]
      cases emit topoVisitor tr st <;> rfl
  match stack with
  | none => exact key [] (fun _ => none) none rfl
  | some [] => exact key [] (fun _ => some []) (some []) rfl
  | some (x :: xs) => exact key (x :: xs) some (some (x :: xs)) rfl

/-! ## Examples -/

/-- The graph `0 → 1`, `2 → 3 → 2`. -/
def tailCycle : GraphI Nat (EdgeDesc Nat) := (Graph.mk 4 [(0, [(1, [0])]), (1, []), (2, [(3, [0])]), (3, [(2, [0])])]).toI

theorem tailCycle_sorted : topologicalSortM tailCycle (some [7]) 30 = some (.ok ⟨.error .runtimeError, some [0, 1, 7]⟩) := rfl

example : triangle.vertices.Nodup ∧ triangle.Closed ∧ ([7] : List Nat) ≠ [] ∧ topologicalSortM triangle (some [7]) 30 = some (.ok ⟨.ok [0, 1, 2, 7], some [0, 1, 2, 7]⟩) :=
  ⟨by decide, triangle_closed, by simp, rfl⟩

example : topologicalSortM triangle (some []) 30 = some (.ok ⟨.ok [0, 1, 2], some []⟩) := rfl

end PyBGL
