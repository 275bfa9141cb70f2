import Verif.Props.C60_C64_Dijkstra
import Verif.Proofs.DijkstraCrash

/-!
# C149: visitors that read the maps, and exceptions raised by a visitor, in `dijkstra_shortest_paths`
-/

namespace PyBGL
open Dijkstra
variable {V E D : Type} [DecidableEq V] [DecidableEq E] [DecidableEq D]

/-- **C149**, for every algebra: there is a sequence of calls, each with the contents of the maps at that time, which does not depend on the visitor, and any
visitor receives these calls, in this order, up to the first one in which it raises an exception. This exception is that of `dijkstra_shortest_paths`, and the
maps stay as they are; if there is none, the result is that of a visitor that does nothing. The first calls are those of `initialize_vertex`, in the order of
`vertices`, when the predecessors are untouched and the distances of the vertices initialized so far are set; at all the others, and in the end, what the maps
contain can be relied on. -/
theorem C149_visitor {W : D → Prop} {g : GraphI V E} {s : V} {weight : E → D} {compare : D → D → Bool} {combine : D → D → D} {zero infty dflt : D}
    (h : SelectiveAlgebra compare combine zero infty W) (hg : g.Closed) (hs : s ∈ g.vertices) (hW : ∀ u ∈ g.vertices, ∀ e ∈ g.outEdges u, W (weight e))
    (dist : Dict V D) (preds : Dict V (List E)) (hp : ∀ v, preds.getD v [] = []) :
    ∃ (init search : List (DijkstraEvent V E × DijkstraState V E D)) (fin : DijkstraState V E D),
      Returns (dijkstra (argsWith weight compare combine zero infty dflt) g s (fun _ => false) dist preds) (.ok (false, fin)) ∧
      (∀ (σ : Type) (vis : DijkstraReader V E D σ) (x : σ),
        Returns (dijkstraV (argsWith weight compare combine zero infty dflt) g s vis x dist preds) (.ok (tell vis fin (init ++ search) x))) ∧
      init.map (·.1) = g.vertices.map .initializeVertex ∧ (init ++ search).map (·.1) = fin.trace ∧
      (∀ l1 c l2, init ++ search = l1 ++ c :: l2 → c.2.trace = l1.map (·.1) ++ [c.1]) ∧
      (∀ c ∈ init, c.2.preds = preds ∧
        ∀ v, c.2.dist.getD v dflt = if .initializeVertex v ∈ c.2.trace then (if v = s then zero else infty) else dist.getD v dflt) ∧
      ∀ st ∈ fin :: search.map (·.2), Trustworthy compare combine zero infty weight g s (fun v => st.dist.getD v dflt) (fun v => st.preds.getD v [])
        (examined st.trace) (finished st.trace) := by
  have hy := hyp_with (dflt := dflt) h hg hs hW
  obtain ⟨l1, l2, fin, k1, k2, k3, k4, k5, k6, k7, k8⟩ := crash hy dist hp
  refine ⟨l1, l2, fin, k1, k2, k3, k4, ?_, k6, ?_⟩
  · intro m c m' heq
    simpa using k5 m c m' heq
  · intro st hst
    rcases List.mem_cons.mp hst with rfl | hst
    · exact k8.trust hy
    · obtain ⟨c, hc, rfl⟩ := List.mem_map.mp hst
      exact (k7 c hc).trust hy

omit [DecidableEq V] [DecidableEq E] [DecidableEq D] in
/-- The states in which a visitor can stop. -/
theorem tell_error {σ : Type} {vis : DijkstraReader V E D σ} {fin st : DijkstraState V E D} {err : PyErr} :
    ∀ {l : List (DijkstraEvent V E × DijkstraState V E D)} {x : σ}, tell vis fin l x = .error (err, st) → ∃ ev, (ev, st) ∈ l := by
  intro l
  induction l with
  | nil => intro x h; cases h
  | cons c l ih =>
    intro x h
    obtain ⟨ev, st'⟩ := c
    simp only [tell] at h
    split at h
    · obtain ⟨ev', h'⟩ := ih h
      exact ⟨ev', List.mem_cons_of_mem _ h'⟩
    · cases h
      exact ⟨ev, by simp⟩

/-- **C149**, with the default arguments and non-negative weights: whatever the visitor, the call ends, and when an exception of the visitor interrupts it after
the initialization, the maps are left so that: every distance is `INFINITY` or the total weight of a path from `s`, the distances of the vertices for which
`examine_vertex` was called are the least ones, and every predecessor of a vertex `v` reached so far is the last arc of a path from `s` to `v` of weight
`pmap_vdist[v]`. -/
theorem C149_interrupted {g : GraphI V E} {s : V} {weight : E → Int} {dflt : Int} (hg : g.Closed) (hs : s ∈ g.vertices)
    (hW : ∀ u ∈ g.vertices, ∀ e ∈ g.outEdges u, 0 ≤ weight e) (dist : Dict V Int) (preds : Dict V (List E)) (hp : ∀ v, preds.getD v [] = [])
    {σ : Type} (vis : DijkstraReader V E Int σ) (x : σ) :
    ∃ r, Returns (dijkstraV (argsDefault weight dflt) g s vis x dist preds) (.ok r) ∧
      ∀ err st, r = .error (err, st) → (∃ u, .examineVertex u ∈ st.trace) →
        (∀ v ∈ g.vertices, st.dist.getD v dflt = INFINITY ∨ st.dist.getD v dflt < INFINITY ∧ ∃ p, IsPath g s p v ∧ (p.map weight).sum = st.dist.getD v dflt) ∧
        (∀ u, .examineVertex u ∈ st.trace → st.dist.getD u dflt < INFINITY ∧ ∀ p, IsPath g s p u → st.dist.getD u dflt ≤ (p.map weight).sum) ∧
        (∀ v, st.dist.getD v dflt < INFINITY → ∀ e ∈ st.preds.getD v [], ∃ p, IsPath g s (p ++ [e]) v ∧ ((p ++ [e]).map weight).sum = st.dist.getD v dflt) := by
  have hy := hyp_default (dflt := dflt) hg hs hW
  obtain ⟨l1, l2, fin, k1, k2, k3, k4, k5, k6, k7, k8⟩ := crash hy dist hp
  refine ⟨_, k2 σ vis x, ?_⟩
  intro err st hr ⟨u0, hu0⟩
  obtain ⟨ev, hm⟩ := tell_error hr
  have hseen : Seen (argsDefault weight dflt) g s st := by
    rcases List.mem_append.mp hm with hm | hm
    · exfalso
      obtain ⟨m, m', hmm⟩ := List.append_of_mem hm
      have h1 := k5 m (ev, st) (m' ++ l2) (by rw [hmm]; simp)
      have h2 : st.trace <+: l1.map (·.1) := by
        refine ⟨m'.map (·.1), ?_⟩
        have : st.trace = m.map (·.1) ++ [ev] := by simpa using h1
        rw [this, hmm]; simp
      have h3 := h2.subset hu0
      rw [k3] at h3
      simp at h3
    · exact k7 (ev, st) hm
  have hT := hseen.trust hy
  have hlt : ∀ v : Int, (argsDefault weight dflt : DijkstraArgs E Int).compare v INFINITY = true ↔ v < INFINITY := by
    intro v; simp [argsDefault, less]
  have hsum : ∀ {v : V} {p : List E} {d : Int}, IsPath g s p v → d < INFINITY →
      pathWeight (closedPlus INFINITY) 0 weight p = d → (p.map weight).sum = d := by
    intro v p d hpth hd hw
    obtain ⟨j1, j2, j3⟩ := pathWeight_plus weight p (path_edges hg hW hpth hs)
    have := j3 (j2.mp (by omega)); omega
  have hmem : ∀ u, .examineVertex u ∈ st.trace → u ∈ examined st.trace := by
    intro u hu
    unfold examined
    rw [List.mem_filterMap]
    exact ⟨_, hu, rfl⟩
  refine ⟨?_, ?_, ?_⟩
  · intro v hv
    rcases hT.witness v hv with h1 | ⟨h1, p, h2, h3⟩
    · exact .inl h1
    · exact .inr ⟨(hlt _).mp h1, p, h2, hsum h2 ((hlt _).mp h1) h3⟩
  · intro u hu
    obtain ⟨h0, h1, h2⟩ := hT.exact u (hmem u hu)
    refine ⟨(hlt _).mp h1, fun p hpth => ?_⟩
    have h3 := best_plus hg hs hW h2
    rcases h3 with ⟨_, _, h4⟩ | ⟨h4, _⟩
    · have := h4 _ ⟨p, hpth, rfl⟩
      simp only [less, decide_eq_false_iff_not, not_lt] at this
      exact this
    · exfalso
      have := (hlt _).mp h1
      rw [h4] at this
      omega
  · intro v hv e he
    obtain ⟨u, hu, h1, h2, h3, p, h4, h5⟩ := hT.pred v e he
    exact ⟨p, h4, hsum h4 hv h5⟩

/-- A visitor that raises `err` in `examine_vertex(u)` if `stop u`, as `DijkstraTowardsVisitor` does (dijkstra_shortest_paths.py:377-401). -/
def stopper (err : PyErr) (stop : V → Bool) : DijkstraReader V E D Unit := fun ev _ _ =>
  match ev with
  | .examineVertex u => if stop u then .error err else .ok ()
  | _ => .ok ()

omit [DecidableEq V] [DecidableEq E] [DecidableEq D] in
theorem tell_quiet {σ : Type} {vis : DijkstraReader V E D σ} {fin : DijkstraState V E D} {x : σ} :
    ∀ {l : List (DijkstraEvent V E × DijkstraState V E D)}, (∀ c ∈ l, vis c.1 c.2 x = .ok x) → tell vis fin l x = .ok (fin, x) := by
  intro l
  induction l with
  | nil => intro _; rfl
  | cons c l ih =>
    intro h
    obtain ⟨ev, st⟩ := c
    simp only [tell]
    rw [h (ev, st) (by simp)]
    exact ih fun c hc => h c (by simp [hc])

theorem edgesCalls_quiet {a : DijkstraArgs E D} {g : GraphI V E} (w_su : D) (es : List E) : ∀ (st : DijkstraState V E D),
    ∀ c ∈ edgesCalls a g w_su st es, ∀ u, c.1 ≠ .examineVertex u := by
  induction es with
  | nil => intro st c hc; cases hc
  | cons e es ih =>
    intro st c hc
    rw [edgesCalls] at hc
    rcases List.mem_append.mp hc with hc | hc
    · intro u
      unfold edgeCalls queueCalls at hc
      rcases List.mem_cons.mp hc with rfl | hc
      · simp
      · split at hc
        · rcases List.mem_append.mp hc with hc | hc
          · split at hc
            · rw [List.mem_singleton] at hc; subst hc; simp
            · cases hc
          · rw [List.mem_singleton] at hc; subst hc; simp
        · split at hc <;> (rw [List.mem_singleton] at hc; subst hc; simp)
    · exact ih _ c hc

/-- **C149** (`DijkstraTowardsVisitor`): with a visitor that raises an exception in `examine_vertex(u)` for some vertices `u` and does nothing else, the call is
interrupted exactly when `examine_vertex` is called for such a vertex, and the maps are left as they are at that time. -/
theorem C149_towards (a : DijkstraArgs E D) (g : GraphI V E) (s : V) (err : PyErr) (stop : V → Bool) (dist : Dict V D) (preds : Dict V (List E)) :
    (∀ b st, Returns (dijkstra a g s stop dist preds) (.ok (b, st)) →
      Returns (dijkstraV a g s (stopper err stop) () dist preds) (.ok (if b then .error (err, st) else .ok (st, ())))) := by
  have hloop : ∀ fuel t st b fin, loop (dijkstraStep a g stop) fuel t st = some (.ok (b, fin)) →
      loop (dijkstraStepV a g (stopper err stop)) fuel t (st, ()) = some (.ok (if b then .error (err, fin) else .ok (fin, ()))) := by
    intro fuel
    induction fuel with
    | zero => intro t st b fin h; cases h
    | succ fuel ih =>
      intro t st b fin h
      simp only [loop] at h ⊢
      unfold dijkstraStep at h
      unfold dijkstraStepV
      by_cases hne : st.heap.nonempty = true
      · rw [if_pos hne] at h ⊢
        dsimp only
        cases hpop : st.heap.pop a.ord with
        | error e => rw [hpop] at h; cases h
        | ok q =>
          obtain ⟨u, heap⟩ := q
          rw [hpop] at h
          dsimp only at h ⊢
          rw [vertexV_eq]
          unfold vertexCalls
          by_cases hstop : stop u = true
          · rw [if_pos hstop] at h
            obtain ⟨rfl, rfl⟩ : true = b ∧ _ = fin := by simpa using h
            simp [tell, stopper, hstop]
          · rw [if_neg hstop] at h
            have h1 := ih (t + 1) _ b fin h
            have h2 : tell (stopper err stop) (vertexState a g u { st with heap := heap }) ((.examineVertex u, ({ st with heap := heap }).emit (.examineVertex u)) ::
                (edgesCalls a g (({ st with heap := heap }).distOf a u) (({ st with heap := heap }).emit (.examineVertex u)) (g.outEdges u) ++
                  [(.finishVertex u, vertexState a g u { st with heap := heap })])) () = .ok (vertexState a g u { st with heap := heap }, ()) := by
              refine tell_quiet fun c hc => ?_
              rcases List.mem_cons.mp hc with rfl | hc
              · simp [stopper, hstop]
              · rcases List.mem_append.mp hc with hc | hc
                · have := edgesCalls_quiet _ _ _ c hc
                  unfold stopper
                  split
                  · rename_i u' hu'
                    exact absurd hu' (this u')
                  · rfl
                · rw [List.mem_singleton] at hc; subst hc; rfl
            rw [h2]
            exact h1
      · rw [if_neg hne] at h ⊢
        obtain ⟨rfl, rfl⟩ : false = b ∧ st = fin := by simpa using h
        rfl
  rintro b st ⟨N, hN⟩
  refine ⟨N, fun fuel hf => ?_⟩
  have h1 := hloop fuel 0 _ b st (hN fuel hf)
  unfold dijkstraV
  rw [initV_eq, tell_quiet (by
    intro c hc
    have h2 : c.1 ∈ (initCalls a s _ g.vertices).map (·.1) := List.mem_map_of_mem hc
    rw [(initCalls_chron g.vertices _).2.2] at h2
    obtain ⟨u, _, h3⟩ := List.mem_map.mp h2
    rw [← h3]; rfl)]
  exact h1

namespace Examples

/-- A visitor that raises an exception when an arc that leads to the vertex 3 is relaxed for the first time: the distance of 3 is that of a path which is not the
shortest one, and that of 0 is final. -/
example : (match dijkstraV (argsDefault diamondWeight 0) diamondGraph 0
      (fun ev _ (_ : Unit) => match ev with | .edgeRelaxed e => if e.target = 3 then .error .keyError else .ok () | _ => .ok ()) () [] [] 10 with
    | some (.ok (.error (.keyError, st))) => st.dist == [(0, 0), (1, 2), (2, 3), (3, 10), (4, INFINITY)] &&
        st.preds == [(1, [⟨0, 1, 0⟩]), (2, [⟨0, 2, 0⟩]), (3, [⟨0, 3, 0⟩])] && examined st.trace == [0]
    | _ => false) = true := by decide

/-- A visitor that reads the map of distances each time a vertex is discovered. -/
example : (match dijkstraV (argsDefault diamondWeight 0) diamondGraph 0
      (fun ev st (x : List (Nat × Int)) => match ev with | .discoverVertex v => .ok (x ++ [(v, st.dist.getD v 0)]) | _ => .ok x) [] [] [] 10 with
    | some (.ok (.ok (st, x))) => x == [(1, 2), (2, 3), (3, 10)] && st.dist == [(0, 0), (1, 2), (2, 3), (3, 6), (4, INFINITY)]
    | _ => false) = true := by decide

end Examples

end PyBGL
