import Verif.Model.DijkstraPathVisitor
import Verif.Props.C149_Interruption
import Verif.Props.C142_DijkstraCalls

/-!
# C171: `dijkstra_shortest_path` called with a visitor
-/

namespace PyBGL
open Dijkstra Examples
variable {V E D : Type} [DecidableEq V] [DecidableEq E] [DecidableEq D]

section tell
variable {σ : Type} {stopExc : PyErr} {t : V}

omit [DecidableEq D] in
/-- With a visitor that never raises, the search is stopped as without visitor. -/
theorem tell_towards {vis : Option (DijkstraReader V E D σ)} (hv : ∀ f, vis = some f → ∀ ev st x, ∃ y, f ev st x = .ok y) {fin : DijkstraState V E D} :
    ∀ (l : List (DijkstraEvent V E × DijkstraState V E D)) (x : σ),
      (∃ y, tell (stopper stopExc (fun u => decide (u = t))) fin l () = .ok (fin, ()) ∧ tell (towards stopExc t vis) fin l x = .ok (fin, y)) ∨
      (∃ st, tell (stopper stopExc (fun u => decide (u = t))) fin l () = .error (stopExc, st) ∧ tell (towards stopExc t vis) fin l x = .error (stopExc, st)) := by
  intro l
  induction l with
  | nil => intro x; exact .inl ⟨x, rfl, rfl⟩
  | cons c l ih =>
    intro x
    obtain ⟨ev, st⟩ := c
    have hy : ∃ y, towards stopExc t vis ev st x = if ev = .examineVertex t then .error stopExc else .ok y := by
      cases vis with
      | none => exact ⟨x, rfl⟩
      | some f =>
        obtain ⟨y, hy⟩ := hv f rfl ev st x
        exact ⟨y, by simp only [towards, hy]⟩
    obtain ⟨y, hy⟩ := hy
    by_cases he : ev = .examineVertex t
    · rw [if_pos he] at hy
      refine .inr ⟨st, ?_, by simp only [tell, hy]⟩
      subst he
      simp [tell, stopper]
    · rw [if_neg he] at hy
      have h1 : stopper stopExc (fun u => decide (u = t)) ev st () = .ok () := by
        cases ev with
        | examineVertex u =>
          have : u ≠ t := fun h => he (h ▸ rfl)
          simp [stopper, this]
        | _ => rfl
      simp only [tell, h1, hy]
      exact ih y

omit [DecidableEq D] in
/-- A visitor that raises before `t` is examined. -/
theorem tell_towards_raises {vis : DijkstraReader V E D σ} {fin : DijkstraState V E D} {ev : DijkstraEvent V E} {st : DijkstraState V E D} {err : PyErr}
    {l2 : List (DijkstraEvent V E × DijkstraState V E D)} {y : σ} (he : vis ev st y = .error err) :
    ∀ (l1 : List (DijkstraEvent V E × DijkstraState V E D)) (x : σ), tell vis fin l1 x = .ok (fin, y) → (∀ c ∈ l1, c.1 ≠ .examineVertex t) →
      tell (towards stopExc t (some vis)) fin (l1 ++ (ev, st) :: l2) x = .error (err, st) := by
  intro l1
  induction l1 with
  | nil =>
    intro x h _
    cases h
    simp only [List.nil_append, tell, towards, he]
  | cons c l1 ih =>
    intro x h hn
    obtain ⟨ev', st'⟩ := c
    simp only [tell] at h
    cases hv : vis ev' st' x with
    | error e => rw [hv] at h; cases h
    | ok x' =>
      rw [hv] at h
      have h2 : towards stopExc t (some vis) ev' st' x = .ok x' := by
        simp only [towards, hv]
        rw [if_neg (hn _ List.mem_cons_self)]
      simp only [List.cons_append, tell, h2]
      exact ih x' h fun c hc => hn c (List.mem_cons_of_mem _ hc)

end tell

section
variable {W : D → Prop} {g : GraphI V E} {s t : V} {weight : E → D} {compare : D → D → Bool} {combine : D → D → D} {zero infty dflt : D} {σ : Type}

/-- **C171** (visitors that do not raise): `dijkstra_shortest_path` called with a visitor that never raises has the outcome that it has without visitor, and leaves the maps in the same state `st`;
the calls received by the visitor are `st.trace`, see C142: they end with `examine_vertex(t)` if `t` is reached, this call included. -/
theorem C171_quiet (stopExc : PyErr) (ord : SetOracle E) (h : SelectiveAlgebra compare combine zero infty W) (hg : g.Closed) (hs : s ∈ g.vertices)
    (hW : ∀ u ∈ g.vertices, ∀ e ∈ g.outEdges u, W (weight e)) (dist : Dict V D) (preds : Dict V (List E)) (hp : ∀ v, preds.getD v [] = [])
    (vis : Option (DijkstraReader V E D σ)) (hv : ∀ f, vis = some f → ∀ ev st x, ∃ y, f ev st x = .ok y) (x : σ) :
    ∃ b st, Returns (dijkstra (argsWith weight compare combine zero infty dflt) g s (fun u => decide (u = t)) dist preds) (.ok (b, st)) ∧
      (b = true → ∃ l, st.trace = l ++ [.examineVertex t]) ∧
      ∀ o, Returns (dijkstraShortestPath ord (argsWith weight compare combine zero infty dflt) g s t dist preds) o →
        Returns (dijkstraShortestPathV stopExc ord (argsWith weight compare combine zero infty dflt) g s t vis x dist preds) (.ok (o, st)) := by
  obtain ⟨init, search, fin, k1, k2, _⟩ := C149_visitor (dflt := dflt) h hg hs hW dist preds hp
  obtain ⟨b, st, us, evs, n, hr, _, _, h4, _⟩ := C142_calls_exact (argsWith weight compare combine zero infty dflt) hg hs (fun u => decide (u = t)) dist preds []
  rw [← dijkstra_eq_from] at hr
  refine ⟨b, st, hr, ?_, fun o ho => ?_⟩
  · rintro rfl
    rcases h4 with ⟨h, _⟩ | ⟨_, u, hu, h⟩
    · cases h
    · have : u = t := by simpa using hu
      subst this
      exact ⟨_, h⟩
  · have h5 := C149_towards _ g s stopExc (fun u => decide (u = t)) dist preds b st hr
    have h6 := returns_unique h5 (k2 _ (stopper stopExc (fun u => decide (u = t))) ())
    have h7 := k2 σ (towards stopExc t vis) x
    rcases tell_towards (stopExc := stopExc) (t := t) hv (fin := fin) (init ++ search) x with ⟨y, e1, e2⟩ | ⟨st', e1, e2⟩
    · rw [e1] at h6
      rw [e2] at h7
      cases b with
      | true => cases h6
      | false =>
        cases h6
        obtain ⟨N1, h1⟩ := hr
        obtain ⟨N2, h2⟩ := h7
        obtain ⟨N3, h3⟩ := ho
        refine ⟨max N1 (max N2 N3), fun fuel hf => ?_⟩
        have ha := h1 fuel (by omega)
        have hb := h2 fuel (by omega)
        have hc := h3 fuel (by omega)
        unfold dijkstraShortestPath at hc
        rw [ha] at hc
        cases hc
        unfold dijkstraShortestPathV
        rw [hb]
    · rw [e1] at h6
      rw [e2] at h7
      cases b with
      | false => cases h6
      | true =>
        cases h6
        obtain ⟨N1, h1⟩ := hr
        obtain ⟨N2, h2⟩ := h7
        obtain ⟨N3, h3⟩ := ho
        refine ⟨max N1 (max N2 N3), fun fuel hf => ?_⟩
        have ha := h1 fuel (by omega)
        have hb := h2 fuel (by omega)
        have hc := h3 fuel (by omega)
        unfold dijkstraShortestPath at hc
        rw [ha] at hc
        unfold dijkstraShortestPathV
        rw [hb]
        simp only [if_true]
        dsimp only at hc
        cases hm : makeShortestPath ord g s t st.preds fuel with
        | none => rw [hm] at hc; cases hc
        | some r =>
          rw [hm] at hc
          cases r with
          | error e => cases hc; rfl
          | ok q => cases hc; rfl

/-- **C171** (visitors that raise): the calls made by the search do not depend on the visitor. If the visitor raises an exception other than `DijkstraStopException` at one of them, before
`examine_vertex(t)` or at that call, this exception is the outcome, and the maps are as they were at that call. -/
theorem C171_raises (stopExc : PyErr) (ord : SetOracle E) (h : SelectiveAlgebra compare combine zero infty W) (hg : g.Closed) (hs : s ∈ g.vertices)
    (hW : ∀ u ∈ g.vertices, ∀ e ∈ g.outEdges u, W (weight e)) (dist : Dict V D) (preds : Dict V (List E)) (hp : ∀ v, preds.getD v [] = []) :
    ∃ (calls : List (DijkstraEvent V E × DijkstraState V E D)) (fin : DijkstraState V E D),
      Returns (dijkstra (argsWith weight compare combine zero infty dflt) g s (fun _ => false) dist preds) (.ok (false, fin)) ∧ calls.map (·.1) = fin.trace ∧
      ∀ (σ : Type) (vis : DijkstraReader V E D σ) (x y : σ) (l1 l2 : List (DijkstraEvent V E × DijkstraState V E D)) (ev : DijkstraEvent V E) (st : DijkstraState V E D) (err : PyErr),
        calls = l1 ++ (ev, st) :: l2 → tell vis fin l1 x = .ok (fin, y) → (∀ c ∈ l1, c.1 ≠ .examineVertex t) → vis ev st y = .error err → err ≠ stopExc →
        Returns (dijkstraShortestPathV stopExc ord (argsWith weight compare combine zero infty dflt) g s t (some vis) x dist preds) (.ok (.error err, st)) := by
  obtain ⟨init, search, fin, k1, k2, _, k4, _⟩ := C149_visitor (dflt := dflt) h hg hs hW dist preds hp
  refine ⟨init ++ search, fin, k1, k4, ?_⟩
  intro σ vis x y l1 l2 ev st err hc h1 h2 h3 h4
  obtain ⟨N, hN⟩ := k2 σ (towards stopExc t (some vis)) x
  rw [hc, tell_towards_raises h3 l1 x h1 h2] at hN
  refine ⟨N, fun fuel hf => ?_⟩
  unfold dijkstraShortestPathV
  rw [hN fuel hf]
  simp [h4]

end

/-- **C171** (default arguments): with non-negative weights and no cycle of weight zero, and a visitor that never raises, a path of least weight is returned if there is a path from `s` to `t`, and
`None` otherwise. -/
theorem C171_path_partial {ord : SetOracle E} (hord : ord.Valid) {g : GraphI V E} {s t : V} {weight : E → Int} {dflt : Int} (hg : g.Closed) (hs : s ∈ g.vertices)
    (hsrc : ∀ u ∈ g.vertices, ∀ e ∈ g.outEdges u, g.source e = u) (hW : ∀ u ∈ g.vertices, ∀ e ∈ g.outEdges u, 0 ≤ weight e)
    (hcyc : ∀ u q p, IsPath g s q u → IsPath g u p u → p ≠ [] → 0 < (p.map weight).sum)
    (dist : Dict V Int) (preds : Dict V (List E)) (hp : ∀ v, preds.getD v [] = []) (stopExc : PyErr) {σ : Type}
    (vis : Option (DijkstraReader V E Int σ)) (hv : ∀ f, vis = some f → ∀ ev st x, ∃ y, f ev st x = .ok y) (x : σ) :
    ∃ r st, Returns (dijkstraShortestPathV stopExc ord (argsLess weight dflt) g s t vis x dist preds) (.ok (.ok r, st)) ∧
      ((∃ p, IsPath g s p t ∧ (p.map weight).sum < INFINITY) → ∃ p, r = some p ∧ IsPath g s p t ∧ ∀ q, IsPath g s q t → (p.map weight).sum ≤ (q.map weight).sum) ∧
      ((∀ p, IsPath g s p t → INFINITY ≤ (p.map weight).sum) → r = none) := by
  obtain ⟨r, h1, h2, h3⟩ := C62_partial (dflt := dflt) (t := t) hord hg hs hsrc hW hcyc dist preds hp
  obtain ⟨b, st, _, _, h4⟩ := C171_quiet (dflt := dflt) (t := t) stopExc ord plusAlgebra hg hs hW dist preds hp vis hv x
  exact ⟨r, st, h4 _ h1, h2, h3⟩

theorem pathV_mono {σ : Type} {stopExc : PyErr} {ord : SetOracle E} {a : DijkstraArgs E D} {g : GraphI V E} {s t : V} {vis : Option (DijkstraReader V E D σ)} {x : σ} {dist : Dict V D}
    {preds : Dict V (List E)} {fuel : Nat} {r : Except PyErr (Except PyErr (Option (List E)) × DijkstraState V E D)}
    (h : dijkstraShortestPathV stopExc ord a g s t vis x dist preds fuel = some r) : Returns (dijkstraShortestPathV stopExc ord a g s t vis x dist preds) r := by
  refine ⟨fuel, fun fuel' hf => ?_⟩
  have hm : ∀ q, dijkstraV a g s (towards stopExc t vis) x dist preds fuel = some q → dijkstraV a g s (towards stopExc t vis) x dist preds fuel' = some q := by
    intro q hq
    unfold dijkstraV at hq ⊢
    split at hq
    · exact hq
    · exact loop_mono _ hq hf
  unfold dijkstraShortestPathV at h ⊢
  cases hd : dijkstraV a g s (towards stopExc t vis) x dist preds fuel with
  | none => rw [hd] at h; cases h
  | some q =>
    rw [hd] at h
    rw [hm q hd]
    rcases q with e | (⟨err, st⟩ | ⟨st, y⟩)
    · exact h
    · dsimp only at h ⊢
      split at h
      · rename_i hs
        rw [if_pos hs]
        cases hp : makeShortestPath ord g s t st.preds fuel with
        | none => rw [hp] at h; cases h
        | some p =>
          rw [hp] at h
          rw [show makeShortestPath ord g s t st.preds fuel' = some p from loop_mono _ hp hf]
          exact h
      · rename_i hs
        rw [if_neg hs]
        exact h
    · exact h

/-- What one expects of `dijkstra_shortest_path` when its visitor is a `DijkstraTowardsVisitor(t')`, which stops the search as well: with positive weights, if a path is returned, no
path from `s` to `t` weighs less, and no exception is raised. -/
def C171_statement (stopExc : PyErr) : Prop :=
  ∀ (ord : SetOracle (EdgeDesc Nat)) (g : GraphI Nat (EdgeDesc Nat)) (s t t' : Nat) (weight : EdgeDesc Nat → Int), ord.Valid → g.Closed → s ∈ g.vertices →
    (∀ e, 0 < weight e) →
    ∃ r st, Returns (dijkstraShortestPathV stopExc ord (argsLess weight 0) g s t (some (stopper stopExc (fun u => decide (u = t')))) () [] []) (.ok (.ok r, st)) ∧
      ∀ p, r = some p → ∀ q, IsPath g s q t → (p.map weight).sum ≤ (q.map weight).sum

/-- **C171**, false of a visitor that raises `DijkstraStopException` itself: in the graph `diamondGraph`, the search from 0 to 3 with `DijkstraTowardsVisitor(1)` returns the arc from 0 to 3, which weighs
10, though a path from 0 to 3 weighs 6; the search from 0 to 4 raises `IndexError`. -/
theorem C171_stop_counterexample (stopExc : PyErr) :
    (∃ st, Returns (dijkstraShortestPathV stopExc reverseOrder (argsLess diamondWeight 0) diamondGraph 0 3 (some (stopper stopExc (fun u => decide (u = 1)))) () [] [])
      (.ok (.ok (some [⟨0, 3, 0⟩]), st))) ∧
    (∃ st, Returns (dijkstraShortestPathV stopExc reverseOrder (argsLess diamondWeight 0) diamondGraph 0 4 (some (stopper stopExc (fun u => decide (u = 1)))) () [] [])
      (.ok (.error .indexError, st))) ∧ ¬ C171_statement stopExc := by
  have h1 : ∃ st, Returns (dijkstraShortestPathV stopExc reverseOrder (argsLess diamondWeight 0) diamondGraph 0 3 (some (stopper stopExc (fun u => decide (u = 1)))) () [] [])
      (.ok (.ok (some [⟨0, 3, 0⟩]), st)) := by
    have h : (match dijkstraShortestPathV stopExc reverseOrder (argsLess diamondWeight 0) diamondGraph 0 3 (some (stopper stopExc (fun u => decide (u = 1)))) () [] [] 5 with
      | some (.ok (.ok (some p), _)) => decide (p = [⟨0, 3, 0⟩])
      | _ => false) = true := by cases stopExc <;> decide
    split at h
    · rename_i p st heq
      have hp : p = [⟨0, 3, 0⟩] := by simpa using h
      subst hp
      exact ⟨st, pathV_mono heq⟩
    · cases h
  have h2 : ∃ st, Returns (dijkstraShortestPathV stopExc reverseOrder (argsLess diamondWeight 0) diamondGraph 0 4 (some (stopper stopExc (fun u => decide (u = 1)))) () [] [])
      (.ok (.error .indexError, st)) := by
    have h : (match dijkstraShortestPathV stopExc reverseOrder (argsLess diamondWeight 0) diamondGraph 0 4 (some (stopper stopExc (fun u => decide (u = 1)))) () [] [] 5 with
      | some (.ok (.error .indexError, _)) => true
      | _ => false) = true := by cases stopExc <;> decide
    split at h
    · rename_i st heq
      exact ⟨st, pathV_mono heq⟩
    · cases h
  refine ⟨h1, h2, fun h => ?_⟩
  obtain ⟨st, h1⟩ := h1
  have hpos : ∀ e, 0 < diamondWeight e := by
    intro e
    unfold diamondWeight
    split
    · split
      · decide
      · split <;> decide
    · split <;> decide
  obtain ⟨r, st', h3, h4⟩ := h reverseOrder diamondGraph 0 3 1 diamondWeight (fun t s => s.reverse_perm) (by unfold GraphI.Closed; decide) (by decide) hpos
  have h5 := returns_unique h1 h3
  cases h5
  have := h4 _ rfl [⟨0, 2, 0⟩, ⟨2, 3, 0⟩] (.cons (by decide) (.cons (by decide) (.nil _)))
  exact absurd this (by decide)

/-! ## A case that meets the hypotheses -/

/-- A visitor that counts the calls; the arguments of the search from 0 to 3 meet the hypotheses of the theorems above. -/
example : diamondGraph.Closed ∧ 0 ∈ diamondGraph.vertices ∧ (∀ u ∈ diamondGraph.vertices, ∀ e ∈ diamondGraph.outEdges u, 0 ≤ diamondWeight e ∧ diamondGraph.source e = u) ∧
    (match dijkstraShortestPathV .runtimeError reverseOrder (argsLess diamondWeight 0) diamondGraph 0 3 (some (fun _ _ n => .ok (n + 1))) (0 : Nat) [] [] 10 with
      | some (.ok (.ok (some p), st)) => decide (p = [⟨0, 2, 0⟩, ⟨2, 3, 0⟩]) && st.trace.getLast? == some (.examineVertex 3)
      | _ => false) = true ∧
    (match dijkstraShortestPathV .runtimeError reverseOrder (argsLess diamondWeight 0) diamondGraph 0 3
        (some (fun ev _ n => if ev = .finishVertex 1 then .error .keyError else .ok (n + 1))) (0 : Nat) [] [] 10 with
      | some (.ok (.error .keyError, _)) => true
      | _ => false) = true :=
  ⟨by unfold GraphI.Closed; decide, by decide, by decide, by decide, by decide⟩

end PyBGL
