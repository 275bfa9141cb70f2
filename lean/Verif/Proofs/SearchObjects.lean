import Verif.Proofs.Dfs
import Verif.Model.SearchObjects

/-!
# Depth-first search with visitors that are objects
-/

namespace PyBGL
variable {V E σ Ev : Type} [DecidableEq V]

/-- A visitor that never raises, and remembers the outcome of the calls to `vis` until the first exception. -/
def recall (vis : Ev → PyM σ Unit) : Visitor Ev (Except PyErr Unit × σ) := fun ev r =>
  .ok (match r with
    | (.error err, x) => (.error err, x)
    | (.ok _, x) => vis ev x)

section
variable {vis : Ev → PyM σ Unit}

theorem recall_ok (ev : Ev) (x : σ) : recall vis ev (.ok (), x) = .ok (vis ev x) := rfl

theorem recall_error (ev : Ev) (err : PyErr) (x : σ) : recall vis ev (.error err, x) = .ok (.error err, x) := rfl

theorem emit_recall_error (evs : List Ev) (err : PyErr) (x : σ) : emit (recall vis) evs (.error err, x) = .ok (.error err, x) := by
  induction evs with
  | nil => rfl
  | cons e evs ih => rw [emit_cons, recall_error]; exact ih

theorem emit_recall (evs : List Ev) : ∀ (x : σ), emit (recall vis) evs (.ok (), x) = .ok (PyM.each vis evs x) := by
  induction evs with
  | nil => intro x; rfl
  | cons e evs ih =>
    intro x
    rw [emit_cons, recall_ok]
    simp only [PyM.each, PyM.bind]
    rcases h : vis e x with ⟨_ | u, x'⟩
    · exact emit_recall_error evs _ _
    · exact ih _

end

variable {g : GraphI V E} {p : E → Bool} {vis : DfsEvent V E → PyM σ Unit}

/-- Once an exception is remembered, it stays. -/
theorem dfs_recall_stays {err : PyErr} {x : σ} {fuel t : Nat} {s : DfsState V E (Except PyErr Unit × σ)} (hs : s.st = (.error err, x)) {c' : Dict V Color}
    {r' : Except PyErr Unit × σ} (h : loop (dfsStep g p (recall vis)) fuel t s = some (.ok (c', r'))) : r' = (.error err, x) := by
  have := loop_partial (dfsStep g p (recall vis)) (fun s => s.st = (.error err, x))
    (fun o => ∀ c' r', o = .ok (c', r') → r' = (.error err, x)) ?_ ?_ ?_ hs h
  · exact this c' r' rfl
  · intro t s s' hs hst
    unfold dfsStep at hst
    rw [hs] at hst
    simp only [emit_recall_error, recall_error] at hst
    split at hst
    · split at hst
      · cases hst
      · cases hst; rfl
    · split at hst
      · cases hst; rfl
      · split at hst
        · cases hst
        · split at hst
          · cases hst; rfl
          · cases hst; rfl
          · cases hst; rfl
  · intro t s o hs hst c' r' ho
    unfold dfsStep at hst
    rw [hs] at hst
    simp only [emit_recall_error, recall_error] at hst
    cases ho
    split at hst
    · split at hst
      · cases hst; rfl
      · cases hst
    · split at hst
      · cases hst
      · split at hst
        · cases hst
        · split at hst <;> cases hst
  · intro t s e _ _ c' r' ho; cases ho

/-- The outcome for the caller. -/
def outcome (c : Dict V Color) (r : Except PyErr Unit × σ) : Except PyErr (Dict V Color) × σ := (r.1.map fun _ => c, r.2)

theorem dfs_loop_recall : ∀ (fuel t : Nat) (c : Dict V Color) (x : σ) (stack : List (V × Nat × Nat)) (cur : Option (V × List E × Nat × Nat))
    (c' : Dict V Color) (r : Except PyErr Unit × σ),
    loop (dfsStep g p (recall vis)) fuel t ⟨c, (.ok (), x), stack, cur⟩ = some (.ok (c', r)) →
    loop (dfsStepM g p vis) fuel t ⟨c, x, stack, cur⟩ = some (.ok (outcome c' r)) := by
  intro fuel
  induction fuel with
  | zero => intro t c x stack cur c' r h; cases h
  | succ fuel ih =>
    intro t c x stack cur c' r h
    rw [loop] at h ⊢
    unfold dfsStep at h
    unfold dfsStepM
    cases cur with
    | none =>
      cases stack with
      | nil =>
        dsimp only at h ⊢
        cases h; rfl
      | cons f rest =>
        obtain ⟨u, i, n⟩ := f
        dsimp only at h ⊢
        rw [emit_recall] at h
        dsimp only at h
        rcases hv : PyM.each vis (pushCalls g u) x with ⟨err | _, x'⟩
        · rw [hv] at h; rw [dfs_recall_stays rfl h]; rfl
        · rw [hv] at h; exact ih _ _ _ _ _ _ _ h
    | some q =>
      obtain ⟨u, es, i, n⟩ := q
      dsimp only at h ⊢
      by_cases hin : i = n
      · rw [if_pos hin] at h ⊢
        rw [recall_ok] at h
        dsimp only at h
        rcases hv : vis (.finish u) x with ⟨err | _, x'⟩
        · rw [hv] at h; rw [dfs_recall_stays rfl h]; rfl
        · rw [hv] at h; exact ih _ _ _ _ _ _ _ h
      · rw [if_neg hin] at h ⊢
        cases hes : es[i]? with
        | none => rw [hes] at h; cases h
        | some e =>
          rw [hes] at h
          dsimp only at h ⊢
          rw [recall_ok] at h
          dsimp only at h
          rcases hv : vis (.examineEdge e) x with ⟨err | _, x'⟩
          · rw [hv] at h
            dsimp only at h ⊢
            simp only [emit_recall_error, recall_error] at h
            cases hc : colorOf c (g.target e) <;> rw [hc] at h <;> rw [dfs_recall_stays rfl h] <;> rfl
          · rw [hv] at h
            dsimp only at h ⊢
            cases hc : colorOf c (g.target e) with
            | white =>
              rw [hc] at h
              dsimp only at h ⊢
              rw [emit_recall] at h
              dsimp only at h
              rcases hv2 : PyM.each vis ([.treeEdge e, .discover (g.target e)] ++ pushCalls g (g.target e)) x' with ⟨err | _, x2⟩
              · rw [hv2] at h ⊢; rw [dfs_recall_stays rfl h]; rfl
              · rw [hv2] at h ⊢; exact ih _ _ _ _ _ _ _ h
            | gray =>
              rw [hc] at h
              dsimp only at h ⊢
              rw [recall_ok] at h
              dsimp only at h
              rcases hv2 : vis (.backEdge e) x' with ⟨err | _, x2⟩
              · rw [hv2] at h; rw [dfs_recall_stays rfl h]; rfl
              · rw [hv2] at h; exact ih _ _ _ _ _ _ _ h
            | black =>
              rw [hc] at h
              dsimp only at h ⊢
              rw [recall_ok] at h
              dsimp only at h
              rcases hv2 : vis (.forwardOrCrossEdge e) x' with ⟨err | _, x2⟩
              · rw [hv2] at h; rw [dfs_recall_stays rfl h]; rfl
              · rw [hv2] at h; exact ih _ _ _ _ _ _ _ h

theorem dfs_recall {s : V} {c c' : Dict V Color} {x : σ} {r : Except PyErr Unit × σ} {fuel : Nat}
    (h : dfs g p (recall vis) s c (.ok (), x) fuel = some (.ok (c', r))) : dfsM g p vis s c x fuel = some (.ok (outcome c' r)) := by
  unfold dfs at h
  unfold dfsM
  rw [emit_recall] at h
  dsimp only at h
  rcases hv : PyM.each vis ([.start s, .discover s] ++ pushCalls g s) x with ⟨err | _, x'⟩
  · rw [hv] at h ⊢; rw [dfs_recall_stays rfl h]; rfl
  · rw [hv] at h ⊢; exact dfs_loop_recall _ _ _ _ _ _ _ _ h

theorem dfs_error_recall {s : V} {c : Dict V Color} {err : PyErr} {x : σ} {c' : Dict V Color} {r : Except PyErr Unit × σ} {fuel : Nat}
    (h : dfs g p (recall vis) s c (.error err, x) fuel = some (.ok (c', r))) : r = (.error err, x) := by
  unfold dfs at h
  rw [emit_recall_error] at h
  exact dfs_recall_stays rfl h

theorem dfsSources_error_recall {err : PyErr} {x : σ} {fuel : Nat} (us : List V) : ∀ {c c' : Dict V Color} {r : Except PyErr Unit × σ},
    dfsSources g p (recall vis) fuel us c (.error err, x) = some (.ok (c', r)) → r = (.error err, x) := by
  induction us with
  | nil => intro c c' r h; cases h; rfl
  | cons u us ih =>
    intro c c' r h
    rw [dfsSources] at h
    split at h
    · split at h
      · rename_i c1 st1 h1
        rw [dfs_error_recall h1] at h
        exact ih h
      · exact dfs_error_recall h
    · exact ih h

theorem dfsSources_recall {fuel : Nat} (us : List V) : ∀ {c c' : Dict V Color} {x : σ} {r : Except PyErr Unit × σ},
    dfsSources g p (recall vis) fuel us c (.ok (), x) = some (.ok (c', r)) → dfsSourcesM g p vis fuel us c x = some (.ok (outcome c' r)) := by
  induction us with
  | nil => intro c c' x r h; cases h; rfl
  | cons u us ih =>
    intro c c' x r h
    rw [dfsSources] at h
    rw [dfsSourcesM]
    split at h
    · rename_i hw
      rw [if_pos hw]
      split at h
      · rename_i c1 st1 h1
        rw [dfs_recall h1]
        rcases st1 with ⟨err | _, x1⟩
        · rw [dfsSources_error_recall us h]; rfl
        · exact ih h
      · rename_i hne
        exact absurd h (hne c' r)
    · rename_i hw
      rw [if_neg hw]
      exact ih h

end PyBGL
