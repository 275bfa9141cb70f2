import Verif.Proofs.Dfs
import Verif.Proofs.Bfs
import Verif.Spec.SearchColors

/-!
# Visitors that read the colours
-/

namespace PyBGL
variable {V E σ Ev : Type} [DecidableEq V]

/-- A visitor that never raises: it keeps the colours, and remembers the first exception of `vis`. -/
def swallow (paint dry : Dict V Color → Ev → Dict V Color) (vis : ColorReader Ev V σ) : Visitor Ev (Except (PyErr × Dict V Color) (Dict V Color × σ)) :=
  fun ev r => .ok (match r with
    | .error r => .error r
    | .ok (c, x) =>
      match vis ev (paint c ev) x with
      | .ok x' => .ok (dry (paint c ev) ev, x')
      | .error err => .error (err, paint c ev))

section
variable {paint dry : Dict V Color → Ev → Dict V Color} {vis : ColorReader Ev V σ}

omit [DecidableEq V] in
theorem swallow_ok (ev : Ev) (c : Dict V Color) (x : σ) : swallow paint dry vis ev (.ok (c, x)) =
    .ok (match vis ev (paint c ev) x with | .ok x' => .ok (dry (paint c ev) ev, x') | .error err => .error (err, paint c ev)) := rfl

omit [DecidableEq V] in
theorem swallow_error (ev : Ev) (r : PyErr × Dict V Color) : swallow paint dry vis ev (.error r) = .ok (.error r) := rfl

omit [DecidableEq V] in
theorem emit_swallow_error (evs : List Ev) (r : PyErr × Dict V Color) : emit (swallow paint dry vis) evs (.error r) = .ok (.error r) := by
  induction evs with
  | nil => rfl
  | cons e evs ih => rw [emit_cons, swallow_error]; exact ih

omit [DecidableEq V] in
theorem emit_swallow (evs : List Ev) : ∀ (c : Dict V Color) (x : σ), emit (swallow paint dry vis) evs (.ok (c, x)) = .ok (tellColors paint dry vis evs c x) := by
  induction evs with
  | nil => intro c x; rfl
  | cons e evs ih =>
    intro c x
    rw [emit_cons]
    simp only [swallow, tellColors]
    cases vis e (paint c e) x with
    | error err => exact emit_swallow_error evs _
    | ok x' => exact ih _ _

omit [DecidableEq V] in
/-- Calls that do not change the colours. -/
theorem emit_swallow_still (evs : List Ev) (c : Dict V Color) (h : ∀ e ∈ evs, paint c e = c ∧ dry c e = c) : ∀ (x : σ),
    emit (swallow paint dry vis) evs (.ok (c, x)) = .ok (match emitC vis c evs x with | .error err => .error (err, c) | .ok x' => .ok (c, x')) := by
  unfold emitC
  induction evs with
  | nil => intro x; rfl
  | cons e evs ih =>
    intro x
    rw [emit_cons, emit_cons]
    simp only [swallow]
    rw [(h e (by simp)).1, (h e (by simp)).2]
    cases vis e c x with
    | error err => exact emit_swallow_error evs _
    | ok x' => exact ih (fun e' h' => h e' (by simp [h'])) x'

end

/-! ## Depth-first search -/

section
variable {g : GraphI V E} {p : E → Bool} {vis : ColorReader (DfsEvent V E) V σ}

theorem paint_pushCalls (c : Dict V Color) (u : V) : ∀ e ∈ pushCalls g u, dfsPaint c e = c ∧ dfsDry c e = c := by
  intro e he
  unfold pushCalls at he
  obtain ⟨x, _, rfl⟩ := List.mem_map.mp he
  exact ⟨rfl, rfl⟩

/-- Once an exception is remembered, it stays. -/
theorem dfs_error_stays {r : PyErr × Dict V Color} {fuel t : Nat} {s : DfsState V E (Except (PyErr × Dict V Color) (Dict V Color × σ))}
    (hs : s.st = .error r) {c' : Dict V Color} {r' : Except (PyErr × Dict V Color) (Dict V Color × σ)}
    (h : loop (dfsStep g p (swallow dfsPaint dfsDry vis)) fuel t s = some (.ok (c', r'))) : r' = .error r := by
  have := loop_partial (dfsStep g p (swallow dfsPaint dfsDry vis)) (fun s => s.st = .error r)
    (fun o => ∀ c' r', o = .ok (c', r') → r' = .error r) ?_ ?_ ?_ hs h
  · exact this c' r' rfl
  · intro t s s' hs hst
    unfold dfsStep at hst
    rw [hs] at hst
    simp only [emit_swallow_error, swallow_error] at hst
    split at hst
    · split at hst
      · cases hst
      · cases hst; rfl
    · split at hst
      · cases hst; rfl
      · split at hst
        · cases hst
        · split at hst
          · cases hst; rfl
          · cases hst; rfl
          · cases hst; rfl
  · intro t s o hs hst c' r' ho
    unfold dfsStep at hst
    rw [hs] at hst
    simp only [emit_swallow_error, swallow_error] at hst
    cases ho
    split at hst
    · split at hst
      · cases hst; rfl
      · cases hst
    · split at hst
      · cases hst
      · split at hst
        · cases hst
        · split at hst <;> cases hst
  · intro t s e _ _ c' r' ho; cases ho

/-- The loop with `vis` and the loop with `swallow vis`. -/
theorem dfs_loop_colors : ∀ (fuel t : Nat) (c : Dict V Color) (x : σ) (stack : List (V × Nat × Nat)) (cur : Option (V × List E × Nat × Nat))
    (c' : Dict V Color) (r : Except (PyErr × Dict V Color) (Dict V Color × σ)),
    loop (dfsStep g p (swallow dfsPaint dfsDry vis)) fuel t ⟨c, .ok (c, x), stack, cur⟩ = some (.ok (c', r)) →
    loop (dfsStepV g p vis) fuel t ⟨c, x, stack, cur⟩ = some (.ok r) := by
  intro fuel
  induction fuel with
  | zero => intro t c x stack cur c' r h; cases h
  | succ fuel ih =>
    intro t c x stack cur c' r h
    rw [loop] at h ⊢
    unfold dfsStep at h
    unfold dfsStepV
    cases cur with
    | none =>
      cases stack with
      | nil =>
        dsimp only at h ⊢
        cases h; rfl
      | cons f rest =>
        obtain ⟨u, i, n⟩ := f
        dsimp only at h ⊢
        rw [emit_swallow_still _ _ (paint_pushCalls c u)] at h
        dsimp only at h
        cases hv : emitC vis c (pushCalls g u) x with
        | error err => rw [hv] at h; rw [dfs_error_stays rfl h]
        | ok x' => rw [hv] at h; exact ih _ _ _ _ _ _ _ h
    | some q =>
      obtain ⟨u, es, i, n⟩ := q
      dsimp only at h ⊢
      by_cases hin : i = n
      · rw [if_pos hin] at h ⊢
        simp only [swallow, dfsPaint, dfsDry] at h
        cases hv : vis (.finish u) (c.set u .black) x with
        | error err => rw [hv] at h; rw [dfs_error_stays rfl h]
        | ok x' => rw [hv] at h; exact ih _ _ _ _ _ _ _ h
      · rw [if_neg hin] at h ⊢
        cases hes : es[i]? with
        | none => rw [hes] at h; cases h
        | some e =>
          rw [hes] at h
          dsimp only at h ⊢
          rw [swallow_ok] at h
          dsimp only [dfsPaint, dfsDry] at h
          cases hv : vis (.examineEdge e) c x with
          | error err =>
            rw [hv] at h
            dsimp only at h ⊢
            simp only [emit_swallow_error, swallow_error] at h
            cases hc : colorOf c (g.target e) <;> rw [hc] at h <;> rw [dfs_error_stays rfl h]
          | ok x' =>
            rw [hv] at h
            dsimp only at h ⊢
            cases hc : colorOf c (g.target e) with
            | white =>
              rw [hc] at h
              dsimp only at h ⊢
              rw [List.cons_append, List.cons_append, List.nil_append, emit_cons, swallow_ok] at h
              dsimp only [dfsPaint, dfsDry] at h
              cases hv2 : vis (.treeEdge e) c x' with
              | error err =>
                rw [hv2] at h
                simp only [emit_swallow_error] at h
                rw [dfs_error_stays rfl h]
              | ok x2 =>
                rw [hv2] at h
                dsimp only at h
                rw [emit_cons, swallow_ok] at h
                dsimp only [dfsPaint, dfsDry] at h ⊢
                cases hv3 : vis (.discover (g.target e)) (c.set (g.target e) .gray) x2 with
                | error err =>
                  rw [hv3] at h
                  simp only [emit_swallow_error] at h
                  rw [dfs_error_stays rfl h]
                | ok x3 =>
                  rw [hv3] at h
                  dsimp only at h
                  rw [emit_swallow_still _ _ (paint_pushCalls _ _)] at h
                  dsimp only at h ⊢
                  cases hv4 : emitC vis (c.set (g.target e) .gray) (pushCalls g (g.target e)) x3 with
                  | error err => rw [hv4] at h; rw [dfs_error_stays rfl h]
                  | ok x4 => rw [hv4] at h; exact ih _ _ _ _ _ _ _ h
            | gray =>
              rw [hc] at h
              dsimp only at h ⊢
              rw [swallow_ok] at h
              dsimp only [dfsPaint, dfsDry] at h
              cases hv2 : vis (.backEdge e) c x' with
              | error err => rw [hv2] at h; rw [dfs_error_stays rfl h]
              | ok x'' => rw [hv2] at h; exact ih _ _ _ _ _ _ _ h
            | black =>
              rw [hc] at h
              dsimp only at h ⊢
              rw [swallow_ok] at h
              dsimp only [dfsPaint, dfsDry] at h
              cases hv2 : vis (.forwardOrCrossEdge e) c x' with
              | error err => rw [hv2] at h; rw [dfs_error_stays rfl h]
              | ok x'' => rw [hv2] at h; exact ih _ _ _ _ _ _ _ h

/-- `depth_first_search` with `vis` and with `swallow vis`. -/
theorem dfs_colors {s : V} {c c' : Dict V Color} {x : σ} {r : Except (PyErr × Dict V Color) (Dict V Color × σ)}
    (h : Returns (dfs g p (swallow dfsPaint dfsDry vis) s c (.ok (c, x))) (.ok (c', r))) : Returns (dfsV g p vis s c x) (.ok r) := by
  obtain ⟨N, h⟩ := h
  refine ⟨N, fun fuel hf => ?_⟩
  have h := h fuel hf
  unfold dfs at h
  unfold dfsV
  rw [List.cons_append, List.cons_append, List.nil_append, emit_cons, swallow_ok] at h
  dsimp only [dfsPaint, dfsDry] at h
  cases hv2 : vis (.start s) c x with
  | error err =>
    rw [hv2] at h
    simp only [emit_swallow_error] at h
    rw [dfs_error_stays rfl h]
  | ok x2 =>
    rw [hv2] at h
    dsimp only at h
    rw [emit_cons, swallow_ok] at h
    dsimp only [dfsPaint, dfsDry] at h ⊢
    cases hv3 : vis (.discover s) (c.set s .gray) x2 with
    | error err =>
      rw [hv3] at h
      simp only [emit_swallow_error] at h
      rw [dfs_error_stays rfl h]
    | ok x3 =>
      rw [hv3] at h
      dsimp only at h
      rw [emit_swallow_still _ _ (paint_pushCalls _ _)] at h
      dsimp only at h ⊢
      cases hv4 : emitC vis (c.set s .gray) (pushCalls g s) x3 with
      | error err => rw [hv4] at h; rw [dfs_error_stays rfl h]
      | ok x4 => rw [hv4] at h; exact dfs_loop_colors _ _ _ _ _ _ _ _ h

end

/-! ## Breadth-first search -/

section
variable {g : GraphI V E} {p : E → Bool} {vis : ColorReader (BfsEvent V E) V σ}

theorem bfsInit_error {r : PyErr × Dict V Color} (us : List V) : ∀ (c : Dict V Color) (q : List V),
    ∃ c' q', bfsInit (swallow bfsPaint bfsDry vis) us ⟨c, .error r, q⟩ = .ok ⟨c', .error r, q'⟩ := by
  induction us with
  | nil => intro c q; exact ⟨c, q, rfl⟩
  | cons u us ih =>
    intro c q
    rw [bfsInit, swallow_error]
    exact ih _ _

theorem bfsEdges_error {r : PyErr × Dict V Color} (es : List E) : ∀ (c : Dict V Color) (q : List V),
    ∃ c' q', bfsEdges g p (swallow bfsPaint bfsDry vis) es ⟨c, .error r, q⟩ = .ok ⟨c', .error r, q'⟩ := by
  induction es with
  | nil => intro c q; exact ⟨c, q, rfl⟩
  | cons u us ih =>
    intro c q
    rw [bfsEdges, swallow_error]
    dsimp only
    split
    · rw [swallow_error]
      simp only [emit_swallow_error]
      split <;> exact ih _ _
    · exact ih _ _

theorem bfs_error_stays {r : PyErr × Dict V Color} {fuel t : Nat} {s : BfsState V (Except (PyErr × Dict V Color) (Dict V Color × σ))}
    (hs : s.st = .error r) {c' : Dict V Color} {r' : Except (PyErr × Dict V Color) (Dict V Color × σ)}
    (h : loop (bfsStep g p (swallow bfsPaint bfsDry vis)) fuel t s = some (.ok (c', r'))) : r' = .error r := by
  have := loop_partial (bfsStep g p (swallow bfsPaint bfsDry vis)) (fun s => s.st = .error r)
    (fun o => ∀ c' r', o = .ok (c', r') → r' = .error r) ?_ ?_ ?_ hs h
  · exact this c' r' rfl
  · intro t s s' hs hst
    unfold bfsStep at hst
    rw [hs] at hst
    split at hst
    · cases hst
    · rw [swallow_error] at hst
      dsimp only at hst
      rename_i u q _
      obtain ⟨c1, q1, he⟩ := bfsEdges_error (g := g) (p := p) (vis := vis) (r := r) (g.outEdges u) s.color q
      rw [he] at hst
      dsimp only at hst
      rw [swallow_error] at hst
      cases hst; rfl
  · intro t s o hs hst c' r' ho
    unfold bfsStep at hst
    rw [hs] at hst
    cases ho
    split at hst
    · cases hst; rfl
    · rw [swallow_error] at hst
      dsimp only at hst
      rename_i u q _
      obtain ⟨c1, q1, he⟩ := bfsEdges_error (g := g) (p := p) (vis := vis) (r := r) (g.outEdges u) s.color q
      rw [he] at hst
      dsimp only at hst
      rw [swallow_error] at hst
      cases hst
  · intro t s e _ _ c' r' ho; cases ho

/-- What a portion of the search with `swallow vis` gives, compared with the same portion with `vis`. -/
def Follows (o : Except PyErr (BfsState V (Except (PyErr × Dict V Color) (Dict V Color × σ)))) (o' : Except (PyErr × Dict V Color) (BfsState V σ)) : Prop :=
  (∃ c x q, o = .ok ⟨c, .ok (c, x), q⟩ ∧ o' = .ok ⟨c, x, q⟩) ∨ ∃ c q r, o = .ok ⟨c, .error r, q⟩ ∧ o' = .error r

theorem bfsInit_colors (us : List V) : ∀ (c : Dict V Color) (x : σ) (q : List V),
    Follows (bfsInit (swallow bfsPaint bfsDry vis) us ⟨c, .ok (c, x), q⟩) (bfsInitV vis us ⟨c, x, q⟩) := by
  induction us with
  | nil => intro c x q; exact .inl ⟨c, x, q, rfl, rfl⟩
  | cons u us ih =>
    intro c x q
    rw [bfsInit, bfsInitV, swallow_ok]
    dsimp only [bfsPaint, bfsDry]
    cases hv : vis (.discover u) (c.set u .gray) x with
    | error err =>
      obtain ⟨c', q', h⟩ := bfsInit_error (vis := vis) (r := (err, c.set u .gray)) us (c.set u .gray) (u :: q)
      exact .inr ⟨c', q', _, h, rfl⟩
    | ok x' => exact ih _ _ _

theorem bfsEdges_colors (es : List E) : ∀ (c : Dict V Color) (x : σ) (q : List V),
    Follows (bfsEdges g p (swallow bfsPaint bfsDry vis) es ⟨c, .ok (c, x), q⟩) (bfsEdgesV g p vis es ⟨c, x, q⟩) := by
  induction es with
  | nil => intro c x q; exact .inl ⟨c, x, q, rfl, rfl⟩
  | cons e es ih =>
    intro c x q
    have herr : ∀ (r : PyErr × Dict V Color) (c' : Dict V Color) (q' : List V),
        Follows (bfsEdges g p (swallow bfsPaint bfsDry vis) es ⟨c', .error r, q'⟩) (.error r) := by
      intro r c' q'
      obtain ⟨c1, q1, h⟩ := bfsEdges_error (g := g) (p := p) (vis := vis) (r := r) es c' q'
      exact .inr ⟨c1, q1, r, h, rfl⟩
    rw [bfsEdges, bfsEdgesV, swallow_ok]
    dsimp only [bfsPaint, bfsDry]
    cases hv : vis (.ifPush e) c x with
    | error err =>
      dsimp only
      simp only [swallow_error, emit_swallow_error]
      split
      · split <;> exact herr _ _ _
      · exact herr _ _ _
    | ok x1 =>
      dsimp only
      by_cases hp : p e = true
      · rw [if_pos hp, if_pos hp, swallow_ok]
        dsimp only [bfsPaint, bfsDry]
        cases hv1 : vis (.examineEdge e) c x1 with
        | error err =>
          dsimp only
          simp only [emit_swallow_error]
          split <;> exact herr _ _ _
        | ok x2 =>
          dsimp only
          cases hc : colorOf c (g.target e) with
          | white =>
            dsimp only
            rw [emit_cons, swallow_ok]
            dsimp only [bfsPaint, bfsDry]
            cases hv2 : vis (.treeEdge e) c x2 with
            | error err =>
              dsimp only
              simp only [emit_swallow_error]
              exact herr _ _ _
            | ok x3 =>
              dsimp only
              rw [emit_singleton, swallow_ok]
              dsimp only [bfsPaint, bfsDry]
              cases hv3 : vis (.discover (g.target e)) (c.set (g.target e) .gray) x3 with
              | error err => exact herr _ _ _
              | ok x4 => exact ih _ _ _
          | gray =>
            dsimp only
            rw [emit_swallow_still _ _ (by intro ev hev; simp at hev; rcases hev with rfl | rfl <;> exact ⟨rfl, rfl⟩)]
            dsimp only
            cases emitC vis c [.nonTreeEdge e, .grayTarget e] x2 with
            | error err => exact herr _ _ _
            | ok x3 => exact ih _ _ _
          | black =>
            dsimp only
            rw [emit_swallow_still _ _ (by intro ev hev; simp at hev; rcases hev with rfl | rfl <;> exact ⟨rfl, rfl⟩)]
            dsimp only
            cases emitC vis c [.nonTreeEdge e, .blackTarget e] x2 with
            | error err => exact herr _ _ _
            | ok x3 => exact ih _ _ _
      · rw [if_neg hp, if_neg hp]
        exact ih _ _ _

theorem bfs_loop_colors : ∀ (fuel t : Nat) (c : Dict V Color) (x : σ) (q : List V)
    (c' : Dict V Color) (r : Except (PyErr × Dict V Color) (Dict V Color × σ)),
    loop (bfsStep g p (swallow bfsPaint bfsDry vis)) fuel t ⟨c, .ok (c, x), q⟩ = some (.ok (c', r)) →
    loop (bfsStepV g p vis) fuel t ⟨c, x, q⟩ = some (.ok r) := by
  intro fuel
  induction fuel with
  | zero => intro t c x q c' r h; cases h
  | succ fuel ih =>
    intro t c x q c' r h
    rw [loop] at h ⊢
    unfold bfsStep at h
    unfold bfsStepV
    cases q with
    | nil =>
      dsimp only at h ⊢
      cases h; rfl
    | cons u q =>
      dsimp only at h ⊢
      rw [swallow_ok] at h
      dsimp only [bfsPaint, bfsDry] at h
      cases hv : vis (.examineVertex u) c x with
      | error err =>
        rw [hv] at h
        dsimp only at h
        obtain ⟨c1, q1, he⟩ := bfsEdges_error (g := g) (p := p) (vis := vis) (r := (err, c)) (g.outEdges u) c q
        rw [he] at h
        dsimp only at h
        rw [swallow_error] at h
        rw [bfs_error_stays rfl h]
      | ok x1 =>
        rw [hv] at h
        dsimp only at h ⊢
        rcases bfsEdges_colors (g := g) (p := p) (vis := vis) (g.outEdges u) c x1 q with ⟨c2, x2, q2, h1, h2⟩ | ⟨c2, q2, r2, h1, h2⟩
        · rw [h1] at h
          rw [h2]
          dsimp only at h ⊢
          rw [swallow_ok] at h
          dsimp only [bfsPaint, bfsDry] at h
          cases hv2 : vis (.finish u) (c2.set u .black) x2 with
          | error err => rw [hv2] at h; rw [bfs_error_stays rfl h]
          | ok x3 => rw [hv2] at h; exact ih _ _ _ _ _ _ h
        · rw [h1] at h
          rw [h2]
          dsimp only at h ⊢
          rw [swallow_error] at h
          rw [bfs_error_stays rfl h]

/-- `breadth_first_search_graph` with `vis` and with `swallow vis`. -/
theorem bfsGraph_colors {us : List V} {c c' : Dict V Color} {x : σ} {r : Except (PyErr × Dict V Color) (Dict V Color × σ)} {fuel : Nat}
    (h : bfsGraph g us p (swallow bfsPaint bfsDry vis) c (.ok (c, x)) fuel = some (.ok (c', r))) : bfsGraphV g us p vis c x fuel = some (.ok r) := by
  unfold bfsGraph at h
  unfold bfsGraphV
  rcases bfsInit_colors (vis := vis) us c x [] with ⟨c2, x2, q2, h1, h2⟩ | ⟨c2, q2, r2, h1, h2⟩
  · rw [h1] at h
    rw [h2]
    exact bfs_loop_colors _ _ _ _ _ _ _ h
  · rw [h1] at h
    rw [h2, bfs_error_stays rfl h]

theorem bfsGraph_error {us : List V} {c c' : Dict V Color} {r0 : PyErr × Dict V Color} {r : Except (PyErr × Dict V Color) (Dict V Color × σ)} {fuel : Nat}
    (h : bfsGraph g us p (swallow bfsPaint bfsDry vis) c (.error r0) fuel = some (.ok (c', r))) : r = .error r0 := by
  unfold bfsGraph at h
  obtain ⟨c1, q1, he⟩ := bfsInit_error (vis := vis) (r := r0) us c []
  rw [he] at h
  exact bfs_error_stays rfl h

theorem bfsWhiten_colors (us : List V) : ∀ (c : Dict V Color) (x : σ),
    bfsWhitenV vis us c x = tellColors bfsPaint bfsDry vis (us.map .initializeVertex) c x := by
  induction us with
  | nil => intro c x; rfl
  | cons u us ih =>
    intro c x
    rw [bfsWhitenV, List.map_cons, tellColors]
    dsimp only [bfsPaint, bfsDry]
    cases vis (.initializeVertex u) c x with
    | error err => rfl
    | ok x' => exact ih _ _

theorem tellColors_init (us : List V) : ∀ (c : Dict V Color) (x : σ) {c' : Dict V Color} {x' : σ},
    tellColors bfsPaint bfsDry vis (us.map .initializeVertex) c x = .ok (c', x') → c' = us.foldl (fun c u => c.set u .white) c := by
  induction us with
  | nil => intro c x c' x' h; cases h; rfl
  | cons u us ih =>
    intro c x c' x' h
    rw [List.map_cons, tellColors] at h
    dsimp only [bfsPaint, bfsDry] at h
    cases hv : vis (.initializeVertex u) c x with
    | error err => rw [hv] at h; cases h
    | ok x1 => rw [hv] at h; exact ih _ _ h

/-- `breadth_first_search` with `vis` and with `swallow vis`. -/
theorem bfs_colors {s : V} {c c' : Dict V Color} {x : σ} {r : Except (PyErr × Dict V Color) (Dict V Color × σ)}
    (h : Returns (bfs g s p (some (swallow bfsPaint bfsDry vis)) c (.ok (c, x))) (.ok (c', r))) : Returns (bfsV g s p vis c x) (.ok r) := by
  obtain ⟨N, h⟩ := h
  refine ⟨N, fun fuel hf => ?_⟩
  have h := h fuel hf
  unfold bfs at h
  unfold bfsV
  dsimp only at h
  rw [emit_swallow] at h
  rw [bfsWhiten_colors]
  dsimp only at h
  cases ht : tellColors bfsPaint bfsDry vis (g.vertices.map .initializeVertex) c x with
  | error r0 => rw [ht] at h; rw [bfsGraph_error h]
  | ok q =>
    obtain ⟨c1, x1⟩ := q
    rw [ht, ← tellColors_init _ _ _ ht] at h
    exact bfsGraph_colors h

end

end PyBGL
