import Verif.Spec.ColorMask
import Verif.Proofs.Dfs
import Verif.Proofs.Bfs

/-!
# Searches that start from a map of colours with arbitrary contents

A vertex that is not white at the beginning is never entered: the search makes the calls of a search of the graph without the edges towards such vertices,
and in addition it examines these edges.
-/

namespace PyBGL
variable {V E : Type} [DecidableEq V]

/-- The colours `c` are those of `c0` for the vertices of the mask `m`, those of `d` for the others. -/
def Overlay (m : V → Bool) (c0 c d : Dict V Color) : Prop := ∀ v, colorOf c v = if m v then colorOf c0 v else colorOf d v

theorem Overlay.set {m : V → Bool} {c0 c d : Dict V Color} (h : Overlay m c0 c d) {u : V} (hu : m u = false) (x : Color) :
    Overlay m c0 (c.set u x) (d.set u x) := by
  intro v
  rw [colorOf_set, colorOf_set]
  by_cases e : u = v
  · subst e; simp [hu]
  · simp [e, h v]

section Dfs
variable {g : GraphI V E} {p : E → Bool} {m : V → Bool} {c0 : Dict V Color}

theorem pushed_unmasked (u : V) :
    pushed g (fun e => p e && !m (g.target e)) u = (pushed g p u).filter (fun e => !m (g.target e)) := by
  unfold pushed
  rw [List.filter_filter]
  congr 1
  funext e
  rw [Bool.and_comm]

theorem filter_pushCalls (u : V) : (pushCalls g u).filter (dfsUnmasked g m) = pushCalls g u := by
  rw [List.filter_eq_self]
  intro x hx
  obtain ⟨e, _, rfl⟩ := List.mem_map.mp hx
  rfl

theorem DfsEdges.mask (hm : ∀ v, m v = true → colorOf c0 v ≠ .white) {c c' : Dict V Color} {u : V} {es : List E} {tr : List (DfsEvent V E)}
    (h : DfsEdges g p c u es tr c') : ∀ d, Overlay m c0 c d → ∃ d', Overlay m c0 c' d' ∧
      DfsEdges g (fun e => p e && !m (g.target e)) d u (es.filter fun e => !m (g.target e)) (tr.filter (dfsUnmasked g m)) d' := by
  induction h with
  | nil c u => exact fun d hd => ⟨d, hd, .nil d u⟩
  | @tree c c1 c2 u e es t1 t2 hw h1 h2 ih1 ih2 =>
    intro d hd
    have hme : m (g.target e) = false := by
      cases hv : m (g.target e) with
      | false => rfl
      | true => have := hd (g.target e); rw [hv, hw] at this; exact absurd this.symm (hm _ hv)
    have hwd : colorOf d (g.target e) = .white := by have := hd (g.target e); rw [hme, hw] at this; exact this.symm
    obtain ⟨d1, o1, k1⟩ := ih1 _ (hd.set hme .gray)
    obtain ⟨d2, o2, k2⟩ := ih2 _ (o1.set hme .black)
    refine ⟨d2, o2, ?_⟩
    rw [← pushed_unmasked] at k1
    have := DfsEdges.tree hwd k1 k2
    simp only [List.filter_append, filter_pushCalls]
    simpa [List.filter_cons, dfsUnmasked, hme] using this
  | @back c c2 u e es t hg h ih =>
    intro d hd
    obtain ⟨d2, o2, k2⟩ := ih d hd
    refine ⟨d2, o2, ?_⟩
    cases hv : m (g.target e) with
    | true => simpa [List.filter_cons, dfsUnmasked, hv] using k2
    | false =>
      have hgd : colorOf d (g.target e) = .gray := by have := hd (g.target e); rw [hv, hg] at this; exact this.symm
      have := DfsEdges.back hgd k2
      simpa [List.filter_cons, dfsUnmasked, hv] using this
  | @cross c c2 u e es t hb h ih =>
    intro d hd
    obtain ⟨d2, o2, k2⟩ := ih d hd
    refine ⟨d2, o2, ?_⟩
    cases hv : m (g.target e) with
    | true => simpa [List.filter_cons, dfsUnmasked, hv] using k2
    | false =>
      have hgd : colorOf d (g.target e) = .black := by have := hd (g.target e); rw [hv, hb] at this; exact this.symm
      have := DfsEdges.cross hgd k2
      simpa [List.filter_cons, dfsUnmasked, hv] using this

theorem DfsRoot.mask (hm : ∀ v, m v = true → colorOf c0 v ≠ .white) {c c' : Dict V Color} {s : V} {tr : List (DfsEvent V E)}
    (h : DfsRoot g p c s tr c') (hs : m s = false) (d : Dict V Color) (hd : Overlay m c0 (c.set s .gray) (d.set s .gray)) :
    ∃ d', Overlay m c0 c' d' ∧ DfsRoot g (fun e => p e && !m (g.target e)) d s (tr.filter (dfsUnmasked g m)) d' := by
  obtain ⟨t, c1, h1, rfl, rfl⟩ := h
  obtain ⟨d1, o1, k1⟩ := h1.mask hm _ hd
  rw [← pushed_unmasked] at k1
  refine ⟨d1.set s .black, o1.set hs .black, _, d1, k1, rfl, ?_⟩
  simp only [List.filter_append, filter_pushCalls]
  simp [List.filter_cons, dfsUnmasked]

/-- How the edges towards the vertices of the mask are reported. -/
theorem DfsEdges.maskedKind (hm : ∀ v, m v = true → colorOf c0 v ≠ .white) {c c' : Dict V Color} {u : V} {es : List E} {tr : List (DfsEvent V E)}
    (h : DfsEdges g p c u es tr c') : (∀ v, m v = true → colorOf c v = colorOf c0 v) → (∀ v, m v = true → colorOf c' v = colorOf c0 v) ∧
      ∀ e, m (g.target e) = true → .treeEdge e ∉ tr ∧ (.backEdge e ∈ tr → colorOf c0 (g.target e) = .gray) ∧
        (.forwardOrCrossEdge e ∈ tr → colorOf c0 (g.target e) = .black) := by
  have hpc : ∀ (x : V) (ev : DfsEvent V E), (∀ e, ev ≠ .ifPush e) → ev ∉ pushCalls g x := by
    intro x ev hev hx
    obtain ⟨e, _, rfl⟩ := List.mem_map.mp hx
    exact hev e rfl
  induction h with
  | nil c u => exact fun hc => ⟨hc, by simp⟩
  | @tree c c1 c2 u e es t1 t2 hw h1 h2 ih1 ih2 =>
    intro hc
    have hne : ∀ v, m v = true → g.target e ≠ v := by rintro v hv rfl; exact hm _ hv ((hc _ hv).symm.trans hw)
    obtain ⟨a1, b1⟩ := ih1 (fun v hv => by rw [colorOf_set, if_neg (hne v hv)]; exact hc v hv)
    obtain ⟨a2, b2⟩ := ih2 (fun v hv => by rw [colorOf_set, if_neg (hne v hv)]; exact a1 v hv)
    refine ⟨a2, fun e' he' => ?_⟩
    obtain ⟨x1, x2, x3⟩ := b1 e' he'
    obtain ⟨y1, y2, y3⟩ := b2 e' he'
    have hee : e' ≠ e := by rintro rfl; exact hne _ he' rfl
    refine ⟨?_, fun hx => ?_, fun hx => ?_⟩
    · simp [hpc, x1, y1, hee]
    · simp [hpc] at hx; exact hx.elim x2 y2
    · simp [hpc] at hx; exact hx.elim x3 y3
  | @back c c2 u e es t hg h ih =>
    intro hc
    obtain ⟨a, b⟩ := ih hc
    refine ⟨a, fun e' he' => ?_⟩
    obtain ⟨x1, x2, x3⟩ := b e' he'
    refine ⟨by simp [x1], fun hx => ?_, fun hx => x3 (by simpa using hx)⟩
    simp at hx
    rcases hx with rfl | hx
    · exact (hc _ he').symm.trans hg
    · exact x2 hx
  | @cross c c2 u e es t hb h ih =>
    intro hc
    obtain ⟨a, b⟩ := ih hc
    refine ⟨a, fun e' he' => ?_⟩
    obtain ⟨x1, x2, x3⟩ := b e' he'
    refine ⟨by simp [x1], fun hx => x2 (by simpa using hx), fun hx => ?_⟩
    simp at hx
    rcases hx with rfl | hx
    · exact (hc _ he').symm.trans hb
    · exact x3 hx

theorem DfsRoot.maskedKind (hm : ∀ v, m v = true → colorOf c0 v ≠ .white) {c' : Dict V Color} {s : V} {tr : List (DfsEvent V E)} (h : DfsRoot g p c0 s tr c')
    (hs : m s = false) (e : E) (he : m (g.target e) = true) : .treeEdge e ∉ tr ∧ (.backEdge e ∈ tr → colorOf c0 (g.target e) = .gray) ∧
        (.forwardOrCrossEdge e ∈ tr → colorOf c0 (g.target e) = .black) := by
  obtain ⟨t, c1, h1, rfl, rfl⟩ := h
  have hpc : ∀ (x : V) (ev : DfsEvent V E), (∀ e, ev ≠ .ifPush e) → ev ∉ pushCalls g x := by
    intro x ev hev hx
    obtain ⟨e, _, rfl⟩ := List.mem_map.mp hx
    exact hev e rfl
  obtain ⟨x1, x2, x3⟩ := (h1.maskedKind hm (fun v hv => by rw [colorOf_set, if_neg]; rintro rfl; rw [hs] at hv; cases hv)).2 e he
  exact ⟨by simp [hpc, x1], fun hx => x2 (by simpa [hpc] using hx), fun hx => x3 (by simpa [hpc] using hx)⟩

theorem discovered_unmasked (tr : List (DfsEvent V E)) : discovered (tr.filter (dfsUnmasked g m)) = discovered tr := by
  induction tr with
  | nil => rfl
  | cons x tr ih =>
    rw [List.filter_cons]
    split <;> (cases x <;> simp_all [dfsUnmasked])

end Dfs

/-! ## Loops that advance together -/

/-- Two loops whose states stay related end in related ways, after the same number of iterations. -/
theorem loop_lockstep {S S' R R' : Type} {step : Nat → S → Step S R} {step' : Nat → S' → Step S' R'} (Rel : S → S' → Prop) (Res : R → R' → Prop)
    (h : ∀ t s s', Rel s s' → (∃ n n', step t s = .next n ∧ step' t s' = .next n' ∧ Rel n n') ∨ (∃ r r', step t s = .done r ∧ step' t s' = .done r' ∧ Res r r') ∨
      ∃ e, step t s = .fail e ∧ step' t s' = .fail e) {s : S} {s' : S'} (hs : Rel s s') :
    ∀ fuel t, (loop step fuel t s = none ∧ loop step' fuel t s' = none) ∨
      (∃ r r', loop step fuel t s = some (.ok r) ∧ loop step' fuel t s' = some (.ok r') ∧ Res r r') ∨
      ∃ e, loop step fuel t s = some (.error e) ∧ loop step' fuel t s' = some (.error e) := by
  intro fuel
  induction fuel generalizing s s' with
  | zero => exact fun t => .inl ⟨rfl, rfl⟩
  | succ n ih =>
    intro t
    rcases h t s s' hs with ⟨a, b, h1, h2, h3⟩ | ⟨r, r', h1, h2, h3⟩ | ⟨e, h1, h2⟩
    · have := ih h3 (t + 1)
      simpa only [loop, h1, h2] using this
    · exact .inr (.inl ⟨r, r', by simp only [loop, h1], by simp only [loop, h2], h3⟩)
    · exact .inr (.inr ⟨e, by simp only [loop, h1], by simp only [loop, h2]⟩)

/-- If the second loop returns normally, so does the first. -/
theorem returns_lockstep {R R' : Type} {run : Nat → Option (Except PyErr R)} {run' : Nat → Option (Except PyErr R')} {Res : R → R' → Prop}
    (h : ∀ fuel, (run fuel = none ∧ run' fuel = none) ∨ (∃ r r', run fuel = some (.ok r) ∧ run' fuel = some (.ok r') ∧ Res r r') ∨
      ∃ e, run fuel = some (.error e) ∧ run' fuel = some (.error e)) (hm : ∀ n k r, n ≤ k → run n = some r → run k = some r) {r' : R'}
    (hr : Returns run' (.ok r')) : ∃ r, Returns run (.ok r) ∧ Res r r' := by
  obtain ⟨N, hN⟩ := hr
  rcases h N with ⟨_, h2⟩ | ⟨r, r1, h1, h2, h3⟩ | ⟨e, _, h2⟩
  · rw [hN N (Nat.le_refl _)] at h2; cases h2
  · rw [hN N (Nat.le_refl _)] at h2
    cases h2
    exact ⟨r, ⟨N, fun k hk => hm N k _ hk h1⟩, h3⟩
  · rw [hN N (Nat.le_refl _)] at h2; cases h2

/-! ## Breadth-first search -/

section Bfs
variable {g : GraphI V E} {p : E → Bool} {m : V → Bool} {c0 : Dict V Color}

/-- The states of the two searches: same deque, same colours outside the mask, same calls but for the edges towards the mask. -/
structure BfsRel (g : GraphI V E) (m : V → Bool) (c0 : Dict V Color) (s s' : BfsState V (List (BfsEvent V E))) : Prop where
  queue : s.queue = s'.queue
  open_ : ∀ v ∈ s.queue, m v = false
  color : Overlay m c0 s.color s'.color
  trace : s'.st = s.st.filter (bfsUnmasked g m)

theorem bfsEdges_mask (hm : ∀ v, m v = true → colorOf c0 v ≠ .white) (es : List E) {s s' : BfsState V (List (BfsEvent V E))} (h : BfsRel g m c0 s s') :
    ∃ r r', bfsEdges g p recorder es s = .ok r ∧ bfsEdges g (fun e => p e && !m (g.target e)) recorder es s' = .ok r' ∧ BfsRel g m c0 r r' := by
  induction es generalizing s s' with
  | nil => exact ⟨s, s', rfl, rfl, h⟩
  | cons e es ih =>
    by_cases hp : p e = true
    · cases hv : m (g.target e) with
      | true =>
        have hc := h.color (g.target e)
        rw [hv, if_pos rfl] at hc
        have hne := hm _ hv
        rw [← hc] at hne
        cases hcol : colorOf s.color (g.target e) with
        | white => exact absurd hcol hne
        | gray =>
          simp only [bfsEdges, hp, hv, recorder, hcol, emit_recorder, if_true]
          simp only [Bool.not_true, Bool.and_false, Bool.false_eq_true, if_false]
          exact ih ⟨h.queue, h.open_, h.color, by simp [h.trace, List.filter_cons, bfsUnmasked, hv]⟩
        | black =>
          simp only [bfsEdges, hp, hv, recorder, hcol, emit_recorder, if_true]
          simp only [Bool.not_true, Bool.and_false, Bool.false_eq_true, if_false]
          exact ih ⟨h.queue, h.open_, h.color, by simp [h.trace, List.filter_cons, bfsUnmasked, hv]⟩
      | false =>
        have hc := h.color (g.target e)
        rw [hv] at hc
        simp only [Bool.false_eq_true, if_false] at hc
        cases hcol : colorOf s.color (g.target e) with
        | white =>
          rw [hcol] at hc
          simp only [bfsEdges, hp, hv, recorder, hcol, ← hc, emit_recorder, if_true, Bool.not_false, Bool.and_true]
          refine ih ⟨by simp [h.queue], ?_, h.color.set hv .gray, by simp [h.trace, List.filter_cons, bfsUnmasked, hv]⟩
          intro v hv'
          simp only [List.mem_append, List.mem_singleton] at hv'
          rcases hv' with hv' | rfl
          · exact h.open_ v hv'
          · exact hv
        | gray =>
          rw [hcol] at hc
          simp only [bfsEdges, hp, hv, recorder, hcol, ← hc, emit_recorder, if_true, Bool.not_false, Bool.and_true]
          exact ih ⟨h.queue, h.open_, h.color, by simp [h.trace, List.filter_cons, bfsUnmasked, hv]⟩
        | black =>
          rw [hcol] at hc
          simp only [bfsEdges, hp, hv, recorder, hcol, ← hc, emit_recorder, if_true, Bool.not_false, Bool.and_true]
          exact ih ⟨h.queue, h.open_, h.color, by simp [h.trace, List.filter_cons, bfsUnmasked, hv]⟩
    · simp only [bfsEdges, hp, recorder, Bool.false_and, Bool.false_eq_true, if_false]
      exact ih ⟨h.queue, h.open_, h.color, by simp [h.trace, List.filter_cons, bfsUnmasked]⟩

theorem bfsStep_mask (hm : ∀ v, m v = true → colorOf c0 v ≠ .white) (t : Nat) {s s' : BfsState V (List (BfsEvent V E))} (h : BfsRel g m c0 s s') :
    (∃ n n', bfsStep g p recorder t s = .next n ∧ bfsStep g (fun e => p e && !m (g.target e)) recorder t s' = .next n' ∧ BfsRel g m c0 n n') ∨
    (∃ r r', bfsStep g p recorder t s = .done r ∧ bfsStep g (fun e => p e && !m (g.target e)) recorder t s' = .done r' ∧
      (Overlay m c0 r.1 r'.1 ∧ r'.2 = r.2.filter (bfsUnmasked g m))) ∨
    ∃ e, bfsStep g p recorder t s = .fail e ∧ bfsStep g (fun e => p e && !m (g.target e)) recorder t s' = .fail e := by
  obtain ⟨c, st, q⟩ := s
  obtain ⟨c', st', q'⟩ := s'
  obtain ⟨h1, h2, h3, h4⟩ := h
  simp only at h1 h2 h3 h4
  subst h1
  cases q with
  | nil => exact .inr (.inl ⟨_, _, rfl, rfl, h3, h4⟩)
  | cons u q =>
    left
    have hu := h2 u (by simp)
    obtain ⟨r, r', k1, k2, k3⟩ := bfsEdges_mask (g := g) (p := p) hm (g.outEdges u) (s := ⟨c, st ++ [.examineVertex u], q⟩)
      (s' := ⟨c', st' ++ [.examineVertex u], q⟩)
      ⟨rfl, fun v hv => h2 v (by simp [hv]), h3, by simp [h4, List.filter_cons, bfsUnmasked]⟩
    refine ⟨_, _, by simp only [bfsStep, recorder]; rw [k1],
      by simp only [bfsStep, recorder]; rw [k2], ?_⟩
    exact ⟨k3.queue, k3.open_, k3.color.set hu .black, by simp [k3.trace, List.filter_cons, bfsUnmasked]⟩

theorem bfsInit_recorder (us : List V) (s : BfsState V (List (BfsEvent V E))) :
    bfsInit recorder us s = .ok ⟨us.foldl (fun c u => c.set u .gray) s.color, s.st ++ us.map .discover, us.reverse ++ s.queue⟩ := by
  induction us generalizing s with
  | nil => simp [bfsInit]
  | cons u us ih => simp [bfsInit, recorder]; rw [ih]; simp

theorem bfs_discovered_unmasked (tr : List (BfsEvent V E)) : Bfs.discovered (tr.filter (bfsUnmasked g m)) = Bfs.discovered tr := by
  induction tr with
  | nil => rfl
  | cons x tr ih =>
    rw [List.filter_cons]
    split <;> (cases x <;> simp_all [bfsUnmasked])

theorem bfs_finished_unmasked (tr : List (BfsEvent V E)) : Bfs.finished (tr.filter (bfsUnmasked g m)) = Bfs.finished tr := by
  induction tr with
  | nil => rfl
  | cons x tr ih =>
    rw [List.filter_cons]
    split <;> (cases x <;> simp_all [bfsUnmasked])

theorem bfs_examinedVertices_unmasked (tr : List (BfsEvent V E)) : Bfs.examinedVertices (tr.filter (bfsUnmasked g m)) = Bfs.examinedVertices tr := by
  induction tr with
  | nil => rfl
  | cons x tr ih =>
    rw [List.filter_cons]
    split <;> (cases x <;> simp_all [bfsUnmasked])

/-- A search that returns is described by `Bfs.Run`. -/
theorem bfs_run_of_loop : ∀ (fuel t : Nat) (c : Dict V Color) (st : List (BfsEvent V E)) (q : List V) (r : Dict V Color × List (BfsEvent V E)),
    loop (bfsStep g p recorder) fuel t ⟨c, st, q⟩ = some (.ok r) → ∃ tr, Bfs.Run g p c q tr r.1 ∧ r.2 = st ++ tr := by
  intro fuel
  induction fuel with
  | zero => intro t c st q r h; simp [loop] at h
  | succ n ih =>
    intro t c st q r h
    cases q with
    | nil =>
      simp only [loop, bfsStep, Option.some.injEq, Except.ok.injEq] at h
      subst h
      exact ⟨[], .nil _, by simp⟩
    | cons u q =>
      have hstep : bfsStep g p recorder t ⟨c, st, u :: q⟩ = .next ⟨(Bfs.edgesTrace g p (g.outEdges u) c q).2.1.set u .black, st ++ Bfs.vertexTrace g p u c q,
          (Bfs.edgesTrace g p (g.outEdges u) c q).2.2⟩ := by
        unfold bfsStep
        simp only [recorder]
        rw [Bfs.bfsEdges_eq]
        have := emit_recorder (Bfs.edgesTrace g p (g.outEdges u) c q).1 (st ++ [.examineVertex u])
        rw [this]
        simp [Bfs.vertexTrace]
      rw [loop, hstep] at h
      obtain ⟨tr, h1, h2⟩ := ih _ _ _ _ _ h
      exact ⟨_, .cons h1, by rw [h2, List.append_assoc]⟩

/-- How the edges towards the vertices of the mask are reported. -/
theorem bfs_edges_kind (hm : ∀ v, m v = true → colorOf c0 v ≠ .white) (es : List E) : ∀ (c : Dict V Color) (q : List V),
    (∀ v, m v = true → colorOf c v = colorOf c0 v) → (∀ v, m v = true → colorOf (Bfs.edgesTrace g p es c q).2.1 v = colorOf c0 v) ∧
      ((∀ v ∈ q, m v = false) → ∀ v ∈ (Bfs.edgesTrace g p es c q).2.2, m v = false) ∧
      ∀ e, m (g.target e) = true → .treeEdge e ∉ (Bfs.edgesTrace g p es c q).1 ∧
        (.grayTarget e ∈ (Bfs.edgesTrace g p es c q).1 → colorOf c0 (g.target e) = .gray) ∧
        (.blackTarget e ∈ (Bfs.edgesTrace g p es c q).1 → colorOf c0 (g.target e) = .black) := by
  induction es with
  | nil => intro c q hc; exact ⟨hc, fun h => h, by simp [Bfs.edgesTrace]⟩
  | cons e es ih =>
    intro c q hc
    unfold Bfs.edgesTrace
    by_cases hp : p e = true
    · simp only [hp, if_true]
      cases hcol : colorOf c (g.target e) with
      | white =>
        have hme : m (g.target e) = false := by
          cases hv : m (g.target e) with
          | false => rfl
          | true => exact absurd ((hc _ hv).symm.trans hcol) (hm _ hv)
        have hne : ∀ v, m v = true → g.target e ≠ v := by rintro v hv rfl; rw [hme] at hv; cases hv
        obtain ⟨a1, a2, a3⟩ := ih (c.set (g.target e) .gray) (q ++ [g.target e]) (fun v hv => by rw [colorOf_set, if_neg (hne v hv)]; exact hc v hv)
        refine ⟨a1, fun hq => a2 fun v hv => ?_, fun e' he' => ?_⟩
        · rw [List.mem_append, List.mem_singleton] at hv
          rcases hv with hv | rfl
          · exact hq v hv
          · exact hme
        · obtain ⟨x1, x2, x3⟩ := a3 e' he'
          have hee : e' ≠ e := by rintro rfl; exact hne _ he' rfl
          exact ⟨by simp [x1, hee], fun hx => x2 (by simpa using hx), fun hx => x3 (by simpa using hx)⟩
      | gray =>
        obtain ⟨a1, a2, a3⟩ := ih c q hc
        refine ⟨a1, a2, fun e' he' => ?_⟩
        obtain ⟨x1, x2, x3⟩ := a3 e' he'
        refine ⟨by simp [x1], fun hx => ?_, fun hx => x3 (by simpa using hx)⟩
        simp at hx
        rcases hx with rfl | hx
        · exact (hc _ he').symm.trans hcol
        · exact x2 hx
      | black =>
        obtain ⟨a1, a2, a3⟩ := ih c q hc
        refine ⟨a1, a2, fun e' he' => ?_⟩
        obtain ⟨x1, x2, x3⟩ := a3 e' he'
        refine ⟨by simp [x1], fun hx => x2 (by simpa using hx), fun hx => ?_⟩
        simp at hx
        rcases hx with rfl | hx
        · exact (hc _ he').symm.trans hcol
        · exact x3 hx
    · simp only [hp, Bool.false_eq_true, if_false]
      obtain ⟨a1, a2, a3⟩ := ih c q hc
      refine ⟨a1, a2, fun e' he' => ?_⟩
      obtain ⟨x1, x2, x3⟩ := a3 e' he'
      exact ⟨by simp [x1], fun hx => x2 (by simpa using hx), fun hx => x3 (by simpa using hx)⟩

theorem bfs_run_kind (hm : ∀ v, m v = true → colorOf c0 v ≠ .white) {c c' : Dict V Color} {q : List V} {tr : List (BfsEvent V E)} (h : Bfs.Run g p c q tr c') :
    (∀ v, m v = true → colorOf c v = colorOf c0 v) → (∀ v ∈ q, m v = false) →
      ∀ e, m (g.target e) = true → .treeEdge e ∉ tr ∧ (.grayTarget e ∈ tr → colorOf c0 (g.target e) = .gray) ∧
        (.blackTarget e ∈ tr → colorOf c0 (g.target e) = .black) := by
  induction h with
  | nil c => intro _ _ e _; simp
  | @cons c c' u q tr h ih =>
    intro hc hq e he
    obtain ⟨a1, a2, a3⟩ := bfs_edges_kind (g := g) (p := p) hm (g.outEdges u) c q hc
    have hu := hq u (by simp)
    obtain ⟨x1, x2, x3⟩ := a3 e he
    obtain ⟨y1, y2, y3⟩ := ih (fun v hv => by rw [colorOf_set, if_neg (by rintro rfl; rw [hu] at hv; cases hv)]; exact a1 v hv)
      (a2 fun v hv => hq v (by simp [hv])) e he
    refine ⟨by simp [Bfs.vertexTrace, x1, y1], fun hx => ?_, fun hx => ?_⟩
    · simp [Bfs.vertexTrace] at hx; exact hx.elim x2 y2
    · simp [Bfs.vertexTrace] at hx; exact hx.elim x3 y3

/-- The edges that are examined and how they are reported. -/
theorem bfs_run_examined {c c' : Dict V Color} {q : List V} {tr : List (BfsEvent V E)} (h : Bfs.Run g p c q tr c') :
    Bfs.examined tr = (Bfs.examinedVertices tr).flatMap (g.through p).outEdges ∧ ∀ e ∈ Bfs.examined tr, .treeEdge e ∈ tr ∨ .grayTarget e ∈ tr ∨ .blackTarget e ∈ tr := by
  have key : ∀ (es : List E) (c : Dict V Color) (q : List V), Bfs.examined (Bfs.edgesTrace g p es c q).1 = es.filter p ∧
      Bfs.examinedVertices (Bfs.edgesTrace g p es c q).1 = [] ∧
      ∀ e ∈ es.filter p, .treeEdge e ∈ (Bfs.edgesTrace g p es c q).1 ∨ .grayTarget e ∈ (Bfs.edgesTrace g p es c q).1 ∨ .blackTarget e ∈ (Bfs.edgesTrace g p es c q).1 := by
    intro es
    induction es with
    | nil => intro c q; exact ⟨rfl, rfl, by simp⟩
    | cons e es ih =>
      intro c q
      unfold Bfs.edgesTrace
      by_cases hp : p e = true
      · simp only [hp, if_true]
        cases hcol : colorOf c (g.target e) with
        | white =>
          obtain ⟨a1, a2, a3⟩ := ih (c.set (g.target e) .gray) (q ++ [g.target e])
          refine ⟨by simp [a1, hp, List.filter_cons], by simp [a2], fun e' he' => ?_⟩
          rw [List.filter_cons, if_pos hp, List.mem_cons] at he'
          rcases he' with rfl | he'
          · simp
          · have := a3 e' he'; simp; tauto
        | gray =>
          obtain ⟨a1, a2, a3⟩ := ih c q
          refine ⟨by simp [a1, hp, List.filter_cons], by simp [a2], fun e' he' => ?_⟩
          rw [List.filter_cons, if_pos hp, List.mem_cons] at he'
          rcases he' with rfl | he'
          · simp
          · have := a3 e' he'; simp; tauto
        | black =>
          obtain ⟨a1, a2, a3⟩ := ih c q
          refine ⟨by simp [a1, hp, List.filter_cons], by simp [a2], fun e' he' => ?_⟩
          rw [List.filter_cons, if_pos hp, List.mem_cons] at he'
          rcases he' with rfl | he'
          · simp
          · have := a3 e' he'; simp; tauto
      · simp only [hp, Bool.false_eq_true, if_false]
        obtain ⟨a1, a2, a3⟩ := ih c q
        refine ⟨by simp [a1, hp, List.filter_cons], by simp [a2], fun e' he' => ?_⟩
        rw [List.filter_cons, if_neg hp] at he'
        have := a3 e' he'; simp; tauto
  induction h with
  | nil c => exact ⟨rfl, by simp⟩
  | @cons c c' u q tr h ih =>
    obtain ⟨a1, a2, a3⟩ := key (g.outEdges u) c q
    obtain ⟨i1, i2⟩ := ih
    refine ⟨?_, fun e he => ?_⟩
    · simp [Bfs.vertexTrace, a1, a2, i1, GraphI.through]
    · simp [Bfs.vertexTrace, a1] at he
      have h1 := a3 e
      have h2 := i2 e
      simp only [List.mem_filter] at h1
      simp [Bfs.vertexTrace]
      rcases he with he | he
      · have := h1 he; tauto
      · have := h2 he; tauto

end Bfs
end PyBGL
