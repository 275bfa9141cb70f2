import Verif.Model.DynSearch
import Verif.Proofs.ThompsonStore
import Verif.Proofs.DfsSim
import Verif.Proofs.IncidenceGraph

/-!
# A search whose visitor leaves the out-edges it reads as they are
-/

namespace PyBGL

/-- Two loops that take the same steps from the states that satisfy an invariant. -/
theorem loop_congr {S R : Type} {f g : Nat → S → Step S R} {I : S → Prop} (h : ∀ t s, I s → f t s = g t s) (hi : ∀ t s s', I s → g t s = .next s' → I s') :
    ∀ fuel t s, I s → loop f fuel t s = loop g fuel t s := by
  intro fuel
  induction fuel with
  | zero => intro t s _; rfl
  | succ fuel ih =>
    intro t s hs
    unfold loop
    rw [h t s hs]
    split
    · next s' hn => exact ih _ _ (hi t s s' hs hn)
    · rfl
    · rfl

namespace Dyn
variable {V E σ : Type} [DecidableEq V]

/-- The graph read in a state that satisfies `P` has the same targets as `g0`, and the same out-edges at the vertices of `R`, a set of vertices closed in `g0`; the visitor keeps `P`. -/
structure Stable {Ev : Type} (graph : σ → GraphI V E) (g0 : GraphI V E) (R : V → Prop) (P : σ → Prop) (vis : Visitor Ev σ) : Prop where
  target : ∀ st, P st → ∀ e, (graph st).target e = g0.target e
  out : ∀ st, P st → ∀ u, R u → (graph st).outEdges u = g0.outEdges u
  closed : ∀ u, R u → ∀ e ∈ g0.outEdges u, R (g0.target e)
  keep : ∀ ev st st', P st → vis ev st = .ok st' → P st'

omit [DecidableEq V] in
theorem Stable.emit {Ev : Type} {graph : σ → GraphI V E} {g0 : GraphI V E} {R : V → Prop} {P : σ → Prop} {vis : Visitor Ev σ} (h : Stable graph g0 R P vis)
    (evs : List Ev) : ∀ {st st' : σ}, P st → PyBGL.emit vis evs st = .ok st' → P st' := by
  induction evs with
  | nil => intro st st' hp he; cases he; exact hp
  | cons ev evs ih =>
    intro st st' hp he
    rw [emit_cons] at he
    split at he
    · simp at he
    · next s1 h1 => exact ih (h.keep _ _ _ hp h1) he

section dfs
variable {graph : σ → GraphI V E} {g0 : GraphI V E} {R : V → Prop} {P : σ → Prop} {vis : Visitor (DfsEvent V E) σ} {push : E → Bool}

/-- The invariant of the search. -/
def DInv (g0 : GraphI V E) (R : V → Prop) (P : σ → Prop) (s : DfsState V E σ) : Prop :=
  P s.st ∧ (∀ x ∈ s.stack, R x.1) ∧ ∀ u es i n, s.cur = some (u, es, i, n) → R u ∧ ∀ e ∈ es, R (g0.target e)

omit [DecidableEq V] in
theorem pushed_eq (h : Stable graph g0 R P vis) {st : σ} (hp : P st) {u : V} (hu : R u) :
    pushed (graph st) push u = pushed g0 push u ∧ pushCalls (graph st) u = pushCalls g0 u := by
  unfold pushed pushCalls
  rw [h.out st hp u hu]
  exact ⟨rfl, rfl⟩

omit [DecidableEq V] in
theorem pushed_R (h : Stable graph g0 R P vis) {u : V} (hu : R u) : ∀ e ∈ pushed g0 push u, R (g0.target e) :=
  fun e he => h.closed u hu e (List.mem_filter.1 he).1

theorem dfsStepD_eq (h : Stable graph g0 R P vis) (t : Nat) (s : DfsState V E σ) (hs : DInv g0 R P s) : dfsStepD graph push vis t s = dfsStep g0 push vis t s := by
  obtain ⟨color, st, stack, cur⟩ := s
  obtain ⟨hp, hst, hc⟩ := hs
  simp only at hp hst hc
  unfold dfsStepD dfsStep
  cases cur with
  | none =>
    cases stack with
    | nil => rfl
    | cons x rest =>
      obtain ⟨u, i, n⟩ := x
      obtain ⟨h1, h2⟩ := pushed_eq (push := push) h hp (hst _ (List.mem_cons_self ..))
      simp only [h1, h2]
      cases emit vis (pushCalls g0 u) st <;> rfl
  | some x =>
    obtain ⟨u, es, i, n⟩ := x
    obtain ⟨hu, hes⟩ := hc u es i n rfl
    simp only
    split
    · rfl
    · cases hg : es[i]? with
      | none => rfl
      | some e =>
        have hv : R (g0.target e) := hes e (List.mem_of_getElem? hg)
        simp only [h.target st hp]
        cases he : vis (.examineEdge e) st with
        | error err => rfl
        | ok st1 =>
          have hp1 := h.keep _ _ _ hp he
          simp only
          cases hcol : colorOf color (g0.target e) with
          | white =>
            simp only
            rw [emit_append]
            cases hem : emit vis [.treeEdge e, .discover (g0.target e)] st1 with
            | error err => rfl
            | ok st2 =>
              obtain ⟨h1, h2⟩ := pushed_eq (push := push) h (h.emit _ hp1 hem) hv
              simp only [h1, h2]
              cases emit vis (pushCalls g0 (g0.target e)) st2 <;> rfl
          | gray => rfl
          | black => rfl

theorem dfsStep_inv (h : Stable graph g0 R P vis) (t : Nat) (s s' : DfsState V E σ) (hs : DInv g0 R P s) (hn : dfsStep g0 push vis t s = .next s') : DInv g0 R P s' := by
  obtain ⟨color, st, stack, cur⟩ := s
  obtain ⟨hp, hst, hc⟩ := hs
  simp only at hp hst hc
  unfold dfsStep at hn
  cases cur with
  | none =>
    cases stack with
    | nil => simp at hn
    | cons x rest =>
      obtain ⟨u, i, n⟩ := x
      simp only at hn
      split at hn
      · simp at hn
      · next st1 h1 =>
        simp only [Step.next.injEq] at hn
        subst hn
        have hu := hst _ (List.mem_cons_self ..)
        refine ⟨h.emit _ hp h1, fun x hx => hst x (List.mem_cons_of_mem _ hx), ?_⟩
        intro u' es' i' n' heq
        simp only [Option.some.injEq, Prod.mk.injEq] at heq
        obtain ⟨rfl, rfl, rfl, rfl⟩ := heq
        exact ⟨hu, pushed_R h hu⟩
  | some x =>
    obtain ⟨u, es, i, n⟩ := x
    obtain ⟨hu, hes⟩ := hc u es i n rfl
    simp only at hn
    split at hn
    · split at hn
      · simp at hn
      · next st1 h1 =>
        simp only [Step.next.injEq] at hn
        subst hn
        exact ⟨h.keep _ _ _ hp h1, hst, by simp⟩
    · cases hg : es[i]? with
      | none => rw [hg] at hn; simp at hn
      | some e =>
        rw [hg] at hn
        have hv : R (g0.target e) := hes e (List.mem_of_getElem? hg)
        simp only at hn
        cases he : vis (.examineEdge e) st with
        | error err => rw [he] at hn; simp at hn
        | ok st1 =>
          rw [he] at hn
          have hp1 := h.keep _ _ _ hp he
          simp only at hn
          cases hcol : colorOf color (g0.target e) with
          | white =>
            rw [hcol] at hn
            simp only at hn
            split at hn
            · simp at hn
            · next st2 h2 =>
              simp only [Step.next.injEq] at hn
              subst hn
              refine ⟨h.emit _ hp1 h2, ?_, ?_⟩
              · intro x hx
                rcases List.mem_cons.1 hx with rfl | hx
                · exact hu
                · exact hst x hx
              · intro u' es' i' n' heq
                simp only [Option.some.injEq, Prod.mk.injEq] at heq
                obtain ⟨rfl, rfl, rfl, rfl⟩ := heq
                exact ⟨hv, pushed_R h hv⟩
          | gray =>
            rw [hcol] at hn
            simp only at hn
            split at hn
            · simp at hn
            · next st2 h2 =>
              simp only [Step.next.injEq] at hn
              subst hn
              refine ⟨h.keep _ _ _ hp1 h2, hst, ?_⟩
              intro u' es' i' n' heq
              simp only [Option.some.injEq, Prod.mk.injEq] at heq
              obtain ⟨rfl, rfl, rfl, rfl⟩ := heq
              exact ⟨hu, hes⟩
          | black =>
            rw [hcol] at hn
            simp only at hn
            split at hn
            · simp at hn
            · next st2 h2 =>
              simp only [Step.next.injEq] at hn
              subst hn
              refine ⟨h.keep _ _ _ hp1 h2, hst, ?_⟩
              intro u' es' i' n' heq
              simp only [Option.some.injEq, Prod.mk.injEq] at heq
              obtain ⟨rfl, rfl, rfl, rfl⟩ := heq
              exact ⟨hu, hes⟩

theorem dfsD_eq (h : Stable graph g0 R P vis) {s : V} (hs : R s) (c : Dict V Color) {st : σ} (hp : P st) (fuel : Nat) :
    dfsD graph push vis s c st fuel = dfs g0 push vis s c st fuel := by
  unfold dfsD dfs
  rw [emit_append]
  cases he : emit vis [.start s, .discover s] st with
  | error e => rfl
  | ok st1 =>
    have hp1 := h.emit _ hp he
    obtain ⟨h1, h2⟩ := pushed_eq (push := push) h hp1 hs
    simp only [h1, h2]
    cases he2 : emit vis (pushCalls g0 s) st1 with
    | error e => rfl
    | ok st2 =>
      simp only
      refine loop_congr (I := DInv g0 R P) (fun t s hs => dfsStepD_eq h t s hs) (fun t s s' hs hn => dfsStep_inv h t s s' hs hn) fuel 0 _ ?_
      exact ⟨h.emit _ hp1 he2, by simp [hs], by simp⟩

end dfs

section bfs
variable {graph : σ → GraphI V E} {g0 : GraphI V E} {R : V → Prop} {P : σ → Prop} {vis : Visitor (BfsEvent V E) σ} {push : E → Bool}

theorem bfsEdgeD_keep (h : Stable graph g0 R P vis) (e : E) {s s' : BfsState V σ} (hp : P s.st) (hn : bfsEdgeD graph push vis e s = .ok s') : P s'.st := by
  unfold bfsEdgeD at hn
  split at hn
  · simp at hn
  · next st h1 =>
    have hp1 := h.keep _ _ _ hp h1
    split at hn
    · simp only at hn
      split at hn
      · simp at hn
      · next st2 h2 =>
        have hp2 := h.keep _ _ _ hp1 h2
        split at hn
        all_goals
          cases hm : emit vis _ st2 with
          | error err => rw [hm] at hn; simp [Except.map] at hn
          | ok st3 =>
            rw [hm] at hn
            simp only [Except.map, Except.ok.injEq] at hn
            subst hn
            exact h.emit _ hp2 hm
    · cases hn
      exact hp1

/-- The loop over a list of edges. -/
theorem each_bfsEdges (h : Stable graph g0 R P vis) (es : List E) : ∀ (s : BfsState V σ), P s.st →
    match bfsEdges g0 push vis es s with
    | .ok s' => PyM.each (fun e => stmt (bfsEdgeD graph push vis e)) es s = (.ok (), s')
    | .error err => (PyM.each (fun e => stmt (bfsEdgeD graph push vis e)) es s).1 = .error err := by
  induction es with
  | nil => intro s _; rfl
  | cons e es ih =>
    intro s hp
    have hd : bfsEdges g0 push vis (e :: es) s = (bfsEdgeD graph push vis e s).bind (bfsEdges g0 push vis es) := by
      unfold bfsEdges bfsEdgeD
      cases h1 : vis (.ifPush e) s.st with
      | error err => rfl
      | ok st =>
        simp only [h.target st (h.keep _ _ _ hp h1)]
        split
        · cases h2 : vis (.examineEdge e) st with
          | error err => rfl
          | ok st2 =>
            simp only
            cases colorOf s.color (g0.target e) with
            | white => simp only; cases emit vis [.treeEdge e, .discover (g0.target e)] st2 <;> rfl
            | gray => simp only; cases emit vis [.nonTreeEdge e, .grayTarget e] st2 <;> rfl
            | black => simp only; cases emit vis [.nonTreeEdge e, .blackTarget e] st2 <;> rfl
        · rfl
    rw [hd]
    simp only [PyM.each]
    cases hb : bfsEdgeD graph push vis e s with
    | error err =>
      show (PyM.bind _ _ s).1 = _
      rw [bind_error (s' := s) (e := err) (by simp [stmt, hb])]
    | ok s1 =>
      have := ih s1 (bfsEdgeD_keep h e hp hb)
      show match bfsEdges g0 push vis es s1 with
        | .ok s' => PyM.bind _ _ s = (.ok (), s')
        | .error err => (PyM.bind _ _ s).1 = .error err
      rw [bind_ok (s' := s1) (r := ()) (by simp [stmt, hb])]
      exact this

/-- The queue holds vertices of `R`. -/
def BInv (R : V → Prop) (P : σ → Prop) (s : BfsState V σ) : Prop := P s.st ∧ ∀ u ∈ s.queue, R u

theorem bfsEdges_inv (h : Stable graph g0 R P vis) (es : List E) : ∀ (s s' : BfsState V σ), BInv R P s → (∀ e ∈ es, R (g0.target e)) →
    bfsEdges g0 push vis es s = .ok s' → BInv R P s' := by
  induction es with
  | nil => intro s s' hs _ hn; cases hn; exact hs
  | cons e es ih =>
    intro s s' hs he hn
    have he' : ∀ e ∈ es, R (g0.target e) := fun x hx => he x (List.mem_cons_of_mem _ hx)
    unfold bfsEdges at hn
    split at hn
    · simp at hn
    · next st h1 =>
      have hp1 := h.keep _ _ _ hs.1 h1
      split at hn
      · split at hn
        · simp at hn
        · next st2 h2 =>
          have hp2 := h.keep _ _ _ hp1 h2
          split at hn
          · split at hn
            · simp at hn
            · next st3 h3 =>
              refine ih _ _ ⟨h.emit _ hp2 h3, ?_⟩ he' hn
              intro u hu
              rcases List.mem_append.1 hu with hu | hu
              · exact hs.2 u hu
              · rw [List.mem_singleton.1 hu]; exact he e (List.mem_cons_self ..)
          · split at hn
            · simp at hn
            · next st3 h3 => exact ih ⟨s.color, st3, s.queue⟩ _ ⟨h.emit _ hp2 h3, hs.2⟩ he' hn
          · split at hn
            · simp at hn
            · next st3 h3 => exact ih ⟨s.color, st3, s.queue⟩ _ ⟨h.emit _ hp2 h3, hs.2⟩ he' hn
      · exact ih ⟨s.color, st, s.queue⟩ _ ⟨hp1, hs.2⟩ he' hn

theorem bfsStepD_eq (h : Stable graph g0 R P vis) (t : Nat) (s : BfsState V σ) (hs : BInv R P s) : bfsStepD graph push vis t s = bfsStep g0 push vis t s := by
  obtain ⟨color, st, queue⟩ := s
  obtain ⟨hp, hq⟩ := hs
  simp only at hp hq
  unfold bfsStepD bfsStep
  cases queue with
  | nil => rfl
  | cons u q =>
    simp only
    cases h1 : vis (.examineVertex u) st with
    | error e => rfl
    | ok st1 =>
      have hp1 := h.keep _ _ _ hp h1
      have hu := hq u (List.mem_cons_self ..)
      simp only
      have hl : pyFor (fun s : BfsState V σ => (graph s.st).outEdges u) (fun e => stmt (bfsEdgeD graph push vis e)) ⟨color, st1, q⟩ =
          PyM.each (fun e => stmt (bfsEdgeD graph push vis e)) (g0.outEdges u) ⟨color, st1, q⟩ := by
        refine pyFor_stable (P := fun s : BfsState V σ => P s.st) (fun s hs => h.out _ hs u hu) ?_ hp1
        intro e s hs
        unfold stmt
        cases hb : bfsEdgeD graph push vis e s with
        | error err => exact hs
        | ok s' => exact bfsEdgeD_keep h e hs hb
      rw [hl]
      have he := each_bfsEdges (push := push) h (g0.outEdges u) ⟨color, st1, q⟩ hp1
      cases hb : bfsEdges g0 push vis (g0.outEdges u) ⟨color, st1, q⟩ with
      | error err =>
        rw [hb] at he
        simp only at he
        generalize PyM.each (fun e => stmt (bfsEdgeD graph push vis e)) (g0.outEdges u) ⟨color, st1, q⟩ = o at he
        obtain ⟨o, s'⟩ := o
        simp only at he
        subst he
        rfl
      | ok s' =>
        rw [hb] at he
        simp only at he
        rw [he]
        simp only
        cases vis (.finish u) s'.st <;> rfl

theorem bfsStep_inv (h : Stable graph g0 R P vis) (t : Nat) (s s' : BfsState V σ) (hs : BInv R P s) (hn : bfsStep g0 push vis t s = .next s') : BInv R P s' := by
  obtain ⟨color, st, queue⟩ := s
  obtain ⟨hp, hq⟩ := hs
  simp only at hp hq
  unfold bfsStep at hn
  cases queue with
  | nil => simp at hn
  | cons u q =>
    simp only at hn
    split at hn
    · simp at hn
    · next st1 h1 =>
      split at hn
      · simp at hn
      · next s2 h2 =>
        have hi := bfsEdges_inv h _ _ _ (show BInv R P ⟨color, st1, q⟩ from ⟨h.keep _ _ _ hp h1, fun x hx => hq x (List.mem_cons_of_mem _ hx)⟩)
          (h.closed u (hq u (List.mem_cons_self ..))) h2
        split at hn
        · simp at hn
        · next st3 h3 =>
          simp only [Step.next.injEq] at hn
          subst hn
          exact ⟨h.keep _ _ _ hi.1 h3, hi.2⟩

theorem bfsInit_inv (h : Stable graph g0 R P vis) (us : List V) : ∀ s s' : BfsState V σ, BInv R P s → (∀ u ∈ us, R u) → bfsInit vis us s = .ok s' → BInv R P s' := by
  induction us with
  | nil => intro s s' hs _ hn; cases hn; exact hs
  | cons u us ih =>
    intro s s' hs hu hn
    unfold bfsInit at hn
    split at hn
    · simp at hn
    · next st h1 =>
      refine ih _ _ ⟨h.keep _ _ _ hs.1 h1, ?_⟩ (fun x hx => hu x (List.mem_cons_of_mem _ hx)) hn
      intro x hx
      rcases List.mem_cons.1 hx with rfl | hx
      · exact hu _ (List.mem_cons_self ..)
      · exact hs.2 x hx

theorem bfsGraphD_eq (h : Stable graph g0 R P vis) {sources : List V} (hs : ∀ u ∈ sources, R u) (c : Dict V Color) {st : σ} (hp : P st) (fuel : Nat) :
    bfsGraphD graph sources push vis c st fuel = bfsGraph g0 sources push vis c st fuel := by
  unfold bfsGraphD bfsGraph
  cases hi : bfsInit vis sources ⟨c, st, []⟩ with
  | error e => rfl
  | ok s =>
    exact loop_congr (I := BInv R P) (fun t s hs => bfsStepD_eq h t s hs) (fun t s s' hs hn => bfsStep_inv h t s s' hs hn) fuel 0 s
      (bfsInit_inv h _ _ _ ⟨hp, by simp⟩ hs hi)

theorem bfsD_eq (h : Stable graph g0 R P vis) (hv : ∀ st, P st → (graph st).vertices = g0.vertices) {s : V} (hs : R s) (c : Dict V Color) {st : σ} (hp : P st) (fuel : Nat) :
    bfsD graph s push vis c st fuel = bfs g0 s push (some vis) c st fuel := by
  have hl := pyFor_stable (items := fun x : Dict V Color × σ => (graph x.2).vertices)
    (body := fun u => stmt fun x : Dict V Color × σ => (vis (.initializeVertex u) x.2).map fun st => (x.1.set u .white, st)) (P := fun x => P x.2) (l := g0.vertices)
    (fun x hx => hv _ hx) (by
      intro u x hx
      obtain ⟨c, st⟩ := x
      cases hb : vis (.initializeVertex u) st with
      | error e => simpa [stmt, hb, Except.map] using hx
      | ok st' => simpa [stmt, hb, Except.map] using h.keep _ _ _ hx hb) (s := (c, st)) hp
  have key : ∀ (us : List V) (c : Dict V Color) (st : σ), P st →
      match emit vis (us.map .initializeVertex) st with
      | .ok st' => PyM.each (fun u => stmt fun x : Dict V Color × σ => (vis (.initializeVertex u) x.2).map fun st => (x.1.set u .white, st)) us (c, st) =
          (.ok (), us.foldl (fun c u => c.set u .white) c, st') ∧ P st'
      | .error e => (PyM.each (fun u => stmt fun x : Dict V Color × σ => (vis (.initializeVertex u) x.2).map fun st => (x.1.set u .white, st)) us (c, st)).1 = .error e := by
    intro us
    induction us with
    | nil => intro c st hp; exact ⟨rfl, hp⟩
    | cons u us ih =>
      intro c st hp
      rw [List.map_cons, emit_cons]
      simp only [PyM.each]
      cases hb : vis (.initializeVertex u) st with
      | error e =>
        simp only
        rw [bind_error (s' := (c, st)) (e := e) (by simp [stmt, hb, Except.map])]
      | ok st1 =>
        simp only
        rw [bind_ok (s' := (c.set u .white, st1)) (r := ()) (by simp [stmt, hb, Except.map])]
        exact ih _ _ (h.keep _ _ _ hp hb)
  unfold bfsD bfs
  rw [hl]
  have := key g0.vertices c st hp
  simp only
  cases he : emit vis (g0.vertices.map .initializeVertex) st with
  | error e =>
    rw [he] at this
    simp only at this
    generalize PyM.each (fun u => stmt fun x : Dict V Color × σ => (vis (.initializeVertex u) x.2).map fun st => (x.1.set u .white, st)) g0.vertices (c, st) = o at this
    obtain ⟨o, s'⟩ := o
    simp only at this
    subst this
    rfl
  | ok st' =>
    rw [he] at this
    simp only at this
    rw [this.1]
    exact bfsGraphD_eq h (by simp [hs]) _ this.2 fuel

end bfs

/-! ## A graph copied into itself -/

section copy
variable {E D F : Type} [DecidableEq E]

/-- New vertices are not in `old`, and the edges added between vertices that are not in `old` do not change the out-edges of those of `old`. -/
structure Apart (T : CopyClass D F E) (toI : D → GraphI Nat E) (old : List Nat) (inv : D → Prop) : Prop where
  vertex : ∀ d, inv d → (T.addVertex d).1 ∉ old ∧ inv (T.addVertex d).2 ∧ ∀ u ∈ old, (toI (T.addVertex d).2).outEdges u = (toI d).outEdges u
  edge : ∀ d x y e f d', inv d → x ∉ old → y ∉ old → T.addEdge d x y e = .ok (f, d') → inv d' ∧ ∀ u ∈ old, (toI d').outEdges u = (toI d).outEdges u
  source : ∀ d d', (toI d).source = (toI d').source
  target : ∀ d d', (toI d).target = (toI d').target

/-- What remains true while `g` is copied into itself. -/
def CInv (toI : D → GraphI Nat E) (old : List Nat) (inv : D → Prop) (g : D) (x : CopyInto.State Nat E D F σ) : Prop :=
  inv x.dup ∧ (∀ u ∈ old, (toI x.dup).outEdges u = (toI g).outEdges u) ∧ ∀ u y, x.vmap.get? u = some y → y ∉ old

variable {T : CopyClass D F E} {toI : D → GraphI Nat E} {old : List Nat} {inv : D → Prop} {g : D} {cb : Visitor (CopyCall Nat E D F) σ}

omit [DecidableEq E] in
theorem dupVertex_keep (h : Apart T toI old inv) {x x' : CopyInto.State Nat E D F σ} {u y : Nat} (hx : CInv toI old inv g x)
    (hn : CopyInto.dupVertex T cb x u = .ok (y, x')) : CInv toI old inv g x' ∧ y ∉ old := by
  unfold CopyInto.dupVertex at hn
  obtain ⟨h1, h2, h3⟩ := h.vertex x.dup hx.1
  generalize T.addVertex x.dup = r at hn h1 h2 h3
  obtain ⟨y0, d⟩ := r
  simp only at hn h1 h2 h3
  split at hn
  · simp at hn
  · simp only [Except.ok.injEq, Prod.mk.injEq] at hn
    obtain ⟨rfl, rfl⟩ := hn
    refine ⟨⟨h2, fun v hv => (h3 v hv).trans (hx.2.1 v hv), ?_⟩, h1⟩
    intro v z hz
    simp only [Dict.get?_set] at hz
    split at hz
    · cases hz; exact h1
    · exact hx.2.2 v z hz

omit [DecidableEq E] in
theorem dupTarget_keep (h : Apart T toI old inv) {x x' : CopyInto.State Nat E D F σ} {u y : Nat} (hx : CInv toI old inv g x)
    (hn : CopyInto.dupTarget T cb x u = .ok (y, x')) : CInv toI old inv g x' ∧ y ∉ old := by
  unfold CopyInto.dupTarget at hn
  split at hn
  · split at hn
    · simp at hn
    · next z hz =>
      simp only [Except.ok.injEq, Prod.mk.injEq] at hn
      obtain ⟨rfl, rfl⟩ := hn
      refine ⟨hx, hx.2.2 u _ ?_⟩
      unfold Dict.getE at hz
      split at hz
      · next hg => cases hz; exact hg
      · simp at hz
  · exact dupVertex_keep h hx hn

theorem dupEdge_keep (h : Apart T toI old inv) {gi : GraphI Nat E} {x x' : CopyInto.State Nat E D F σ} {e : E} (hx : CInv toI old inv g x)
    (hn : CopyInto.dupEdge T cb gi x e = .ok x') : CInv toI old inv g x' := by
  unfold CopyInto.dupEdge at hn
  split at hn
  · simp at hn
  · next y hy =>
    have hy' : y ∉ old := by
      unfold Dict.getE at hy
      split at hy
      · next hg => cases hy; exact hx.2.2 _ _ hg
      · simp at hy
    split at hn
    · simp at hn
    · next z x1 hz =>
      obtain ⟨hx1, hz'⟩ := dupTarget_keep h hx hz
      split at hn
      · simp at hn
      · next f d hd =>
        obtain ⟨k1, k2⟩ := h.edge _ _ _ _ _ _ hx1.1 hy' hz' hd
        split at hn
        · simp at hn
        · cases hn
          exact ⟨k1, fun u hu => (k2 u hu).trans (hx1.2.1 u hu), hx1.2.2⟩

theorem visitor_keep (h : Apart T toI old inv) {gi : GraphI Nat E} {vrel : Nat → Bool} {erel : E → Bool} (ev : DfsEvent Nat E)
    {x x' : CopyInto.State Nat E D F σ} (hx : CInv toI old inv g x) (hn : CopyInto.visitor T cb gi vrel erel ev x = .ok x') : CInv toI old inv g x' := by
  cases ev with
  | start u =>
    simp only [CopyInto.visitor] at hn
    cases hd : CopyInto.dupVertex T cb x u with
    | error e => rw [hd] at hn; simp [Except.map] at hn
    | ok r =>
      rw [hd] at hn
      simp only [Except.map, Except.ok.injEq] at hn
      subst hn
      exact (dupVertex_keep h hx (y := r.1) hd).1
  | examineEdge e =>
    simp only [CopyInto.visitor] at hn
    split at hn
    · exact dupEdge_keep h hx hn
    · cases hn; exact hx
  | _ => cases hn; exact hx

/-- A graph copied into itself is a graph copied into another one that has the same content. -/
theorem copySelf_eq (h : Apart T toI old inv) (hg : inv g) (hclosed : ∀ u ∈ old, ∀ e ∈ (toI g).outEdges u, (toI g).target e ∈ old) {s : Nat} (hs : s ∈ old)
    (vrel : Option (Nat → Bool)) (erel : Option (E → Bool)) {vm : Dict Nat Nat} (hvm : ∀ u y, vm.get? u = some y → y ∉ old) (em : Dict E F) (st : σ) (fuel : Nat) :
    copySelf T toI cb s g vrel erel vm em st fuel = copyInto T cb s (toI g) g vrel erel vm em st fuel := by
  have hvis : (fun ev (x : CopyInto.State Nat E D F σ) => CopyInto.visitor T cb (toI x.dup) (vrel.getD fun _ => true) (erel.getD fun _ => true) ev x) =
      CopyInto.visitor T cb (toI g) (vrel.getD fun _ => true) (erel.getD fun _ => true) := by
    funext ev x
    cases ev <;> simp only [CopyInto.visitor, CopyInto.dupEdge, h.source x.dup g, h.target x.dup g]
  unfold copySelf copyInto
  simp only [hvis]
  rw [dfsD_eq (g0 := toI g) (R := fun u => u ∈ old) (P := CInv toI old inv g) (graph := fun x : CopyInto.State Nat E D F σ => toI x.dup)
    ⟨fun x _ e => by rw [h.target x.dup g], fun x hx u hu => hx.2.1 u hu, hclosed, fun ev x x' hx hn => visitor_keep h ev hx hn⟩ hs]
  exact ⟨hg, fun _ _ => rfl, hvm⟩

end copy

/-! ## The classes -/

section classes
variable {E : Type}

theorem outEdges_of_get {d d' : Graph} {u : Nat} (h : d'.adj.get? u = d.adj.get? u) : d'.outEdges u = d.outEdges u := by
  unfold Graph.outEdges Dict.getD
  rw [h]

theorem addEdge_get {d d' : Graph} {x y : Nat} {f : EdgeDesc Nat} (h : d.addEdge x y = .ok (f, d')) :
    d'.lastVertexId = d.lastVertexId ∧ ∀ u, u ≠ x → d'.adj.get? u = d.adj.get? u := by
  unfold Graph.addEdge at h
  cases hg : d.adj.getE x with
  | error e => rw [hg] at h; simp [bind, Except.bind] at h
  | ok uA =>
    rw [hg] at h
    simp only [bind, Except.bind] at h
    split at h
    all_goals
      simp only [Except.ok.injEq, Prod.mk.injEq] at h
      obtain ⟨-, rfl⟩ := h
      refine ⟨rfl, fun u hu => ?_⟩
      simp [Dict.get?_set, Ne.symm hu]

theorem apart_directed (old : List Nat) : Apart (CopyClass.directed (EdgeDesc Nat)) Graph.toI old (fun d => ∀ u ∈ old, u < d.lastVertexId) := by
  refine ⟨?_, ?_, fun _ _ => rfl, fun _ _ => rfl⟩
  · intro d hd
    refine ⟨fun h => Nat.lt_irrefl _ (hd _ h), fun u hu => Nat.lt_succ_of_lt (hd u hu), fun u hu => outEdges_of_get ?_⟩
    have : d.lastVertexId ≠ u := Nat.ne_of_gt (hd u hu)
    simp [CopyClass.directed, Graph.addVertex, Dict.get?_set, this]
  · intro d x y e f d' hd hx _ h
    obtain ⟨k1, k2⟩ := addEdge_get h
    exact ⟨fun u hu => by rw [k1]; exact hd u hu, fun u hu => outEdges_of_get (k2 u fun h => hx (h ▸ hu))⟩

theorem apart_undirected (old : List Nat) : Apart (CopyClass.undirected (EdgeDesc Nat)) UGraph.toI old (fun d => ∀ u ∈ old, u < d.lastVertexId) := by
  refine ⟨(apart_directed old).vertex, ?_, fun _ _ => rfl, fun _ _ => rfl⟩
  intro d x y e f d' hd hx hy h
  have hmin : min x y ∉ old := by rcases Nat.le_total x y with h | h <;> simp [h, hx, hy]
  have hmax : max x y ∉ old := by rcases Nat.le_total x y with h | h <;> simp [h, hx, hy]
  change UGraph.addEdge d x y = _ at h
  unfold UGraph.addEdge at h
  simp only at h
  cases h1 : d.addEdge (min x y) (max x y) with
  | error e => rw [h1] at h; simp [bind, Except.bind] at h
  | ok r =>
    obtain ⟨f1, d1⟩ := r
    rw [h1] at h
    obtain ⟨k1, k2⟩ := addEdge_get h1
    simp only [bind, Except.bind] at h
    cases h2 : d1.adj.getE (max x y) with
    | error e => rw [h2] at h; simp at h
    | ok adjV =>
      rw [h2] at h
      simp only at h
      generalize Dict.getE (if adjV.contains (min x y) then adjV else adjV.set (min x y) []) (min x y) = o at h
      cases o with
      | error e => simp at h
      | ok s =>
        simp only [Except.ok.injEq, Prod.mk.injEq] at h
        obtain ⟨-, rfl⟩ := h
        refine ⟨fun u hu => by show u < d1.lastVertexId; rw [k1]; exact hd u hu, fun u hu => outEdges_of_get ?_⟩
        have hne : max x y ≠ u := fun h => hmax (h ▸ hu)
        simp only [Dict.get?_set]
        simp [hne]
        exact k2 u fun h => hmin (h ▸ hu)

theorem apart_incidence (old : List Nat) : Apart (CopyClass.incidence (EdgeDesc Nat)) IGraph.toI old (fun d => ∀ u ∈ old, u < d.g.lastVertexId) := by
  refine ⟨?_, ?_, fun _ _ => rfl, fun _ _ => rfl⟩
  · intro d hd
    exact (apart_directed old).vertex d.g hd
  · intro d x y e f d' hd hx hy h
    change d.addEdge x y = _ at h
    unfold IGraph.addEdge at h
    cases h1 : d.g.addEdge x y with
    | error e => rw [h1] at h; simp [bind, Except.bind] at h
    | ok r =>
      obtain ⟨f1, d1⟩ := r
      rw [h1] at h
      simp only [bind, Except.bind] at h
      have key := (apart_directed old).edge d.g x y e f1 d1 hd hx hy h1
      cases h2 : d.inAdj.getE y with
      | error e => rw [h2] at h; simp at h
      | ok s =>
        rw [h2] at h
        simp only at h
        split at h
        all_goals
          simp only [Except.ok.injEq, Prod.mk.injEq] at h
          obtain ⟨-, rfl⟩ := h
          exact key

theorem apart_automaton {A : Type} [DecidableEq A] (old : List Nat) :
    Apart (CopyClass.automaton A) Automaton.toI old (fun d => ∀ u ∈ old, u < d.lastVertexId) := by
  have hout : ∀ {d d' : Automaton A} {u : Nat}, d'.adj.get? u = d.adj.get? u → d'.outEdges u = d.outEdges u := by
    intro d d' u h
    unfold Automaton.outEdges Dict.getD
    rw [h]
  refine ⟨?_, ?_, fun _ _ => rfl, fun _ _ => rfl⟩
  · intro d hd
    refine ⟨fun h => Nat.lt_irrefl _ (hd _ h), fun u hu => Nat.lt_succ_of_lt (hd u hu), fun u hu => hout ?_⟩
    have : d.lastVertexId ≠ u := Nat.ne_of_gt (hd u hu)
    simp [CopyClass.automaton, Automaton.addVertex, Dict.get?_set, this]
  · intro d x y e f d' hd hx _ h
    change (d.addEdge x y e.distinguisher).map _ = _ at h
    unfold Automaton.addEdge at h
    split at h
    · simp only [Except.map, Except.ok.injEq, Prod.mk.injEq] at h
      obtain ⟨-, rfl⟩ := h
      exact ⟨hd, fun _ _ => rfl⟩
    · cases hg : d.adj.getE x with
      | error e => rw [hg] at h; simp [bind, Except.bind, Except.map] at h
      | ok q =>
        rw [hg] at h
        simp only [bind, Except.bind, Except.map, Except.ok.injEq, Prod.mk.injEq] at h
        obtain ⟨-, rfl⟩ := h
        refine ⟨hd, fun u hu => hout ?_⟩
        have : u ≠ x := fun h => hx (h ▸ hu)
        simp [Dict.get?_set, Ne.symm this]

end classes
end Dyn
end PyBGL
