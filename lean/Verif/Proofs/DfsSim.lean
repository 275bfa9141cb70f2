import Verif.Model.Search
import Verif.Proofs.PathLemmas

/-!
# Big-step description of depth-first search, and its simulation by the loops
-/

namespace PyBGL

section emit
variable {Ev σ : Type} {vis : Visitor Ev σ}

@[simp] theorem emit_nil (s : σ) : emit vis [] s = .ok s := rfl

theorem emit_cons (e : Ev) (es : List Ev) (s : σ) :
    emit vis (e :: es) s = match vis e s with | .error err => .error err | .ok s' => emit vis es s' := by
  unfold emit
  rw [List.foldlM_cons]
  cases vis e s <;> rfl

theorem emit_append (xs ys : List Ev) (s : σ) :
    emit vis (xs ++ ys) s = match emit vis xs s with | .error err => .error err | .ok s' => emit vis ys s' := by
  induction xs generalizing s with
  | nil => rfl
  | cons x xs ih =>
    rw [List.cons_append, emit_cons, emit_cons]
    cases vis x s with
    | error e => rfl
    | ok s' => exact ih s'

theorem emit_singleton (e : Ev) (s : σ) : emit vis [e] s = vis e s := by
  rw [emit_cons]; cases vis e s <;> rfl

theorem emit_recorder (evs : List Ev) (s : List Ev) : emit recorder evs s = .ok (s ++ evs) := by
  induction evs generalizing s with
  | nil => simp
  | cons e evs ih => rw [emit_cons]; show emit recorder evs (s ++ [e]) = _; rw [ih]; simp

end emit

/-! ## Simulations -/

/-- From `a`, whatever the state of the visitor, the loop makes the calls `evs` and goes on from `b`, or raises the exception
raised by one of these calls. -/
def Sim {C Ev σ S R : Type} (step : Nat → S → Step S R) (mk : C → σ → S) (vis : Visitor Ev σ) (a : C) (evs : List Ev) (b : C) :
    Prop :=
  ∀ st, (∀ st', emit vis evs st = .ok st' → ∃ k, ∀ fuel t, ∃ t', loop step (fuel + k) t (mk a st) = loop step fuel t' (mk b st')) ∧
    (∀ err, emit vis evs st = .error err → ∃ k, ∀ fuel t, loop step (fuel + k) t (mk a st) = some (.error err))

section Sim
variable {C Ev σ S R : Type} {step : Nat → S → Step S R} {mk : C → σ → S} {vis : Visitor Ev σ}

theorem Sim.refl (a : C) : Sim step mk vis a [] a := by
  intro st
  refine ⟨fun st' h => ⟨0, fun fuel t => ⟨t, ?_⟩⟩, fun err h => by cases h⟩
  cases h; rfl

theorem Sim.trans {a b c : C} {xs ys : List Ev} (h1 : Sim step mk vis a xs b) (h2 : Sim step mk vis b ys c) :
    Sim step mk vis a (xs ++ ys) c := by
  intro st
  obtain ⟨p1, p2⟩ := h1 st
  constructor
  · intro st' h
    rw [emit_append] at h
    cases hx : emit vis xs st with
    | error e => rw [hx] at h; cases h
    | ok s1 =>
      rw [hx] at h
      obtain ⟨k1, e1⟩ := p1 s1 hx
      obtain ⟨k2, e2⟩ := (h2 s1).1 st' h
      refine ⟨k2 + k1, fun fuel t => ?_⟩
      obtain ⟨t1, f1⟩ := e1 (fuel + k2) t
      obtain ⟨t2, f2⟩ := e2 fuel t1
      exact ⟨t2, by rw [← Nat.add_assoc, f1, f2]⟩
  · intro err h
    rw [emit_append] at h
    cases hx : emit vis xs st with
    | error e =>
      rw [hx] at h
      simp only [Except.error.injEq] at h
      subst h
      exact p2 _ hx
    | ok s1 =>
      rw [hx] at h
      obtain ⟨k1, e1⟩ := p1 s1 hx
      obtain ⟨k2, e2⟩ := (h2 s1).2 err h
      refine ⟨k2 + k1, fun fuel t => ?_⟩
      obtain ⟨t1, f1⟩ := e1 (fuel + k2) t
      rw [← Nat.add_assoc, f1, e2]

theorem Sim.one {a b : C} {evs : List Ev}
    (h : ∀ t st, step t (mk a st) = match emit vis evs st with | .error e => .fail e | .ok st' => .next (mk b st')) :
    Sim step mk vis a evs b := by
  intro st
  constructor
  · intro st' he
    refine ⟨1, fun fuel t => ⟨t + 1, ?_⟩⟩
    rw [loop, h, he]
  · intro err he
    refine ⟨1, fun fuel t => ?_⟩
    rw [loop, h, he]

end Sim

/-! ## Big steps -/

section
variable {V E σ : Type} [DecidableEq V]

/-- `DfsEdges g p c u es tr c'`: exploring the edges `es` leaving `u` with the colours `c` makes the calls `tr` and leads to
the colours `c'`. -/
inductive DfsEdges (g : GraphI V E) (p : E → Bool) :
    Dict V Color → V → List E → List (DfsEvent V E) → Dict V Color → Prop
  | nil (c : Dict V Color) (u : V) : DfsEdges g p c u [] [] c
  | tree {c c1 c2 : Dict V Color} {u : V} {e : E} {es : List E} {t1 t2 : List (DfsEvent V E)}
      (hw : colorOf c (g.target e) = .white)
      (h1 : DfsEdges g p (c.set (g.target e) .gray) (g.target e) (pushed g p (g.target e)) t1 c1)
      (h2 : DfsEdges g p (c1.set (g.target e) .black) u es t2 c2) :
      DfsEdges g p c u (e :: es) ([.examineEdge e, .treeEdge e] ++ (([.discover (g.target e)] ++ pushCalls g (g.target e) ++ t1 ++
        [.finish (g.target e)]) ++ (pushCalls g u ++ t2))) c2
  | back {c c2 : Dict V Color} {u : V} {e : E} {es : List E} {t : List (DfsEvent V E)}
      (hg : colorOf c (g.target e) = .gray) (h : DfsEdges g p c u es t c2) :
      DfsEdges g p c u (e :: es) ([.examineEdge e, .backEdge e] ++ t) c2
  | cross {c c2 : Dict V Color} {u : V} {e : E} {es : List E} {t : List (DfsEvent V E)}
      (hb : colorOf c (g.target e) = .black) (h : DfsEdges g p c u es t c2) :
      DfsEdges g p c u (e :: es) ([.examineEdge e, .forwardOrCrossEdge e] ++ t) c2

/-- The exploration of a white vertex by `depth_first_search`. -/
def DfsRoot (g : GraphI V E) (p : E → Bool) (c : Dict V Color) (s : V) (tr : List (DfsEvent V E)) (c' : Dict V Color) : Prop :=
  ∃ t c1, DfsEdges g p (c.set s .gray) s (pushed g p s) t c1 ∧ c' = c1.set s .black ∧
    tr = ([.start s, .discover s] ++ pushCalls g s) ++ (pushCalls g s ++ t ++ [.finish s])

/-- `depth_first_search_graph`. -/
inductive DfsForest (g : GraphI V E) (p : E → Bool) : Dict V Color → List V → List (DfsEvent V E) → Dict V Color → Prop
  | nil (c : Dict V Color) : DfsForest g p c [] [] c
  | skip {c c' : Dict V Color} {u : V} {us : List V} {tr : List (DfsEvent V E)} (h : colorOf c u ≠ .white)
      (h' : DfsForest g p c us tr c') : DfsForest g p c (u :: us) tr c'
  | visit {c c1 c2 : Dict V Color} {u : V} {us : List V} {t1 t2 : List (DfsEvent V E)} (h : colorOf c u = .white)
      (h1 : DfsRoot g p c u t1 c1) (h2 : DfsForest g p c1 us t2 c2) : DfsForest g p c (u :: us) (t1 ++ t2) c2

/-- The control state of the loops. -/
abbrev DfsCfg (V E : Type) := Dict V Color × List (V × Nat × Nat) × Option (V × List E × Nat × Nat)

/-- Adding the state of the visitor. -/
def DfsCfg.mk (a : DfsCfg V E) (st : σ) : DfsState V E σ := ⟨a.1, st, a.2.1, a.2.2⟩

variable {g : GraphI V E} {p : E → Bool} {vis : Visitor (DfsEvent V E) σ}

/-- The inner loop follows the big steps. -/
theorem DfsEdges.sim {c c' : Dict V Color} {u : V} {es : List E} {tr : List (DfsEvent V E)} (h : DfsEdges g p c u es tr c') :
    ∀ (i : Nat) (stk : List (V × Nat × Nat)), es = (pushed g p u).drop i → i ≤ (pushed g p u).length →
      Sim (dfsStep g p vis) DfsCfg.mk vis (c, stk, some (u, pushed g p u, i, (pushed g p u).length)) tr
        (c', stk, some (u, pushed g p u, (pushed g p u).length, (pushed g p u).length)) := by
  induction h with
  | nil c u =>
    intro i stk he hi
    have : i = (pushed g p u).length := by
      have := congrArg List.length he
      simp at this; omega
    subst this; exact .refl _
  | @tree c c1 c2 u e es t1 t2 hw h1 h2 ih1 ih2 =>
    intro i stk he hi
    have hlt : i < (pushed g p u).length := by
      rcases Nat.lt_or_ge i (pushed g p u).length with h | h
      · exact h
      · rw [List.drop_eq_nil_of_le h] at he; cases he
    have hget : (pushed g p u)[i]? = some e := by
      rw [List.drop_eq_getElem_cons hlt] at he
      rw [List.getElem?_eq_getElem hlt, (List.cons.inj he).1]
    have hrest : es = (pushed g p u).drop (i + 1) := by
      rw [List.drop_eq_getElem_cons hlt] at he
      exact (List.cons.inj he).2
    -- entering the target
    have s1 : Sim (dfsStep g p vis) DfsCfg.mk vis (c, stk, some (u, pushed g p u, i, (pushed g p u).length))
        ([.examineEdge e, .treeEdge e] ++ ([.discover (g.target e)] ++ pushCalls g (g.target e)))
        (c.set (g.target e) .gray, (u, i + 1, (pushed g p u).length) :: stk,
          some (g.target e, pushed g p (g.target e), 0, (pushed g p (g.target e)).length)) := by
      refine Sim.one (fun t st => ?_)
      show (if i = (pushed g p u).length then _ else _) = _
      rw [if_neg (by omega)]
      show (match (pushed g p u)[i]? with | none => _ | some e => _) = _
      rw [hget]
      show (match vis (.examineEdge e) st with | .error err => _ | .ok st => _) = _
      rw [show ([.examineEdge e, .treeEdge e] ++ ([.discover (g.target e)] ++ pushCalls g (g.target e)) : List (DfsEvent V E)) =
        .examineEdge e :: .treeEdge e :: .discover (g.target e) :: pushCalls g (g.target e) from rfl, emit_cons]
      cases vis (.examineEdge e) st with
      | error err => rfl
      | ok st1 =>
        show (match colorOf c (g.target e) with | .white => _ | .gray => _ | .black => _) = _
        rw [hw]
        simp only [List.cons_append, List.nil_append, List.append_assoc]
        cases emit vis (DfsEvent.treeEdge e :: DfsEvent.discover (g.target e) :: pushCalls g (g.target e)) st1 <;> rfl
    have s2 := ih1 0 ((u, i + 1, (pushed g p u).length) :: stk) rfl (Nat.zero_le _)
    have s3 : Sim (dfsStep g p vis) DfsCfg.mk vis (c1, (u, i + 1, (pushed g p u).length) :: stk,
          some (g.target e, pushed g p (g.target e), (pushed g p (g.target e)).length, (pushed g p (g.target e)).length))
        [.finish (g.target e)] (c1.set (g.target e) .black, (u, i + 1, (pushed g p u).length) :: stk, none) := by
      refine Sim.one (fun t st => ?_)
      show (if _ then (match vis (.finish (g.target e)) st with | .error err => _ | .ok st => _) else _) = _
      rw [if_pos rfl, emit_singleton]
      cases vis (.finish (g.target e)) st <;> rfl
    have s4 : Sim (dfsStep g p vis) DfsCfg.mk vis (c1.set (g.target e) .black, (u, i + 1, (pushed g p u).length) :: stk, none)
        (pushCalls g u) (c1.set (g.target e) .black, stk, some (u, pushed g p u, i + 1, (pushed g p u).length)) := by
      refine Sim.one (fun t st => ?_)
      show (match emit vis (pushCalls g u) st with | .error err => _ | .ok st => _) = _
      cases emit vis (pushCalls g u) st <;> rfl
    have s5 := ih2 (i + 1) stk hrest hlt
    have := ((s1.trans s2).trans s3).trans (s4.trans s5)
    simpa only [List.append_assoc] using this
  | @back c c2 u e es t hg h ih =>
    intro i stk he hi
    have hlt : i < (pushed g p u).length := by
      rcases Nat.lt_or_ge i (pushed g p u).length with h | h
      · exact h
      · rw [List.drop_eq_nil_of_le h] at he; cases he
    have hget : (pushed g p u)[i]? = some e := by
      rw [List.drop_eq_getElem_cons hlt] at he
      rw [List.getElem?_eq_getElem hlt, (List.cons.inj he).1]
    have hrest : es = (pushed g p u).drop (i + 1) := by
      rw [List.drop_eq_getElem_cons hlt] at he
      exact (List.cons.inj he).2
    refine Sim.trans (Sim.one (fun t st => ?_)) (ih (i + 1) stk hrest hlt)
    show (if i = (pushed g p u).length then _ else _) = _
    rw [if_neg (by omega)]
    show (match (pushed g p u)[i]? with | none => _ | some e => _) = _
    rw [hget]
    show (match vis (.examineEdge e) st with | .error err => _ | .ok st => _) = _
    rw [emit_cons]
    cases vis (.examineEdge e) st with
    | error err => rfl
    | ok st1 =>
      show (match colorOf c (g.target e) with | .white => _ | .gray => _ | .black => _) = _
      rw [hg]
      simp only [emit_singleton]
      cases vis (.backEdge e) st1 <;> rfl
  | @cross c c2 u e es t hb h ih =>
    intro i stk he hi
    have hlt : i < (pushed g p u).length := by
      rcases Nat.lt_or_ge i (pushed g p u).length with h | h
      · exact h
      · rw [List.drop_eq_nil_of_le h] at he; cases he
    have hget : (pushed g p u)[i]? = some e := by
      rw [List.drop_eq_getElem_cons hlt] at he
      rw [List.getElem?_eq_getElem hlt, (List.cons.inj he).1]
    have hrest : es = (pushed g p u).drop (i + 1) := by
      rw [List.drop_eq_getElem_cons hlt] at he
      exact (List.cons.inj he).2
    refine Sim.trans (Sim.one (fun t st => ?_)) (ih (i + 1) stk hrest hlt)
    show (if i = (pushed g p u).length then _ else _) = _
    rw [if_neg (by omega)]
    show (match (pushed g p u)[i]? with | none => _ | some e => _) = _
    rw [hget]
    show (match vis (.examineEdge e) st with | .error err => _ | .ok st => _) = _
    rw [emit_cons]
    cases vis (.examineEdge e) st with
    | error err => rfl
    | ok st1 =>
      show (match colorOf c (g.target e) with | .white => _ | .gray => _ | .black => _) = _
      rw [hb]
      simp only [emit_singleton]
      cases vis (.forwardOrCrossEdge e) st1 <;> rfl

/-- `depth_first_search` follows the big steps. -/
theorem DfsRoot.returns {c c' : Dict V Color} {s : V} {tr : List (DfsEvent V E)} (h : DfsRoot g p c s tr c') (st : σ) :
    Returns (dfs g p vis s c st) ((emit vis tr st).map (fun st' => (c', st'))) := by
  obtain ⟨t, c1, h1, rfl, rfl⟩ := h
  rw [emit_append]
  unfold dfs
  cases hx : emit vis ([.start s, .discover s] ++ pushCalls g s) st with
  | error e => exact ⟨0, fun fuel _ => rfl⟩
  | ok st0 =>
    simp only
    have s4 : Sim (dfsStep g p vis) DfsCfg.mk vis (c.set s .gray, [(s, 0, (pushed g p s).length)], none)
        (pushCalls g s) (c.set s .gray, [], some (s, pushed g p s, 0, (pushed g p s).length)) := by
      refine Sim.one (fun t st => ?_)
      show (match emit vis (pushCalls g s) st with | .error err => _ | .ok st => _) = _
      cases emit vis (pushCalls g s) st <;> rfl
    have s3 : Sim (dfsStep g p vis) DfsCfg.mk vis (c1, [], some (s, pushed g p s, (pushed g p s).length, (pushed g p s).length))
        [.finish s] (c1.set s .black, [], none) := by
      refine Sim.one (fun t st => ?_)
      show (if _ then (match vis (.finish s) st with | .error err => _ | .ok st => _) else _) = _
      rw [if_pos rfl, emit_singleton]
      cases vis (.finish s) st <;> rfl
    have hs := (s4.trans (h1.sim 0 [] rfl (Nat.zero_le _))).trans s3
    obtain ⟨p1, p2⟩ := hs st0
    cases hy : emit vis (pushCalls g s ++ t ++ [.finish s]) st0 with
    | error e =>
      obtain ⟨k, hk⟩ := p2 e hy
      refine ⟨k, fun fuel hf => ?_⟩
      have := hk (fuel - k) 0
      rw [show fuel - k + k = fuel by omega] at this
      exact this
    | ok st' =>
      obtain ⟨k, hk⟩ := p1 st' hy
      refine ⟨k + 1, fun fuel hf => ?_⟩
      obtain ⟨t', ht⟩ := hk (fuel - k) 0
      rw [show fuel - k + k = fuel by omega] at ht
      refine ht.trans ?_
      rw [show fuel - k = (fuel - k - 1) + 1 by omega, loop]
      rfl

/-- `depth_first_search_graph` follows the big steps. -/
theorem DfsForest.returns {c c' : Dict V Color} {us : List V} {tr : List (DfsEvent V E)} (h : DfsForest g p c us tr c') (st : σ) :
    Returns (fun fuel => dfsSources g p vis fuel us c st) ((emit vis tr st).map (fun st' => (c', st'))) := by
  induction h generalizing st with
  | nil c => exact ⟨0, fun _ _ => rfl⟩
  | skip h _ ih =>
    obtain ⟨N, hN⟩ := ih st
    refine ⟨N, fun fuel hf => ?_⟩
    simp only [dfsSources, if_neg h]; exact hN fuel hf
  | @visit c c1 c2 u us t1 t2 h h1 _ ih =>
    obtain ⟨N, hN⟩ := h1.returns (vis := vis) st
    rw [emit_append]
    cases hx : emit vis t1 st with
    | error e =>
      rw [hx] at hN
      refine ⟨N, fun fuel hf => ?_⟩
      have := hN fuel hf
      simp only [dfsSources, if_pos h, this]
      rfl
    | ok st1 =>
      rw [hx] at hN
      obtain ⟨M, hM⟩ := ih st1
      refine ⟨max N M, fun fuel hf => ?_⟩
      have a := hN fuel (by omega)
      have b := hM fuel (by omega)
      simp only [dfsSources, if_pos h, a]
      exact b

/-! ## Existence of the big steps -/

theorem colorOf_set (c : Dict V Color) (u v : V) (x : Color) : colorOf (c.set u x) v = if u = v then x else colorOf c v := by
  unfold colorOf; rw [Dict.getD_set]

/-- Vertices of `U` that are still white. -/
def whites (U : List V) (c : Dict V Color) : List V := U.filter (fun v => colorOf c v = .white)

theorem whites_length_le {U : List V} {c c' : Dict V Color} (h : ∀ v, colorOf c' v = .white → colorOf c v = .white) :
    (whites U c').length ≤ (whites U c).length := by
  unfold whites
  induction U with
  | nil => simp
  | cons u U ih =>
    simp only [List.filter_cons, decide_eq_true_eq]
    by_cases h1 : colorOf c' u = .white
    · simp [h1, h u h1]; exact ih
    · by_cases h2 : colorOf c u = .white
      · simp [h1, h2]; omega
      · simp [h1, h2]; exact ih

theorem whites_length_lt {U : List V} {c : Dict V Color} {v : V} {x : Color} (hv : v ∈ U) (hc : colorOf c v = .white)
    (hx : x ≠ .white) : (whites U (c.set v x)).length < (whites U c).length := by
  have hle : ∀ w, colorOf (c.set v x) w = .white → colorOf c w = .white := by
    intro w hw
    rw [colorOf_set] at hw
    by_cases e : v = w
    · rw [if_pos e] at hw; exact absurd hw hx
    · rwa [if_neg e] at hw
  induction U with
  | nil => simp at hv
  | cons u U ih =>
    have hh := whites_length_le (U := U) hle
    unfold whites at ih hh ⊢
    simp only [List.filter_cons, decide_eq_true_eq]
    by_cases e : u = v
    · subst e
      have : colorOf (c.set u x) u ≠ .white := by rw [colorOf_set, if_pos rfl]; exact hx
      simp [hc, this]; omega
    · have hvU : v ∈ U := by simpa [Ne.symm e] using hv
      have := ih hvU
      rw [colorOf_set, if_neg (Ne.symm e)]
      by_cases h2 : colorOf c u = .white
      · simp [h2]; omega
      · simp [h2]; omega

/-- No vertex becomes white again. -/
theorem DfsEdges.white_mono {c c' : Dict V Color} {u : V} {es : List E} {tr : List (DfsEvent V E)}
    (h : DfsEdges g p c u es tr c') : ∀ v, colorOf c' v = .white → colorOf c v = .white := by
  induction h with
  | nil => exact fun _ h => h
  | tree hw _ _ ih1 ih2 =>
    intro v hv
    have h1 := ih2 v hv
    rw [colorOf_set] at h1
    split at h1
    · cases h1
    · have h2 := ih1 v h1
      rw [colorOf_set] at h2
      split at h2
      · cases h2
      · exact h2
  | back _ _ ih => exact ih
  | cross _ _ ih => exact ih

/-- Exploring edges whose targets belong to a finite set closed under successors. -/
theorem DfsEdges.exists {U : List V} (hU : ∀ u ∈ U, ∀ e ∈ pushed g p u, g.target e ∈ U) :
    ∀ (n : Nat) (es : List E) (c : Dict V Color) (u : V), (whites U c).length ≤ n → (∀ e ∈ es, g.target e ∈ U) →
      ∃ tr c', DfsEdges g p c u es tr c' := by
  intro n
  induction n with
  | zero =>
    intro es
    induction es with
    | nil => exact fun c u _ _ => ⟨[], c, .nil c u⟩
    | cons e es ih =>
      intro c u hn he
      obtain ⟨tr, c', h⟩ := ih c u hn (fun x hx => he x (by simp [hx]))
      cases hc : colorOf c (g.target e) with
      | white =>
        have : g.target e ∈ whites U c := by
          unfold whites; rw [List.mem_filter]; exact ⟨he e (by simp), by simp [hc]⟩
        have := List.length_pos_of_mem this
        omega
      | gray => exact ⟨_, _, .back hc h⟩
      | black => exact ⟨_, _, .cross hc h⟩
  | succ n ihn =>
    intro es
    induction es with
    | nil => exact fun c u _ _ => ⟨[], c, .nil c u⟩
    | cons e es ih =>
      intro c u hn he
      cases hc : colorOf c (g.target e) with
      | white =>
        have hv := he e (by simp)
        have hlt := whites_length_lt (x := .gray) hv hc (by decide)
        obtain ⟨t1, c1, h1⟩ := ihn (pushed g p (g.target e)) (c.set (g.target e) .gray) (g.target e) (by omega) (hU _ hv)
        have hmono : ∀ v, colorOf (c1.set (g.target e) .black) v = .white → colorOf c v = .white := by
          intro v hv
          rw [colorOf_set] at hv
          split at hv
          · cases hv
          · have := h1.white_mono v hv
            rw [colorOf_set] at this
            split at this
            · cases this
            · exact this
        obtain ⟨t2, c2, h2⟩ := ih (c1.set (g.target e) .black) u (by have := whites_length_le (U := U) hmono; omega)
          (fun x hx => he x (by simp [hx]))
        exact ⟨_, _, .tree hc h1 h2⟩
      | gray =>
        obtain ⟨tr, c', h⟩ := ih c u hn (fun x hx => he x (by simp [hx]))
        exact ⟨_, _, .back hc h⟩
      | black =>
        obtain ⟨tr, c', h⟩ := ih c u hn (fun x hx => he x (by simp [hx]))
        exact ⟨_, _, .cross hc h⟩

theorem DfsRoot.exists {U : List V} (hU : ∀ u ∈ U, ∀ e ∈ pushed g p u, g.target e ∈ U) {s : V} (hs : s ∈ U)
    (c : Dict V Color) : ∃ tr c', DfsRoot g p c s tr c' := by
  obtain ⟨t, c1, h⟩ := DfsEdges.exists hU _ (pushed g p s) (c.set s .gray) s (Nat.le_refl _) (hU s hs)
  exact ⟨_, _, t, c1, h, rfl, rfl⟩

theorem DfsForest.exists {U : List V} (hU : ∀ u ∈ U, ∀ e ∈ pushed g p u, g.target e ∈ U) (us : List V)
    (hs : ∀ u ∈ us, u ∈ U) (c : Dict V Color) : ∃ tr c', DfsForest g p c us tr c' := by
  induction us generalizing c with
  | nil => exact ⟨_, _, .nil c⟩
  | cons u us ih =>
    by_cases h : colorOf c u = .white
    · obtain ⟨t1, c1, h1⟩ := DfsRoot.exists hU (hs u (by simp)) c
      obtain ⟨t2, c2, h2⟩ := ih (fun x hx => hs x (by simp [hx])) c1
      exact ⟨_, _, .visit h h1 h2⟩
    · obtain ⟨t2, c2, h2⟩ := ih (fun x hx => hs x (by simp [hx])) c
      exact ⟨_, _, .skip h h2⟩

end
end PyBGL
