import Verif.Spec.PbfsObjects
import Verif.Proofs.Pbfs

/-!
# The parallel search with visitors that are objects
-/

namespace PyBGL
variable {A σ : Type}

/-- The calls received, as an exception. -/
def playE (vis : PObject A σ) : List (PEvent A) → Dict StatePair Color → σ → Except (PyErr × Dict StatePair Color × σ) σ
  | [], _, x => .ok x
  | ev :: l, c, x =>
    match askP vis ev (paint c ev) x with
    | .error e => .error e
    | .ok x => playE vis l (paint c ev) x

theorem playE_append (vis : PObject A σ) (a b : List (PEvent A)) (c : Dict StatePair Color) (x : σ) :
    playE vis (a ++ b) c x = match playE vis a c x with
      | .error e => .error e
      | .ok x => playE vis b (a.foldl paint c) x := by
  induction a generalizing c x with
  | nil => rfl
  | cons ev a ih =>
    simp only [List.cons_append, playE, List.foldl_cons]
    cases askP vis ev (paint c ev) x with
    | error e => rfl
    | ok x => exact ih _ _

theorem play_eq (vis : PObject A σ) (l : List (PEvent A)) (c : Dict StatePair Color) (x : σ) :
    play vis l c x = match playE vis l c x with
      | .error (err, r) => (.error err, r)
      | .ok x => (.ok (), l.foldl paint c, x) := by
  induction l generalizing c x with
  | nil => rfl
  | cons ev l ih =>
    simp only [play, playE, askP, List.foldl_cons]
    rcases vis ev (paint c ev) x with ⟨err | u, x'⟩
    · rfl
    · exact ih _ _

theorem Fits.append {a b : List (PEvent A)} {c : Dict StatePair Color} (ha : Fits c a) (hb : Fits (a.foldl paint c) b) : Fits c (a ++ b) := by
  induction a generalizing c with
  | nil => exact hb
  | cons ev a ih =>
    refine ⟨?_, ih ha.2 hb⟩
    have h := ha.1
    cases ev with
    | treeEdge e1 e2 x =>
      refine ⟨h.1, ?_⟩
      have := h.2
      cases a with
      | nil => cases this
      | cons y a => exact this
    | _ => exact h

namespace Pbfs
variable [DecidableEq A] {g1 g2 : Automaton A} {push : Option (AEdge A) → Option (AEdge A) → Bool} {ord : SetOracle A}

theorem targets_joint (p : StatePair) (a : A) : targets (jointEdge g1 p.1 a) (jointEdge g2 p.2 a) = nxt g1 g2 p a := by
  obtain ⟨p1, p2⟩ := p
  cases p1 <;> cases p2 <;> rfl

theorem classCalls_paint (p : StatePair) (a : A) (c : Dict StatePair Color) : (classCalls g1 g2 c p a).foldl paint c = colorAfter g1 g2 c p a := by
  unfold classCalls colorAfter
  cases colorOf c (nxt g1 g2 p a) <;> rfl

theorem symTrace_paint (p : StatePair) (as : List A) (c : Dict StatePair Color) (q : List StatePair) :
    (symTrace g1 g2 push p as c q).1.foldl paint c = (symTrace g1 g2 push p as c q).2.1 := by
  induction as generalizing c q with
  | nil => rfl
  | cons a as ih =>
    simp only [symTrace, List.foldl_append, List.foldl_cons, List.foldl_nil, paint, classCalls_paint]
    exact ih _ _

theorem fits_classCalls (p : StatePair) (a : A) (c : Dict StatePair Color) : Fits c (classCalls g1 g2 c p a) := by
  unfold classCalls
  cases h : colorOf c (nxt g1 g2 p a) <;> simp [Fits, targets_joint, h]

theorem fits_symTrace (p : StatePair) (as : List A) (c : Dict StatePair Color) (q : List StatePair) : Fits c (symTrace g1 g2 push p as c q).1 := by
  induction as generalizing c q with
  | nil => trivial
  | cons a as ih =>
    simp only [symTrace]
    refine Fits.append (Fits.append ⟨trivial, trivial, trivial⟩ (fits_classCalls p a c)) ?_
    simp only [List.foldl_append, List.foldl_cons, List.foldl_nil, paint, classCalls_paint]
    exact ih _ _

theorem pbfsClassifyM_eq (vis : PObject A σ) (p : StatePair) (a : A) (c : Dict StatePair Color) (x : σ) (q : List StatePair) :
    pbfsClassifyM push vis (jointEdge g1 p.1 a) (jointEdge g2 p.2 a) a (g1.deltaO p.1 a) (g2.deltaO p.2 a) ⟨c, x, q⟩ =
      match playE vis (classCalls g1 g2 c p a) c x with
      | .error e => .error e
      | .ok x => .ok ⟨colorAfter g1 g2 c p a, x, queueAfter g1 g2 push c q p a⟩ := by
  have hn : (g1.deltaO p.1 a, g2.deltaO p.2 a) = nxt g1 g2 p a := rfl
  unfold pbfsClassifyM classCalls colorAfter queueAfter
  simp only [hn]
  cases hc : colorOf c (nxt g1 g2 p a) with
  | white =>
    simp only [playE, paint, if_true, true_and]
    cases askP vis (.treeEdge (jointEdge g1 p.1 a) (jointEdge g2 p.2 a) a) c x with
    | error e => rfl
    | ok x1 =>
      simp only
      change (match askP vis (.discover (nxt g1 g2 p a).1 (nxt g1 g2 p a).2) (c.set (nxt g1 g2 p a) .gray) x1 with | .error _ => _ | .ok _ => _) = _
      cases askP vis (.discover (nxt g1 g2 p a).1 (nxt g1 g2 p a).2) (c.set (nxt g1 g2 p a) .gray) x1 <;> rfl
  | gray =>
    simp only [playE, paint]
    cases askP vis (.grayTarget (jointEdge g1 p.1 a) (jointEdge g2 p.2 a) a) c x <;> simp
  | black =>
    simp only [playE, paint]
    cases askP vis (.blackTarget (jointEdge g1 p.1 a) (jointEdge g2 p.2 a) a) c x <;> simp

theorem pbfsSymbolsM_eq (vis : PObject A σ) (p : StatePair) (as : List A) (c : Dict StatePair Color) (x : σ) (q : List StatePair) :
    pbfsSymbolsM g1 g2 push vis p.1 p.2 as ⟨c, x, q⟩ =
      match playE vis (symTrace g1 g2 push p as c q).1 c x with
      | .error e => .error e
      | .ok x => .ok ⟨(symTrace g1 g2 push p as c q).2.1, x, (symTrace g1 g2 push p as c q).2.2⟩ := by
  induction as generalizing c x q with
  | nil => rfl
  | cons a as ih =>
    simp only [pbfsSymbolsM, getEdge_eq, symTrace, List.cons_append, List.nil_append, playE, paint]
    cases askP vis (.examineSymbol p.1 p.2 a) c x with
    | error e => rfl
    | ok x1 =>
      simp only
      cases askP vis (.examineEdge (jointEdge g1 p.1 a) (jointEdge g2 p.2 a) a) c x1 with
      | error e => rfl
      | ok x2 =>
        simp only [pbfsClassifyM_eq, playE_append, classCalls_paint]
        cases playE vis (classCalls g1 g2 c p a) c x2 with
        | error e => rfl
        | ok x3 => exact ih _ _ _

theorem vertexTrace_paint (p : StatePair) (as : List A) (c : Dict StatePair Color) (q : List StatePair) :
    (vertexTrace g1 g2 push as p c q).foldl paint c = (symTrace g1 g2 push p as c q).2.1.set p .black := by
  unfold vertexTrace
  rw [List.cons_append, List.foldl_cons, List.foldl_append]
  change [PEvent.finish p.1 p.2].foldl paint ((symTrace g1 g2 push p as c q).1.foldl paint c) = _
  rw [symTrace_paint]
  rfl

theorem pbfsStepM_eq (vis : PObject A σ) (t : Nat) (p : StatePair) (c : Dict StatePair Color) (x : σ) (q : List StatePair) :
    pbfsStepM ord g1 g2 push vis t ⟨c, x, p :: q⟩ =
      match playE vis (vertexTrace g1 g2 push (ord t (syms g1 g2 p)) p c q) c x with
      | .error (err, r) => .done (.error err, r)
      | .ok x => .next ⟨(symTrace g1 g2 push p (ord t (syms g1 g2 p)) c q).2.1.set p .black, x, (symTrace g1 g2 push p (ord t (syms g1 g2 p)) c q).2.2⟩ := by
  unfold pbfsStepM vertexTrace
  simp only [List.cons_append, playE, paint]
  cases askP vis (.examineVertex p.1 p.2) c x with
  | error e => rfl
  | ok x1 =>
    simp only
    have := pbfsSymbolsM_eq (g1 := g1) (g2 := g2) (push := push) vis p (ord t (syms g1 g2 p)) c x1 q
    unfold syms at this ⊢
    rw [this, playE_append, symTrace_paint]
    cases playE vis (symTrace g1 g2 push p (ord t (setUnion (g1.sigmaO p.1) (g2.sigmaO p.2))) c q).1 c x1 with
    | error e => rfl
    | ok x2 =>
      simp only [playE, paint]
      cases askP vis (.finish p.1 p.2) ((symTrace g1 g2 push p (ord t (setUnion (g1.sigmaO p.1) (g2.sigmaO p.2))) c q).2.1.set (p.1, p.2) .black) x2 <;> rfl

theorem Run.fits {t : Nat} {c c' : Dict StatePair Color} {q : List StatePair} {tr : List (PEvent A)} (h : Run ord g1 g2 push t c q tr c') :
    Fits c tr ∧ tr.foldl paint c = c' := by
  induction h with
  | nil t c => exact ⟨trivial, rfl⟩
  | cons h ih =>
    refine ⟨Fits.append ?_ (by rw [vertexTrace_paint]; exact ih.1), by rw [List.foldl_append, vertexTrace_paint]; exact ih.2⟩
    unfold vertexTrace
    exact ⟨trivial, Fits.append (fits_symTrace _ _ _ _) ⟨trivial, trivial⟩⟩

theorem Run.simM {t : Nat} {c c' : Dict StatePair Color} {q : List StatePair} {tr : List (PEvent A)} (h : Run ord g1 g2 push t c q tr c')
    (vis : PObject A σ) (x : σ) :
    ∃ N, ∀ fuel, N ≤ fuel → loop (pbfsStepM ord g1 g2 push vis) fuel t ⟨c, x, q⟩ = some (.ok (play vis tr c x)) := by
  induction h generalizing x with
  | nil t c =>
    refine ⟨1, fun fuel hf => ?_⟩
    obtain ⟨n, rfl⟩ : ∃ n, fuel = n + 1 := ⟨fuel - 1, by omega⟩
    rfl
  | @cons t c c' p q tr h ih =>
    have hstep := pbfsStepM_eq (ord := ord) (g1 := g1) (g2 := g2) (push := push) vis t p c x q
    cases he : playE vis (vertexTrace g1 g2 push (ord t (syms g1 g2 p)) p c q) c x with
    | error e =>
      refine ⟨1, fun fuel hf => ?_⟩
      obtain ⟨n, rfl⟩ : ∃ n, fuel = n + 1 := ⟨fuel - 1, by omega⟩
      rw [he] at hstep
      simp only [loop, hstep, play_eq, playE_append, he]
    | ok x1 =>
      obtain ⟨N, hN⟩ := ih x1
      refine ⟨N + 1, fun fuel hf => ?_⟩
      obtain ⟨n, rfl⟩ : ∃ n, fuel = n + 1 := ⟨fuel - 1, by omega⟩
      rw [he] at hstep
      simp only [loop, hstep]
      rw [hN n (by omega), play_eq, play_eq, playE_append, he, List.foldl_append, vertexTrace_paint]

theorem starts_paint (S : List StatePair) (c : Dict StatePair Color) : (S.map fun p => (.start p.1 p.2 : PEvent A)).foldl paint c = c := by
  induction S with
  | nil => rfl
  | cons p S ih => exact ih

theorem pbfsStartM_eq (vis : PObject A σ) (c : Dict StatePair Color) (S : List StatePair) (x : σ) :
    pbfsStartM vis c S x = playE vis (S.map fun p => .start p.1 p.2) c x := by
  induction S generalizing x with
  | nil => rfl
  | cons p S ih =>
    simp only [pbfsStartM, List.map_cons, playE, paint]
    cases askP vis (.start p.1 p.2) c x with
    | error e => rfl
    | ok x1 => exact ih x1

theorem Run.returnsM {S : Option (List StatePair)} {c c' : Dict StatePair Color} {tr : List (PEvent A)}
    (h : Run ord g1 g2 push 0 c (S.getD [(g1.initial, g2.initial)]) tr c') (vis : PObject A σ) (x : σ) :
    Returns (pbfsM ord g1 g2 S push vis c x) (.ok (play vis ((S.getD [(g1.initial, g2.initial)]).map (fun p => .start p.1 p.2) ++ tr) c x)) := by
  unfold pbfsM
  simp only [pbfsStartM_eq]
  rw [play_eq, playE_append, starts_paint]
  cases playE vis ((S.getD [(g1.initial, g2.initial)]).map fun p => .start p.1 p.2) c x with
  | error e => exact ⟨0, fun _ _ => rfl⟩
  | ok x1 =>
    obtain ⟨N, hN⟩ := h.simM vis x1
    refine ⟨N, fun fuel hf => ?_⟩
    simp only
    rw [hN fuel hf, play_eq, List.foldl_append, starts_paint]

theorem exists_run (hg1 : AWF g1) (hg2 : AWF g2) (ho : ord.Valid) (c : Dict StatePair Color) (S : List StatePair) :
    ∃ tr c', Run ord g1 g2 push 0 c S tr c' := by
  let T (g : Automaton A) : List (Option Nat) := none :: g.edges.map (fun e => some e.target)
  have hT : ∀ g : Automaton A, AWF g → ∀ q a, g.deltaO q a ∈ T g := by
    intro g hg q a
    cases h : g.deltaO q a with
    | none => simp [T]
    | some r =>
      cases q with
      | none => simp [Automaton.deltaO] at h
      | some q =>
        simp only [Automaton.deltaO, Option.bind_some] at h
        have := (Automaton.mem_edges hg (e := ⟨q, r, a⟩)).mpr h
        simp only [T, List.mem_cons, List.mem_map, reduceCtorEq, false_or]
        exact ⟨_, this, rfl⟩
  let U : List StatePair := S ++ (T g1).flatMap (fun x => (T g2).map (fun y => (x, y)))
  exact Run.exists (g1 := g1) (g2 := g2) (push := push) ho (U := U) (by
    intro p _ a _
    simp only [U, List.mem_append, List.mem_flatMap, List.mem_map]
    exact .inr ⟨_, hT g1 hg1 p.1 a, _, hT g2 hg2 p.2 a, rfl⟩) _ 0 c S (by intro p hp; simp [U, hp]) (Nat.le_refl _)

end Pbfs
end PyBGL
