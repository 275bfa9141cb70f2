import Verif.Spec.Product
import Verif.Proofs.DfsSim
import Verif.Proofs.AutomatonLemmas
import Mathlib.Data.List.Perm.Subperm

/-!
# Parallel breadth-first search when the visitor does not modify the automata
-/

namespace PyBGL
variable {A σ : Type} [DecidableEq A]

namespace Pbfs

section projections

@[simp] theorem examined_nil : examined ([] : List (PEvent A)) = [] := rfl
@[simp] theorem discovered_nil : discovered ([] : List (PEvent A)) = [] := rfl
@[simp] theorem finished_nil : finished ([] : List (PEvent A)) = [] := rfl
@[simp] theorem started_nil : started ([] : List (PEvent A)) = [] := rfl
@[simp] theorem edges_nil : edges ([] : List (PEvent A)) = [] := rfl
@[simp] theorem classified_nil : classified ([] : List (PEvent A)) = [] := rfl
@[simp] theorem examined_append (a b : List (PEvent A)) : examined (a ++ b) = examined a ++ examined b := by simp [examined]
@[simp] theorem discovered_append (a b : List (PEvent A)) : discovered (a ++ b) = discovered a ++ discovered b := by simp [discovered]
@[simp] theorem finished_append (a b : List (PEvent A)) : finished (a ++ b) = finished a ++ finished b := by simp [finished]
@[simp] theorem started_append (a b : List (PEvent A)) : started (a ++ b) = started a ++ started b := by simp [started]
@[simp] theorem edges_append (a b : List (PEvent A)) : edges (a ++ b) = edges a ++ edges b := by simp [edges]
@[simp] theorem classified_append (a b : List (PEvent A)) : classified (a ++ b) = classified a ++ classified b := by simp [classified]
@[simp] theorem examined_cons (x : PEvent A) (a : List (PEvent A)) :
    examined (x :: a) = (match x with | .examineVertex q1 q2 => [(q1, q2)] | _ => []) ++ examined a := by cases x <;> rfl
@[simp] theorem discovered_cons (x : PEvent A) (a : List (PEvent A)) :
    discovered (x :: a) = (match x with | .discover q1 q2 => [(q1, q2)] | _ => []) ++ discovered a := by cases x <;> rfl
@[simp] theorem finished_cons (x : PEvent A) (a : List (PEvent A)) :
    finished (x :: a) = (match x with | .finish q1 q2 => [(q1, q2)] | _ => []) ++ finished a := by cases x <;> rfl
@[simp] theorem started_cons (x : PEvent A) (a : List (PEvent A)) :
    started (x :: a) = (match x with | .start q1 q2 => [(q1, q2)] | _ => []) ++ started a := by cases x <;> rfl
@[simp] theorem edges_cons (x : PEvent A) (a : List (PEvent A)) :
    edges (x :: a) = (match x with | .examineEdge e1 e2 b => [(e1, e2, b)] | _ => []) ++ edges a := by cases x <;> rfl
@[simp] theorem classified_cons (x : PEvent A) (a : List (PEvent A)) :
    classified (x :: a) = (match x with
      | .treeEdge e1 e2 b => [(e1, e2, b)]
      | .grayTarget e1 e2 b => [(e1, e2, b)]
      | .blackTarget e1 e2 b => [(e1, e2, b)]
      | _ => []) ++ classified a := by cases x <;> rfl

theorem starts_proj (S : List StatePair) : examined (S.map fun p => (.start p.1 p.2 : PEvent A)) = [] ∧
    discovered (S.map fun p => (.start p.1 p.2 : PEvent A)) = [] ∧ finished (S.map fun p => (.start p.1 p.2 : PEvent A)) = [] ∧
    started (S.map fun p => (.start p.1 p.2 : PEvent A)) = S ∧ edges (S.map fun p => (.start p.1 p.2 : PEvent A)) = [] ∧
    classified (S.map fun p => (.start p.1 p.2 : PEvent A)) = [] := by
  induction S with
  | nil => simp
  | cons p S ih => simp [ih]

end projections

variable (g1 g2 : Automaton A)

/-- The pair reached from `p` by `a`. -/
def nxt (p : StatePair) (a : A) : StatePair := (g1.deltaO p.1 a, g2.deltaO p.2 a)

/-- The set `g1.sigma(q1) | g2.sigma(q2)`. -/
def syms (p : StatePair) : List A := setUnion (g1.sigmaO p.1) (g2.sigmaO p.2)

/-- The joint transition from `p` by `a`. -/
def jedge (p : StatePair) (a : A) : Option (AEdge A) × Option (AEdge A) × A := (jointEdge g1 p.1 a, jointEdge g2 p.2 a, a)

theorem getEdge_eq (g : Automaton A) (q : Option Nat) (a : A) : getEdge g q (g.deltaO q a) a = jointEdge g q a := by
  cases q <;> simp [getEdge, jointEdge, Automaton.deltaO]

/-- The calls made to classify an edge. -/
def classCalls (c : Dict StatePair Color) (p : StatePair) (a : A) : List (PEvent A) :=
  match colorOf c (nxt g1 g2 p a) with
  | .white => [.treeEdge (jointEdge g1 p.1 a) (jointEdge g2 p.2 a) a, .discover (nxt g1 g2 p a).1 (nxt g1 g2 p a).2]
  | .gray => [.grayTarget (jointEdge g1 p.1 a) (jointEdge g2 p.2 a) a]
  | .black => [.blackTarget (jointEdge g1 p.1 a) (jointEdge g2 p.2 a) a]

variable (push : Option (AEdge A) → Option (AEdge A) → Bool)

/-- The colours after one symbol. -/
def colorAfter (c : Dict StatePair Color) (p : StatePair) (a : A) : Dict StatePair Color :=
  if colorOf c (nxt g1 g2 p a) = .white then c.set (nxt g1 g2 p a) .gray else c

/-- The queue after one symbol. -/
def queueAfter (c : Dict StatePair Color) (q : List StatePair) (p : StatePair) (a : A) : List StatePair :=
  if colorOf c (nxt g1 g2 p a) = .white ∧ push (jointEdge g1 p.1 a) (jointEdge g2 p.2 a) = true then q ++ [nxt g1 g2 p a] else q

/-- The calls made by the loop over the symbols, with the new colours and queue. -/
def symTrace (p : StatePair) : List A → Dict StatePair Color → List StatePair → List (PEvent A) × Dict StatePair Color × List StatePair
  | [], c, q => ([], c, q)
  | a :: as, c, q =>
    let r := symTrace p as (colorAfter g1 g2 c p a) (queueAfter g1 g2 push c q p a)
    ([.examineSymbol p.1 p.2 a, .examineEdge (jointEdge g1 p.1 a) (jointEdge g2 p.2 a) a] ++ classCalls g1 g2 c p a ++ r.1, r.2)

variable {g1 g2 push}

theorem pbfsSymbol_eq (vis : Visitor (PEvent A) σ) (p : StatePair) (a : A) (c : Dict StatePair Color) (st : σ) (q : List StatePair) :
    pbfsSymbol (fun _ => g1) g2 push vis p.1 p.2 a ⟨c, st, q⟩ =
      match emit vis ([.examineSymbol p.1 p.2 a, .examineEdge (jointEdge g1 p.1 a) (jointEdge g2 p.2 a) a] ++ classCalls g1 g2 c p a) st with
      | .error e => .error e
      | .ok st' => .ok ⟨colorAfter g1 g2 c p a, st', queueAfter g1 g2 push c q p a⟩ := by
  simp only [pbfsSymbol, getEdge_eq, List.cons_append, List.nil_append, emit_cons]
  cases vis (.examineSymbol p.1 p.2 a) st with
  | error e => rfl
  | ok st1 =>
    simp only
    cases vis (.examineEdge (jointEdge g1 p.1 a) (jointEdge g2 p.2 a) a) st1 with
    | error e => rfl
    | ok st2 =>
      simp only [pbfsClassify, classCalls, colorAfter, queueAfter]
      change (match colorOf c (nxt g1 g2 p a) with | .white => _ | .gray => _ | .black => _) = _
      cases hc : colorOf c (nxt g1 g2 p a) with
      | white =>
        simp only [if_true, true_and]
        change (match emit vis [.treeEdge _ _ a, .discover (nxt g1 g2 p a).1 (nxt g1 g2 p a).2] st2 with | .error _ => _ | .ok _ => _) = _
        cases emit vis [.treeEdge (jointEdge g1 p.1 a) (jointEdge g2 p.2 a) a, .discover (nxt g1 g2 p a).1 (nxt g1 g2 p a).2] st2 <;> rfl
      | gray =>
        simp only [emit_singleton]
        cases vis (.grayTarget (jointEdge g1 p.1 a) (jointEdge g2 p.2 a) a) st2 <;> simp
      | black =>
        simp only [emit_singleton]
        cases vis (.blackTarget (jointEdge g1 p.1 a) (jointEdge g2 p.2 a) a) st2 <;> simp

theorem pbfsSymbols_eq (vis : Visitor (PEvent A) σ) (p : StatePair) (as : List A) (c : Dict StatePair Color) (st : σ) (q : List StatePair) :
    pbfsSymbols (fun _ => g1) g2 push vis p.1 p.2 as ⟨c, st, q⟩ =
      match emit vis (symTrace g1 g2 push p as c q).1 st with
      | .error e => .error e
      | .ok st' => .ok ⟨(symTrace g1 g2 push p as c q).2.1, st', (symTrace g1 g2 push p as c q).2.2⟩ := by
  induction as generalizing c st q with
  | nil => rfl
  | cons a as ih =>
    simp only [pbfsSymbols, pbfsSymbol_eq, symTrace]
    rw [emit_append (xs := _ ++ classCalls g1 g2 c p a)]
    cases emit vis ([.examineSymbol p.1 p.2 a, .examineEdge (jointEdge g1 p.1 a) (jointEdge g2 p.2 a) a] ++ classCalls g1 g2 c p a) st with
    | error e => rfl
    | ok st1 => simp only; exact ih _ _ _

/-- What the loop over the symbols does. -/
theorem symTrace_spec {pp : StatePair → Bool} (hpp : ∀ p a, push (jointEdge g1 p.1 a) (jointEdge g2 p.2 a) = pp (nxt g1 g2 p a))
    (p : StatePair) (as : List A) : ∀ (c : Dict StatePair Color) (q : List StatePair), ∃ tr c' q', symTrace g1 g2 push p as c q = (tr, c', q') ∧
      examined tr = [] ∧ finished tr = [] ∧ started tr = [] ∧ edges tr = as.map (jedge g1 g2 p) ∧ classified tr = as.map (jedge g1 g2 p) ∧
      (discovered tr).Nodup ∧ (∀ d ∈ discovered tr, colorOf c d = .white ∧ ∃ a ∈ as, d = nxt g1 g2 p a) ∧
      (∀ a ∈ as, colorOf c (nxt g1 g2 p a) ≠ .white ∨ nxt g1 g2 p a ∈ discovered tr) ∧
      (∀ v, colorOf c' v = if v ∈ discovered tr then .gray else colorOf c v) ∧
      q' = q ++ (discovered tr).filter pp := by
  induction as with
  | nil => intro c q; exact ⟨[], c, q, rfl, by simp⟩
  | cons a as ih =>
    intro c q
    obtain ⟨tr, c', q', h0, h1, h2, h3, h4, h5, h6, h7, h8, h9, h10⟩ := ih (colorAfter g1 g2 c p a) (queueAfter g1 g2 push c q p a)
    refine ⟨[.examineSymbol p.1 p.2 a, .examineEdge (jointEdge g1 p.1 a) (jointEdge g2 p.2 a) a] ++ classCalls g1 g2 c p a ++ tr, c', q',
      by simp only [symTrace, h0], ?_⟩
    by_cases hw : colorOf c (nxt g1 g2 p a) = .white
    · have hcc : classCalls g1 g2 c p a = [.treeEdge (jointEdge g1 p.1 a) (jointEdge g2 p.2 a) a,
          .discover (nxt g1 g2 p a).1 (nxt g1 g2 p a).2] := by
        unfold classCalls; rw [hw]
      have hca : ∀ v, colorOf (colorAfter g1 g2 c p a) v = if nxt g1 g2 p a = v then .gray else colorOf c v := by
        intro v; unfold colorAfter; rw [if_pos hw, colorOf_set]
      have hnd : nxt g1 g2 p a ∉ discovered tr := by
        intro h
        have := (h7 _ h).1
        rw [hca, if_pos rfl] at this
        cases this
      have hdt : discovered ([.examineSymbol p.1 p.2 a, .examineEdge (jointEdge g1 p.1 a) (jointEdge g2 p.2 a) a] ++ classCalls g1 g2 c p a ++ tr)
          = nxt g1 g2 p a :: discovered tr := by simp [hcc]
      refine ⟨by simp [hcc, h1], by simp [hcc, h2], by simp [hcc, h3], by simp [hcc, h4, jedge], by simp [hcc, h5, jedge], ?_, ?_, ?_, ?_, ?_⟩
      · rw [hdt, List.nodup_cons]; exact ⟨hnd, h6⟩
      · rw [hdt]
        intro d hd
        rcases List.mem_cons.mp hd with rfl | hd
        · exact ⟨hw, a, by simp, rfl⟩
        · obtain ⟨hc, b, hb, e⟩ := h7 d hd
          rw [hca] at hc
          split at hc
          · cases hc
          · exact ⟨hc, b, by simp [hb], e⟩
      · rw [hdt]
        intro b hb
        rcases List.mem_cons.mp hb with rfl | hb
        · exact .inr (by simp)
        · rcases h8 b hb with h | h
          · rw [hca] at h
            split at h
            · rename_i e; exact .inr (by rw [← e]; simp)
            · exact .inl h
          · exact .inr (by simp [h])
      · rw [hdt]
        intro v
        rw [h9, hca]
        by_cases hv : v ∈ discovered tr
        · simp [hv]
        · by_cases e : nxt g1 g2 p a = v
          · simp [hv, e]
          · simp [hv, e, Ne.symm e]
      · rw [hdt, h10]
        unfold queueAfter
        rw [hpp]
        by_cases hpn : pp (nxt g1 g2 p a) = true
        · simp [hw, hpn]
        · simp [hpn]
    · have hcc : examined (classCalls g1 g2 c p a) = [] ∧ finished (classCalls g1 g2 c p a) = [] ∧ started (classCalls g1 g2 c p a) = [] ∧
          edges (classCalls g1 g2 c p a) = [] ∧ discovered (classCalls g1 g2 c p a) = [] ∧
          classified (classCalls g1 g2 c p a) = [jedge g1 g2 p a] := by
        unfold classCalls
        cases h : colorOf c (nxt g1 g2 p a) with
        | white => exact absurd h hw
        | gray => simp [jedge]
        | black => simp [jedge]
      obtain ⟨k1, k2, k3, k4, k5, k6⟩ := hcc
      have hca : colorAfter g1 g2 c p a = c := if_neg hw
      rw [hca] at h7 h8 h9
      have hdt : discovered ([.examineSymbol p.1 p.2 a, .examineEdge (jointEdge g1 p.1 a) (jointEdge g2 p.2 a) a] ++ classCalls g1 g2 c p a ++ tr)
          = discovered tr := by simp [k5]
      refine ⟨by simp [k1, h1], by simp [k2, h2], by simp [k3, h3], by simp [k4, h4, jedge], by simp [k6, h5, jedge], ?_, ?_, ?_, ?_, ?_⟩
      · rw [hdt]; exact h6
      · rw [hdt]
        intro d hd
        obtain ⟨hc, b, hb, e⟩ := h7 d hd
        exact ⟨hc, b, by simp [hb], e⟩
      · rw [hdt]
        intro b hb
        rcases List.mem_cons.mp hb with rfl | hb
        · exact .inl hw
        · exact h8 b hb
      · rw [hdt]; exact h9
      · rw [hdt, h10]
        unfold queueAfter
        rw [if_neg (fun h => hw h.1)]

/-- The calls made for one pair. -/
def vertexTrace (g1 g2 : Automaton A) (push : Option (AEdge A) → Option (AEdge A) → Bool) (as : List A) (p : StatePair)
    (c : Dict StatePair Color) (q : List StatePair) : List (PEvent A) :=
  .examineVertex p.1 p.2 :: (symTrace g1 g2 push p as c q).1 ++ [.finish p.1 p.2]

/-- Runs of the search. -/
inductive Run (ord : SetOracle A) (g1 g2 : Automaton A) (push : Option (AEdge A) → Option (AEdge A) → Bool) :
    Nat → Dict StatePair Color → List StatePair → List (PEvent A) → Dict StatePair Color → Prop
  | nil (t : Nat) (c : Dict StatePair Color) : Run ord g1 g2 push t c [] [] c
  | cons {t : Nat} {c c' : Dict StatePair Color} {p : StatePair} {q : List StatePair} {tr : List (PEvent A)}
      (h : Run ord g1 g2 push (t + 1) ((symTrace g1 g2 push p (ord t (syms g1 g2 p)) c q).2.1.set p .black)
        (symTrace g1 g2 push p (ord t (syms g1 g2 p)) c q).2.2 tr c') :
      Run ord g1 g2 push t c (p :: q) (vertexTrace g1 g2 push (ord t (syms g1 g2 p)) p c q ++ tr) c'

/-- Outcome of a search that makes the calls `tr`. -/
def outcome (vis : Visitor (PEvent A) σ) (c : Dict StatePair Color) (tr : List (PEvent A)) (st : σ) :
    Except PyErr (Dict StatePair Color × σ) :=
  match emit vis tr st with
  | .error e => .error e
  | .ok st' => .ok (c, st')

variable {ord : SetOracle A}

theorem Run.sim {t : Nat} {c c' : Dict StatePair Color} {q : List StatePair} {tr : List (PEvent A)} (h : Run ord g1 g2 push t c q tr c')
    (vis : Visitor (PEvent A) σ) (st : σ) :
    ∃ N, ∀ fuel, N ≤ fuel → loop (pbfsStep ord (fun _ => g1) g2 push vis) fuel t ⟨c, st, q⟩ = some (outcome vis c' tr st) := by
  induction h generalizing st with
  | nil t c =>
    refine ⟨1, fun fuel hf => ?_⟩
    obtain ⟨n, rfl⟩ : ∃ n, fuel = n + 1 := ⟨fuel - 1, by omega⟩
    rfl
  | @cons t c c' p q tr h ih =>
    have hstep : pbfsStep ord (fun _ => g1) g2 push vis t ⟨c, st, p :: q⟩ =
        match emit vis (vertexTrace g1 g2 push (ord t (syms g1 g2 p)) p c q) st with
        | .error e => .fail e
        | .ok st' => .next ⟨(symTrace g1 g2 push p (ord t (syms g1 g2 p)) c q).2.1.set p .black, st',
            (symTrace g1 g2 push p (ord t (syms g1 g2 p)) c q).2.2⟩ := by
      unfold pbfsStep vertexTrace
      simp only [List.cons_append, emit_cons]
      cases vis (.examineVertex p.1 p.2) st with
      | error e => rfl
      | ok st1 =>
        simp only
        have := pbfsSymbols_eq (g1 := g1) (g2 := g2) (push := push) vis p (ord t (syms g1 g2 p)) c st1 q
        unfold syms at this ⊢
        rw [this, emit_append]
        cases emit vis (symTrace g1 g2 push p (ord t (setUnion (g1.sigmaO p.1) (g2.sigmaO p.2))) c q).1 st1 with
        | error e => rfl
        | ok st2 =>
          simp only [emit_singleton]
          cases vis (.finish p.1 p.2) st2 <;> rfl
    cases he : emit vis (vertexTrace g1 g2 push (ord t (syms g1 g2 p)) p c q) st with
    | error e =>
      refine ⟨1, fun fuel hf => ?_⟩
      obtain ⟨n, rfl⟩ : ∃ n, fuel = n + 1 := ⟨fuel - 1, by omega⟩
      rw [he] at hstep
      simp only [loop, hstep, outcome, emit_append, he]
    | ok st1 =>
      obtain ⟨N, hN⟩ := ih st1
      refine ⟨N + 1, fun fuel hf => ?_⟩
      obtain ⟨n, rfl⟩ : ∃ n, fuel = n + 1 := ⟨fuel - 1, by omega⟩
      rw [he] at hstep
      simp only [loop, hstep, outcome, emit_append, he]
      exact hN n (by omega)

theorem Run.returns {c' : Dict StatePair Color} {S : List StatePair} {tr : List (PEvent A)} (h : Run ord g1 g2 push 0 [] S tr c')
    (vis : Visitor (PEvent A) σ) (st : σ) :
    Returns (pbfs ord (fun _ => g1) g2 S push vis st) (outcome vis c' (S.map (fun p => .start p.1 p.2) ++ tr) st) := by
  unfold outcome
  rw [emit_append]
  cases he : emit vis (S.map fun p => .start p.1 p.2) st with
  | error e => exact ⟨0, fun fuel _ => by simp [pbfs, he]⟩
  | ok st1 =>
    obtain ⟨N, hN⟩ := h.sim vis st1
    refine ⟨N, fun fuel hf => ?_⟩
    simp only [pbfs, he]
    exact hN fuel hf

/-! ## Termination -/

theorem symTrace_potential {U : List StatePair} (p : StatePair) (as : List A) (hU : ∀ a ∈ as, nxt g1 g2 p a ∈ U) :
    ∀ (c : Dict StatePair Color) (q : List StatePair),
      2 * (whites U (symTrace g1 g2 push p as c q).2.1).length + (symTrace g1 g2 push p as c q).2.2.length
        ≤ 2 * (whites U c).length + q.length := by
  induction as with
  | nil => intro c q; exact Nat.le_refl _
  | cons a as ih =>
    intro c q
    refine Nat.le_trans (ih (fun b hb => hU b (by simp [hb])) _ _) ?_
    unfold colorAfter queueAfter
    by_cases hw : colorOf c (nxt g1 g2 p a) = .white
    · have := whites_length_lt (x := .gray) (hU a (by simp)) hw (by decide)
      rw [if_pos hw]
      split <;> simp <;> omega
    · rw [if_neg hw, if_neg (fun h => hw h.1)]
      exact Nat.le_refl _

theorem Run.exists (ho : ord.Valid) {U : List StatePair} (hU : ∀ p ∈ U, ∀ a ∈ syms g1 g2 p, nxt g1 g2 p a ∈ U) :
    ∀ n t c q, (∀ p ∈ q, p ∈ U) → 2 * (whites U c).length + q.length ≤ n → ∃ tr c', Run ord g1 g2 push t c q tr c' := by
  intro n
  induction n with
  | zero =>
    intro t c q _ hn
    have : q = [] := List.length_eq_zero_iff.mp (by omega)
    subst this
    exact ⟨[], c, .nil t c⟩
  | succ n ih =>
    intro t c q hq hn
    cases q with
    | nil => exact ⟨[], c, .nil t c⟩
    | cons p q =>
      have hs : ∀ a ∈ ord t (syms g1 g2 p), nxt g1 g2 p a ∈ U := fun a ha => hU p (hq p (by simp)) a ((ho t _).mem_iff.mp ha)
      have hpot := symTrace_potential (push := push) p _ hs c q
      have hblack : (whites U ((symTrace g1 g2 push p (ord t (syms g1 g2 p)) c q).2.1.set p .black)).length
          ≤ (whites U (symTrace g1 g2 push p (ord t (syms g1 g2 p)) c q).2.1).length := by
        refine whites_length_le fun v hv => ?_
        rw [colorOf_set] at hv
        split at hv
        · cases hv
        · exact hv
      have hq' : ∀ as, (∀ a ∈ as, nxt g1 g2 p a ∈ U) → ∀ c q, (∀ x ∈ q, x ∈ U) → ∀ x ∈ (symTrace g1 g2 push p as c q).2.2, x ∈ U := by
        intro as
        induction as with
        | nil => intro _ c q hq x hx; exact hq x hx
        | cons a as ih =>
          intro has c q hq x hx
          refine ih (fun b hb => has b (by simp [hb])) _ _ ?_ x hx
          intro y hy
          unfold queueAfter at hy
          split at hy
          · rcases List.mem_append.mp hy with hy | hy
            · exact hq y hy
            · simp at hy; subst hy; exact has a (by simp)
          · exact hq y hy
      obtain ⟨tr, c', h⟩ := ih (t + 1) ((symTrace g1 g2 push p (ord t (syms g1 g2 p)) c q).2.1.set p .black) _
        (hq' _ hs c q (fun x hx => hq x (by simp [hx]))) (by simp at hn; omega)
      exact ⟨_, c', .cons h⟩

/-! ## Facts -/

/-- What is known of a run from the queue `q` and the colours `c`. -/
structure RunFacts (g1 g2 : Automaton A) (pp : StatePair → Bool) (c : Dict StatePair Color) (q : List StatePair) (tr : List (PEvent A)) : Prop where
  nodup : (discovered tr).Nodup
  white : ∀ d ∈ discovered tr, colorOf c d = .white
  fifo : examined tr = q ++ (discovered tr).filter pp
  fin : finished tr = examined tr
  noStart : started tr = []
  source : ∀ d ∈ discovered tr, ∃ p ∈ examined tr, ∃ a ∈ syms g1 g2 p, d = nxt g1 g2 p a
  ind : ∀ P : StatePair → Prop, (∀ p ∈ q, P p) → (∀ p, P p → ∀ a ∈ syms g1 g2 p, pp (nxt g1 g2 p a) = true → P (nxt g1 g2 p a)) →
    ∀ p ∈ examined tr, P p
  closed : ∀ p ∈ examined tr, ∀ a ∈ syms g1 g2 p, colorOf c (nxt g1 g2 p a) ≠ .white ∨ nxt g1 g2 p a ∈ discovered tr ∨ nxt g1 g2 p a ∈ examined tr
  edges : (edges tr).Perm ((examined tr).flatMap (fun p => (syms g1 g2 p).map (jedge g1 g2 p)))
  cls : classified tr = Pbfs.edges tr

theorem Run.facts (ho : ord.Valid) {pp : StatePair → Bool} (hpp : ∀ p a, push (jointEdge g1 p.1 a) (jointEdge g2 p.2 a) = pp (nxt g1 g2 p a))
    {t : Nat} {c c' : Dict StatePair Color} {q : List StatePair} {tr : List (PEvent A)} (h : Run ord g1 g2 push t c q tr c') :
    RunFacts g1 g2 pp c q tr := by
  induction h with
  | nil t c => exact ⟨by simp, by simp, by simp, by simp, by simp, by simp, by simp, by simp, by simp, by simp⟩
  | @cons t c c' p q tr h ih =>
    obtain ⟨tv, c1, q1, h0, h1, h2, h3, h4, h5, h6, h7, h8, h9, h10⟩ := symTrace_spec hpp p (ord t (syms g1 g2 p)) c q
    have hs : ∀ a, a ∈ ord t (syms g1 g2 p) ↔ a ∈ syms g1 g2 p := fun a => (ho t _).mem_iff
    rw [h0] at ih
    simp only at ih
    have hv : vertexTrace g1 g2 push (ord t (syms g1 g2 p)) p c q = .examineVertex p.1 p.2 :: tv ++ [.finish p.1 p.2] := by
      unfold vertexTrace; rw [h0]
    rw [hv]
    have hd : discovered (.examineVertex p.1 p.2 :: tv ++ [.finish p.1 p.2] ++ tr) = discovered tv ++ discovered tr := by simp
    have he : examined (.examineVertex p.1 p.2 :: tv ++ [.finish p.1 p.2] ++ tr) = p :: examined tr := by simp [h1]
    have hf : finished (.examineVertex p.1 p.2 :: tv ++ [.finish p.1 p.2] ++ tr) = p :: finished tr := by simp [h2]
    have hst : started (.examineVertex p.1 p.2 :: tv ++ [.finish p.1 p.2] ++ tr) = started tr := by simp [h3]
    have hed : Pbfs.edges (.examineVertex p.1 p.2 :: tv ++ [.finish p.1 p.2] ++ tr) = (ord t (syms g1 g2 p)).map (jedge g1 g2 p) ++ Pbfs.edges tr := by
      simp [h4]
    have hcl : classified (.examineVertex p.1 p.2 :: tv ++ [.finish p.1 p.2] ++ tr) = (ord t (syms g1 g2 p)).map (jedge g1 g2 p) ++ classified tr := by
      simp [h5]
    have hcol : ∀ v, colorOf (c1.set p .black) v = if p = v then .black else if v ∈ discovered tv then .gray else colorOf c v := by
      intro v; rw [colorOf_set, h9]
    refine ⟨?_, ?_, ?_, ?_, ?_, ?_, ?_, ?_, ?_, ?_⟩
    · rw [hd, List.nodup_append]
      refine ⟨h6, ih.nodup, ?_⟩
      rintro x hx y hy rfl
      have := ih.white x hy
      rw [hcol, if_pos hx] at this
      split at this <;> cases this
    · rw [hd]
      intro d hd'
      rcases List.mem_append.mp hd' with h | h
      · exact (h7 d h).1
      · have := ih.white d h
        rw [hcol] at this
        split at this
        · cases this
        · split at this
          · cases this
          · exact this
    · rw [hd, he, ih.fifo, h10]; simp
    · rw [hf, he, ih.fin]
    · rw [hst, ih.noStart]
    · rw [hd, he]
      intro d hd'
      rcases List.mem_append.mp hd' with h | h
      · obtain ⟨_, a, ha, e⟩ := h7 d h
        exact ⟨p, by simp, a, (hs a).mp ha, e⟩
      · obtain ⟨x, hx, a, ha, e⟩ := ih.source d h
        exact ⟨x, by simp [hx], a, ha, e⟩
    · rw [he]
      intro P hP hn x hx
      rcases List.mem_cons.mp hx with rfl | hx
      · exact hP x (by simp)
      · refine ih.ind P ?_ hn x hx
        rw [h10]
        intro y hy
        rcases List.mem_append.mp hy with hy | hy
        · exact hP y (by simp [hy])
        · obtain ⟨hy, hpy⟩ := List.mem_filter.mp hy
          obtain ⟨_, a, ha, rfl⟩ := h7 y hy
          exact hn p (hP p (by simp)) a ((hs a).mp ha) hpy
    · rw [hd, he]
      intro x hx a ha
      rcases List.mem_cons.mp hx with rfl | hx
      · rcases h8 a ((hs a).mpr ha) with h | h
        · exact .inl h
        · exact .inr (.inl (by simp [h]))
      · rcases ih.closed x hx a ha with h | h | h
        · rw [hcol] at h
          split at h
          · rename_i e; exact .inr (.inr (by rw [← e]; simp))
          · split at h
            · rename_i hm; exact .inr (.inl (by simp [hm]))
            · exact .inl h
        · exact .inr (.inl (by simp [h]))
        · exact .inr (.inr (by simp [h]))
    · rw [hed, he, List.flatMap_cons]
      exact ((ho t _).map _).append ih.edges
    · rw [hcl, hed, ih.cls]

/-! ## The set of pairs -/

theorem mem_syms {p : StatePair} {a : A} : a ∈ syms g1 g2 p ↔ nxt g1 g2 p a ≠ (none, none) := by
  have key : ∀ (g : Automaton A) (q : Option Nat), a ∈ g.sigmaO q ↔ g.deltaO q a ≠ none := by
    intro g q
    cases q with
    | none => simp [Automaton.sigmaO, Automaton.deltaO]
    | some q =>
      simp only [Automaton.sigmaO, Automaton.sigma, mem_mkSet, Automaton.deltaO, Option.bind_some, Automaton.delta, ne_eq,
        Dict.get?_eq_none_iff, not_not]
  unfold syms nxt
  rw [mem_setUnion, key, key]
  constructor
  · rintro h e
    simp only [Prod.mk.injEq] at e
    rcases h with h | h
    · exact h e.1
    · exact h e.2
  · intro h
    by_contra hc
    rw [not_or, not_not, not_not] at hc
    exact h (by rw [hc.1, hc.2])

/-- Everything known of a search whose `if_push` depends on the pair reached. -/
theorem facts (hg1 : AWF g1) (hg2 : AWF g2) (ho : ord.Valid) {pp : StatePair → Bool}
    (hpp : ∀ p a, push (jointEdge g1 p.1 a) (jointEdge g2 p.2 a) = pp (nxt g1 g2 p a)) (S : List StatePair) :
    ∃ tr c, RunFacts g1 g2 pp [] S tr ∧ ∀ (σ : Type) (vis : Visitor (PEvent A) σ) (st : σ),
      Returns (pbfs ord (fun _ => g1) g2 S push vis st) (outcome vis c (S.map (fun p => .start p.1 p.2) ++ tr) st) := by
  -- a finite universe
  let T (g : Automaton A) : List (Option Nat) := none :: g.edges.map (fun e => some e.target)
  have hT : ∀ g : Automaton A, AWF g → ∀ q a, g.deltaO q a ∈ T g := by
    intro g hg q a
    cases h : g.deltaO q a with
    | none => simp [T]
    | some r =>
      cases q with
      | none => simp [Automaton.deltaO] at h
      | some q =>
        simp only [Automaton.deltaO, Option.bind_some] at h
        have := (Automaton.mem_edges hg (e := ⟨q, r, a⟩)).mpr h
        simp only [T, List.mem_cons, List.mem_map, reduceCtorEq, false_or]
        exact ⟨_, this, rfl⟩
  let U : List StatePair := S ++ (T g1).flatMap (fun x => (T g2).map (fun y => (x, y)))
  obtain ⟨tr, c, h⟩ := Run.exists (g1 := g1) (g2 := g2) (push := push) ho (U := U) (by
    intro p _ a _
    simp only [U, List.mem_append, List.mem_flatMap, List.mem_map]
    exact .inr ⟨_, hT g1 hg1 p.1 a, _, hT g2 hg2 p.2 a, rfl⟩) _ 0 [] S (by intro p hp; simp [U, hp]) (Nat.le_refl _)
  exact ⟨tr, c, h.facts ho hpp, fun σ vis st => h.returns vis st⟩

end Pbfs
end PyBGL
