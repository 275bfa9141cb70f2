import Verif.Proofs.ThompsonStore
import Verif.Props.C29_C34_Thompson

/-!
# C157: the functions of `thompson_compile_nfa.py` on `Nfa` objects
-/

namespace PyBGL
open Thompson
variable {A : Type} [DecidableEq A]

/-- **C157.** `concatenation` of two different automata makes of the first, which it returns, an automaton of the concatenation; it leaves the second one, and all
others, as they are. -/
theorem C157_concatenation {st : Store A} {r1 r2 : Nat} {g1 g2 : Nfa A} (e1 : st[r1]? = some g1) (e2 : st[r2]? = some g2) (hne : r1 ≠ r2) {q1 f1 q2 f2 : Nat}
    (h1 : g1.Single q1 f1) (h2 : g2.Single q2 f2) (he : g1.eps = g2.eps) :
    ∃ st' g f, concatenationS (r1, q1, f1) (r2, q2, f2) st = (.ok (r1, q1, f), st') ∧ st'[r1]? = some g ∧ (∀ i, i ≠ r1 → st'[i]? = st[i]?) ∧
      g.Single q1 f ∧ ∀ w, g.Lang w ↔ ∃ u v, w = u ++ v ∧ g1.Lang u ∧ g2.Lang v := by
  obtain ⟨g, f, k1, k2, _, k3⟩ := C30_concatenation h1 h2 he
  have h := concatenationS_eq (x1 := (r1, q1, f1)) (x2 := (r2, q2, f2)) e1 e2 hne
  simp only at h
  rw [k1] at h
  exact ⟨_, g, f, h, get_set_self (List.getElem?_eq_some_iff.1 e1).1 g, fun i hi => get_set_ne (Ne.symm hi) g, k2, k3⟩

/-- **C157.** `alternation` of two different automata. -/
theorem C157_alternation {st : Store A} {r1 r2 : Nat} {g1 g2 : Nfa A} (e1 : st[r1]? = some g1) (e2 : st[r2]? = some g2) (hne : r1 ≠ r2) {q1 f1 q2 f2 : Nat}
    (h1 : g1.Single q1 f1) (h2 : g2.Single q2 f2) (he : g1.eps = g2.eps) :
    ∃ st' g q f, alternationS (r1, q1, f1) (r2, q2, f2) st = (.ok (r1, q, f), st') ∧ st'[r1]? = some g ∧ (∀ i, i ≠ r1 → st'[i]? = st[i]?) ∧
      g.Single q f ∧ ∀ w, g.Lang w ↔ g1.Lang w ∨ g2.Lang w := by
  obtain ⟨g, q, f, k1, k2, _, _, _, _, k3⟩ := C30_alternation h1 h2 he
  have h := alternationS_eq (x1 := (r1, q1, f1)) (x2 := (r2, q2, f2)) e1 e2 hne
  simp only at h
  rw [k1] at h
  exact ⟨_, g, q, f, h, get_set_self (List.getElem?_eq_some_iff.1 e1).1 g, fun i hi => get_set_ne (Ne.symm hi) g, k2, k3⟩

/-- Two literals meet the hypotheses: the first object gets the states of both, the second keeps its own. -/
example : ∃ g f, concatenationS (0, 0, 1) (1, 0, 1) [(literal 'ε' 'a').1, (literal 'ε' 'b').1] = (.ok (0, 0, f), [g, (literal 'ε' 'b').1]) ∧
    g.accepts ['a', 'b'] = true ∧ g.accepts ['a'] = false := ⟨_, _, rfl, by decide, by decide⟩

/-- **C157.** `repetition` returns the automaton that it computes for the one it is given, on that same object or on a new one, or raises the exception that it raises for it; the
copies that it makes are other objects, and all other objects are left as they are. -/
theorem C157_repetition (eps : A) {st : Store A} {r : Nat} {g : Nfa A} (h : st[r]? = some g) (q f m : Nat) :
    ∃ st', (∀ i, i < st.length → i ≠ r → st'[i]? = st[i]?) ∧
      match repetition eps (g, q, f) m with
      | .error e => repetitionS eps (r, q, f) m st = (.error e, st')
      | .ok (g', q', f') => ∃ r', repetitionS eps (r, q, f) m st = (.ok (r', q', f'), st') ∧ st'[r']? = some g' ∧ (r' = r ∨ st.length ≤ r') := by
  have := repetitionS_eq eps (x := (r, q, f)) h m
  unfold Computes at this
  simp only at this ⊢
  split at this
  · next x hx =>
    obtain ⟨r', st', k1, k2, k3, k4⟩ := this
    exact ⟨st', k4.2, by rw [hx]; exact ⟨r', k1, k2, k3⟩⟩
  · next e hx =>
    obtain ⟨st', k1, k4⟩ := this
    exact ⟨st', k4.2, by rw [hx]; exact k1⟩

/-- **C157.** `repetition_range` returns the automaton that it computes for the one it is given, on that same object or on a new one, or raises the exception that it raises for it; the
copies that it makes are other objects, and all other objects are left as they are. -/
theorem C157_repetition_range (eps : A) {st : Store A} {r : Nat} {g : Nfa A} (h : st[r]? = some g) (q f m : Nat) (n : Option Nat) :
    ∃ st', (∀ i, i < st.length → i ≠ r → st'[i]? = st[i]?) ∧
      match repetitionRange eps (g, q, f) m n with
      | .error e => repetitionRangeS eps (r, q, f) m n st = (.error e, st')
      | .ok (g', q', f') => ∃ r', repetitionRangeS eps (r, q, f) m n st = (.ok (r', q', f'), st') ∧ st'[r']? = some g' ∧ (r' = r ∨ st.length ≤ r') := by
  have := repetitionRangeS_eq eps (x := (r, q, f)) h m n
  unfold Computes at this
  simp only at this ⊢
  split at this
  · next x hx =>
    obtain ⟨r', st', k1, k2, k3, k4⟩ := this
    exact ⟨st', k4.2, by rw [hx]; exact ⟨r', k1, k2, k3⟩⟩
  · next e hx =>
    obtain ⟨st', k1, k4⟩ := this
    exact ⟨st', k4.2, by rw [hx]; exact k1⟩

example : ∃ st' f, repetitionRangeS 'ε' (0, 0, 1) 2 (some 3) [(literal 'ε' 'a').1] = (.ok (0, 0, f), st') ∧
    ∃ g, st'[0]? = some g ∧ g.accepts ['a', 'a', 'a'] = true ∧ g.accepts ['a'] = false := by
  refine ⟨_, _, rfl, _, rfl, by decide, by decide⟩

/-- **C157.** `thompson_compile_nfa` returns a new automaton, the one computed on values, or raises the exception raised there; it leaves the automata that existed before as they are. -/
theorem C157_compile (eps : A) (toks : List (Tok A)) (st : Store A) :
    ∃ st', (∀ i, i < st.length → st'[i]? = st[i]?) ∧
      match compile eps toks with
      | .error e => compileS eps toks st = (.error e, st')
      | .ok (g, q, f) => ∃ r, compileS eps toks st = (.ok (r, q, f), st') ∧ st'[r]? = some g ∧ st.length ≤ r := by
  have := compileS_eq eps toks st
  unfold Computes at this
  split at this
  · next x hx =>
    obtain ⟨r', st', k1, k2, k3, k4⟩ := this
    exact ⟨st', fun i hi => k4.2 i hi (by omega), by rw [hx]; exact ⟨r', k1, k2, k3.elim id id⟩⟩
  · next e hx =>
    obtain ⟨st', k1, k4⟩ := this
    exact ⟨st', fun i hi => k4.2 i hi (by omega), by rw [hx]; exact k1⟩

example : ∃ r f, (compileS 'ε' [.lit 'a', .rep 2 (some 2), .lit 'b', .cat] [(literal 'ε' 'c').1]).1 = .ok (r, f) := ⟨1, (0, 5), by decide⟩

/-- Calls to `thompson_compile_nfa` one after the other: the outcomes, and the objects at the end. -/
def compileCalls (eps : A) : List (List (Tok A)) → Store A → List (Except PyErr FragRef) × Store A
  | [], st => ([], st)
  | toks :: calls, st => ((compileS eps toks st).1 :: (compileCalls eps calls (compileS eps toks st).2).1, (compileCalls eps calls (compileS eps toks st).2).2)

theorem compileCalls_frame (eps : A) (calls : List (List (Tok A))) : ∀ st : Store A,
    st.length ≤ (compileCalls eps calls st).2.length ∧ ∀ i, i < st.length → (compileCalls eps calls st).2[i]? = st[i]? := by
  induction calls with
  | nil => intro st; exact ⟨Nat.le_refl _, fun _ _ => rfl⟩
  | cons toks calls ih =>
    intro st
    have h := compileS_eq eps toks st
    have hf : Frame (st.length ≤ ·) st (compileS eps toks st).2 := by
      unfold Computes at h
      split at h
      · obtain ⟨_, _, k1, _, _, k4⟩ := h; rw [k1]; exact k4
      · obtain ⟨_, k1, k4⟩ := h; rw [k1]; exact k4
    obtain ⟨i1, i2⟩ := ih (compileS eps toks st).2
    exact ⟨Nat.le_trans hf.1 i1, fun i hi => (i2 i (Nat.lt_of_lt_of_le hi hf.1)).trans (hf.2 i hi (by omega))⟩

/-- **C157.** After any number of calls to `thompson_compile_nfa`, each call has had the outcome it has by itself, and the automaton that it returned is still the one that it
computed, whatever the calls that came after it. -/
theorem C157_compile_calls (eps : A) (calls : List (List (Tok A))) (st : Store A) :
    List.Forall₂ (fun toks o => match compile eps toks with
      | .error e => o = .error e
      | .ok (g, q, f) => ∃ r, o = .ok (r, q, f) ∧ (compileCalls eps calls st).2[r]? = some g ∧ st.length ≤ r) calls (compileCalls eps calls st).1 := by
  induction calls generalizing st with
  | nil => exact .nil
  | cons toks calls ih =>
    obtain ⟨st', h1, h2⟩ := C157_compile eps toks st
    have hf := compileCalls_frame eps calls (compileS eps toks st).2
    refine .cons ?_ ((ih (compileS eps toks st).2).imp ?_)
    · split
      · next e he => rw [he] at h2; exact congrArg Prod.fst h2
      · next g q f he =>
        rw [he] at h2
        obtain ⟨r, k1, k2, k3⟩ := h2
        refine ⟨r, congrArg Prod.fst k1, ?_, k3⟩
        have hs : (compileS eps toks st).2 = st' := by rw [k1]
        show (compileCalls eps calls (compileS eps toks st).2).2[r]? = _
        rw [hf.2 r (by rw [hs]; exact (List.getElem?_eq_some_iff.1 k2).1), hs, k2]
    · intro t o h
      split
      · next e he => simp only [he] at h; exact h
      · next g q f he =>
        simp only [he] at h
        obtain ⟨r, k1, k2, k3⟩ := h
        refine ⟨r, k1, k2, Nat.le_trans ?_ k3⟩
        have := compileS_eq eps toks st
        unfold Computes at this
        split at this
        · obtain ⟨_, _, k1, _, _, k4⟩ := this; rw [k1]; exact k4.1
        · obtain ⟨_, k1, k4⟩ := this; rw [k1]; exact k4.1

/-- What the automaton is after an interrupted insertion into itself: it has one more state, which is final if its first state is. -/
def Nfa.oneMore (g : Nfa A) (q : Nat) : Nfa A := if g.isFinal q then g.addVertex.2.setFinal g.addVertex.1 else g.addVertex.2

theorem Thompson.insertAutomatonS_self {st : Store A} {r : Nat} {g : Nfa A} (h : st[r]? = some g) (hlt : ∀ x ∈ g.vertices, x < g.lastVertexId) {q : Nat} {qs : List Nat}
    (hv : g.vertices = q :: qs) : insertAutomatonS r r st = (.error .runtimeError, st.set r (g.oneMore q)) := by
  obtain ⟨hl, _⟩ := List.getElem?_eq_some_iff.1 h
  have hlen : g.addVertex.2.vertices.length = g.vertices.length + 1 := by
    have hn : g.lastVertexId ∉ g.adj.keys := fun hm => Nat.lt_irrefl _ (hlt _ hm)
    simp only [Nfa.vertices, Nfa.addVertex, Dict.keys_set_of_not_mem _ _ _ hn, List.length_append, List.length_singleton]
  have hone : (g.oneMore q).vertices.length = g.vertices.length + 1 := by
    unfold Nfa.oneMore
    split <;> exact hlen
  have hb : insertVertexS r r q (st, []) = (.ok (), st.set r (g.oneMore q), (Dict.set [] q g.addVertex.1)) := by
    unfold insertVertexS
    simp only [h, get_set_self hl, Nfa.oneMore]
    have : (g.addVertex.2).isFinal q = g.isFinal q := rfl
    rw [this]
    have hc : Dict.contains ([] : Dict Nat Nat) q = false := rfl
    simp only [hc, Bool.false_eq_true, if_false]
    by_cases hq : g.isFinal q = true
    · simp only [hq, if_true]
    · simp only [hq, if_false, Bool.false_eq_true]
  unfold insertAutomatonS
  have hp : pyFor (verticesAt r) (insertVertexS r r) (st, []) = (.error .runtimeError, st.set r (g.oneMore q), (Dict.set [] q g.addVertex.1)) := by
    unfold pyFor
    have hi : verticesAt r (st, ([] : Dict Nat Nat)) = g.vertices := by simp [verticesAt, h]
    rw [hi, hv, List.length_cons]
    unfold forFrom
    rw [hi, hv]
    simp only [List.length_cons, if_true, Nat.sub_self, List.getElem?_cons_zero]
    rw [bind_ok hb]
    have hi' : ∀ d : Dict Nat Nat, (verticesAt r (st.set r (g.oneMore q), d)).length = qs.length + 2 := by
      intro d
      simp only [verticesAt, get_set_self hl, hone, hv, List.length_cons]
    have key : ∀ k, forFrom (verticesAt r) (insertVertexS r r) (qs.length + 1) k (st.set r (g.oneMore q), Dict.set [] q g.addVertex.1) =
        (.error .runtimeError, st.set r (g.oneMore q), Dict.set [] q g.addVertex.1) := by
      intro k
      cases k <;> simp only [forFrom, hi', show ¬ qs.length + 2 = qs.length + 1 by omega, if_false]
    exact key _
  rw [bind_error hp]

/-- **C157.** Given the same automaton twice, `concatenation` raises `RuntimeError`, and leaves it with one more state, isolated, which is final if the first state is. -/
theorem C157_same_concatenation {st : Store A} {r : Nat} {g : Nfa A} (h : st[r]? = some g) (hlt : ∀ x ∈ g.vertices, x < g.lastVertexId) {q : Nat} {qs : List Nat}
    (hv : g.vertices = q :: qs) (q1 f1 q2 f2 : Nat) : concatenationS (r, q1, f1) (r, q2, f2) st = (.error .runtimeError, st.set r (g.oneMore q)) :=
  bind_error (insertAutomatonS_self h hlt hv)

/-- **C157.** So does `alternation`. -/
theorem C157_same_alternation {st : Store A} {r : Nat} {g : Nfa A} (h : st[r]? = some g) (hlt : ∀ x ∈ g.vertices, x < g.lastVertexId) {q : Nat} {qs : List Nat}
    (hv : g.vertices = q :: qs) (q1 f1 q2 f2 : Nat) : alternationS (r, q1, f1) (r, q2, f2) st = (.error .runtimeError, st.set r (g.oneMore q)) := by
  unfold alternationS
  rw [bind_ok (show fetch r st = (.ok g, st) by simp [fetch, h])]
  exact bind_error (insertAutomatonS_self h hlt hv)

example : (concatenationS (0, 0, 1) (0, 0, 1) [(literal 'ε' 'a').1]).1 = .error .runtimeError ∧
    (concatenationS (0, 0, 1) (0, 0, 1) [(literal 'ε' 'a').1]).2.map Nfa.vertices = [[0, 1, 2]] := ⟨rfl, rfl⟩

end PyBGL
