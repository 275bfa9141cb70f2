import Verif.Proofs.ThompsonShift
import Verif.Props.C99_RegexExact
import Verif.Props.C138_Sizes

/-!
# C99: exact languages of `e{0,n}` when the automaton of `e` does not start at the vertex 0
-/

namespace PyBGL
variable {A : Type} [DecidableEq A]
open Thompson

/-- **C99.** `repetition_range(nfa, 0, n)` with `2 ≤ n`, for an automaton with vertices `0, …, N - 1` whose initial state is the vertex `q + 1`, accepts the words made of a word
read from the vertex `q` to the final state, then of at most `n - 1` words of the automaton. -/
theorem C99_range_zero_shifted {g : Nfa A} {q f N : Nat} (h : g.Single (q + 1) f) (hv : g.vertices = List.range N) (hl : g.lastVertexId = N) {n : Nat} (hn : 2 ≤ n) :
    ∃ g' f', repetitionRange g.eps (g, q + 1, f) 0 (some n) = .ok (g', q + 1, f') ∧ g'.Single (q + 1) f' ∧ g'.eps = g.eps ∧
      ∀ w, g'.Lang w ↔ ∃ u v, w = u ++ v ∧ WPath g.Trans g.eps q u f ∧ ∃ k ≤ n - 1, Pow g.Lang k v := by
  obtain ⟨g', f', a1, a2, a3, a4⟩ := Nfa.shift_range (eps := g.eps) h ⟨hv, hl⟩ hn
  refine ⟨g', f', a1, a2, a3, fun w => ?_⟩
  have hT : g.T = g.Trans := by
    funext x a y; exact propext (Nfa.trans_iff h.wf _ _ _).symm
  have hL : ∀ w, g.Lang w ↔ WPath g.T g.eps (q + 1) w f := fun w => h.lang_iff w
  rw [a2.lang_iff, a3, a4]
  simp only [Pow.congr hL, Nfa.ShiftPow, hT]
  constructor
  · rintro ⟨j, hj, u, v, e, h1, h2⟩; exact ⟨u, v, e, h1, j, hj, h2⟩
  · rintro ⟨u, v, e, h1, j, hj, h2⟩; exact ⟨j, hj, u, v, e, h1, h2⟩

/-- The automaton of an expression, with its paths and its vertices. -/
theorem Thompson.eval_full {eps : A} (e : Regex A) (hv : e.Valid eps) (hs : e.Regular) (st : List (Frag A)) :
    ∃ x, e.toPostfix.foldlM (onPushOutput eps) st = .ok (x :: st) ∧ Nfa.FrE eps x e.Ends ∧ Sized e.states x := by
  obtain ⟨x, h1, h2, -⟩ := Nfa.evalE_spec e hv hs [] st
  have hx : e.toPostfix.foldlM (onPushOutput eps) st = .ok (x :: st) := by rw [List.append_nil] at h1; exact h1
  obtain ⟨x', e', hs', -⟩ := eval_sized e (Regex.noVoid e hv hs) st _ hx
  obtain rfl : x = x' := by simpa using e'
  exact ⟨x, hx, h2, hs'⟩

/-- Compilation of `e{0,n}` from that of `e`. -/
theorem Thompson.compile_range {eps : A} {e : Regex A} {x y : Frag A} {n : Nat} (h : e.toPostfix.foldlM (onPushOutput eps) [] = .ok [x])
    (h' : repetitionRange eps x 0 (some n) = .ok y) : compile eps (Regex.rep 0 (some n) e).toPostfix = .ok y := by
  have hf : (Regex.rep 0 (some n) e).toPostfix.foldlM (onPushOutput eps) [] = .ok [y] := by
    rw [show (Regex.rep 0 (some n) e).toPostfix = e.toPostfix ++ [Tok.rep 0 (some n)] from rfl, List.foldlM_append, h]
    show List.foldlM (onPushOutput eps) [x] [Tok.rep 0 (some n)] = _
    rw [List.foldlM_cons]
    simp only [onPushOutput, h', bind, Except.bind]
    rfl
  unfold compile
  cases ht : (Regex.rep 0 (some n) e).toPostfix with
  | nil => exact absurd ht (Nfa.toPostfix_ne_nil _)
  | cons t ts =>
    rw [ht] at hf
    simp only [hf]
    rfl

/-- From the words read from the vertex before the initial state to the language of `e{0,n}`. -/
theorem Thompson.range_of_shift {eps : A} {e : Regex A} {g : Nfa A} {q f N n : Nat} {P L : List A → Prop} (hn : 2 ≤ n)
    (h : e.toPostfix.foldlM (onPushOutput eps) [] = .ok [(g, q + 1, f)]) (hL : Nfa.Fr eps (g, q + 1, f) L) (hd : Dense N g)
    (hP : ∀ w, WPath g.T eps q w f ↔ P w) :
    ∃ g' q' f', compile eps (Regex.rep 0 (some n) e).toPostfix = .ok (g', q', f') ∧ g'.Single q' f' ∧ g'.eps = eps ∧
      ∀ w, g'.Lang w ↔ ∃ u v, w = u ++ v ∧ P u ∧ ∃ k ≤ n - 1, Pow L k v := by
  obtain ⟨g', f', a1, a2, a3, a4⟩ := Nfa.shift_range (eps := eps) hL.single hd hn
  refine ⟨g', q + 1, f', compile_range h a1, a2, a3, fun w => ?_⟩
  rw [a2.lang_iff, a3, a4]
  have hL' := hL.lang
  simp only at hL'
  simp only [Nfa.ShiftPow, Pow.congr hL', hP]
  constructor
  · rintro ⟨j, hj, u, v, e, h1, h2⟩; exact ⟨u, v, e, h1, j, hj, h2⟩
  · rintro ⟨u, v, e, h1, j, hj, h2⟩; exact ⟨j, hj, u, v, e, h1, h2⟩

/-- **C99.** `(e₁|e₂){0,n}`, with `2 ≤ n`, is compiled to an automaton that accepts the words made of a word read from the final state of the automaton of `e₂` to itself, then of at
most `n - 1` words of `e₁` or `e₂`. -/
theorem C99_range_alternation {eps : A} {e₁ e₂ : Regex A} (v₁ : e₁.Valid eps) (s₁ : e₁.Regular) (v₂ : e₂.Valid eps) (s₂ : e₂.Regular) {n : Nat} (hn : 2 ≤ n) :
    ∃ g q f, compile eps (Regex.rep 0 (some n) (.alt e₁ e₂)).toPostfix = .ok (g, q, f) ∧ g.Single q f ∧ g.eps = eps ∧
      ∀ w, g.Lang w ↔ ∃ u v, w = u ++ v ∧ e₂.Ends true true u ∧ ∃ k ≤ n - 1, Pow (fun w => e₁.Ends false true w ∨ e₂.Ends false true w) k v := by
  obtain ⟨x1, a1, a2, a3⟩ := eval_full e₁ v₁ s₁ []
  obtain ⟨x2, b1, b2, b3⟩ := eval_full e₂ v₂ s₂ [x1]
  obtain ⟨g, q, f, c1, c2, c3⟩ := Nfa.shift_alt a2 b2 a3 b3
  obtain ⟨x, d1, d2, -⟩ := Nfa.fr_alt a2.fr b2.fr
  rw [c1] at d1
  obtain rfl : (g, q + 1, f) = x := by cases d1; rfl
  refine range_of_shift hn ?_ d2 c2 c3
  rw [show (Regex.alt e₁ e₂).toPostfix = e₁.toPostfix ++ e₂.toPostfix ++ [Tok.alt] from rfl, List.foldlM_append, List.foldlM_append, a1]
  show (do let s ← (do List.foldlM (onPushOutput eps) [x1] e₂.toPostfix); List.foldlM (onPushOutput eps) s [Tok.alt]) = _
  rw [b1]
  show List.foldlM (onPushOutput eps) [x2, x1] [Tok.alt] = _
  rw [List.foldlM_cons]
  simp only [onPushOutput, c1, bind, Except.bind]
  rfl

/-- **C99.** `e*{0,n}` and `e+{0,n}`, with `2 ≤ n`, are compiled to automata that accept the words made of a word read from the final state of the automaton of `e` to itself, then of
any number of words of `e`. -/
theorem C99_range_star {eps : A} {e : Regex A} (hv : e.Valid eps) (hs : e.Regular) {n : Nat} (hn : 2 ≤ n) :
    (∃ g q f, compile eps (Regex.rep 0 (some n) (.star e)).toPostfix = .ok (g, q, f) ∧ g.Single q f ∧ g.eps = eps ∧
      ∀ w, g.Lang w ↔ ∃ u v, w = u ++ v ∧ e.Ends true true u ∧ ∃ k, Pow (e.Ends false true) k v) ∧
    ∃ g q f, compile eps (Regex.rep 0 (some n) (.plus e)).toPostfix = .ok (g, q, f) ∧ g.Single q f ∧ g.eps = eps ∧
      ∀ w, g.Lang w ↔ ∃ u v, w = u ++ v ∧ e.Ends true true u ∧ ∃ k, Pow (e.Ends false true) k v := by
  obtain ⟨x, a1, a2, a3⟩ := eval_full e hv hs []
  have hpow : ∀ (L M : List A → Prop), (∀ w, M w → ∃ k, Pow L k w) → ∀ k w, Pow M k w → ∃ k, Pow L k w := by
    intro L M hM k
    induction k with
    | zero => intro w hw; rw [Pow.zero_iff] at hw; exact ⟨0, Pow.zero_iff.2 hw⟩
    | succ k ih =>
      intro w hw
      obtain ⟨u, v, rfl, hu, hv⟩ := Pow.snoc_iff.1 hw
      obtain ⟨k1, h1⟩ := ih u hu
      obtain ⟨k2, h2⟩ := hM v hv
      exact ⟨k1 + k2, Pow.add_iff.2 ⟨u, v, rfl, h1, h2⟩⟩
  have hcol : ∀ (P L M : List A → Prop), (∀ w, M w → ∃ k, Pow L k w) → ∀ w,
      (∃ u v, w = u ++ v ∧ (∃ u1 u2, u = u1 ++ u2 ∧ P u1 ∧ ∃ k, Pow L k u2) ∧ ∃ k ≤ n - 1, Pow M k v) ↔
        ∃ u v, w = u ++ v ∧ P u ∧ ∃ k, Pow L k v := by
    intro P L M hM w
    constructor
    · rintro ⟨_, v, rfl, ⟨u1, u2, rfl, h1, k1, h2⟩, k, -, h3⟩
      obtain ⟨k2, h4⟩ := hpow L M hM k v h3
      exact ⟨u1, u2 ++ v, by simp, h1, k1 + k2, Pow.add_iff.2 ⟨u2, v, rfl, h2, h4⟩⟩
    · rintro ⟨u, v, rfl, h1, k, h2⟩
      exact ⟨u ++ v, [], by simp, ⟨u, v, rfl, h1, k, h2⟩, 0, by omega, Pow.zero_iff.2 rfl⟩
  constructor
  · obtain ⟨g, q, f, c1, c2, c3⟩ := Nfa.shift_star a2 a3
    have hx := (Nfa.fre_star a2).fr
    rw [c1] at hx
    obtain ⟨g', q', f', d1, d2, d3, d4⟩ := range_of_shift (e := .star e) hn (by
      rw [show (Regex.star e).toPostfix = e.toPostfix ++ [Tok.star] from rfl, List.foldlM_append, a1]
      show List.foldlM (onPushOutput eps) [x] [Tok.star] = _
      rw [List.foldlM_cons]
      simp only [onPushOutput, c1, bind, Except.bind]
      rfl) hx c2 c3
    exact ⟨g', q', f', d1, d2, d3, fun w => (d4 w).trans (hcol _ _ _ (fun w h => h) w)⟩
  · obtain ⟨g, q, f, c1, c2, c3⟩ := Nfa.shift_plus a2 a3
    have hx := (Nfa.fre_plus a2).fr
    rw [c1] at hx
    obtain ⟨g', q', f', d1, d2, d3, d4⟩ := range_of_shift (e := .plus e) hn (by
      rw [show (Regex.plus e).toPostfix = e.toPostfix ++ [Tok.plus] from rfl, List.foldlM_append, a1]
      show List.foldlM (onPushOutput eps) [x] [Tok.plus] = _
      rw [List.foldlM_cons]
      simp only [onPushOutput, c1, bind, Except.bind]
      rfl) hx c2 c3
    exact ⟨g', q', f', d1, d2, d3, fun w => (d4 w).trans (hcol _ _ _ (fun w ⟨k, _, h⟩ => ⟨k, h⟩) w)⟩

/-- **C99.** `(a|b){0,n}`, with `2 ≤ n`, is compiled to an automaton that accepts the words on `a` and `b` of length at most `n - 1`: the words of length `n` are rejected. -/
theorem C99_range_two_symbols {eps a b : A} (ha : a ≠ eps) (hb : b ≠ eps) {n : Nat} (hn : 2 ≤ n) :
    ∃ g q f, compile eps (Regex.rep 0 (some n) (.alt (.sym a) (.sym b))).toPostfix = .ok (g, q, f) ∧ g.Single q f ∧ g.eps = eps ∧
      ∀ w, g.Lang w ↔ w.length < n ∧ ∀ c ∈ w, c = a ∨ c = b := by
  obtain ⟨g, q, f, h1, h2, h3, h4⟩ := C99_range_alternation (e₁ := .sym a) (e₂ := .sym b) ha trivial hb trivial hn
  refine ⟨g, q, f, h1, h2, h3, fun w => (h4 w).trans ?_⟩
  have hp : ∀ k w, Pow (fun w : List A => w = [a] ∨ w = [b]) k w ↔ w.length = k ∧ ∀ c ∈ w, c = a ∨ c = b := by
    intro k
    induction k with
    | zero =>
      intro w
      rw [Pow.zero_iff]
      constructor
      · rintro rfl; simp
      · rintro ⟨h, -⟩; simpa using h
    | succ k ih =>
      intro w
      rw [Pow.snoc_iff]
      constructor
      · rintro ⟨u, v, rfl, hu, hv⟩
        rw [ih] at hu
        rcases hv with rfl | rfl
        all_goals
          refine ⟨by simp [hu.1], fun c hc => ?_⟩
          rw [List.mem_append] at hc
          rcases hc with hc | hc
          · exact hu.2 c hc
          · simp at hc; simp [hc]
      · rintro ⟨hl, hc⟩
        rcases List.eq_nil_or_concat w with rfl | ⟨u, c, rfl⟩
        · simp at hl
        · rw [List.concat_eq_append] at hl hc ⊢
          refine ⟨u, [c], rfl, (ih u).2 ⟨by simpa using hl, fun d hd => hc d (by simp [hd])⟩, ?_⟩
          simpa using hc c (by simp)
  constructor
  · rintro ⟨u, v, rfl, hu, k, hk, hv⟩
    have hu' : u = [] := hu
    subst hu'
    obtain ⟨h5, h6⟩ := (hp k v).1 hv
    exact ⟨by simp; omega, by simpa using h6⟩
  · rintro ⟨hl, hc⟩
    exact ⟨[], w, rfl, rfl, w.length, by omega, (hp _ w).2 ⟨rfl, hc⟩⟩

/-- The automaton of `a|b` starts at the vertex 4: the hypotheses of `C99_range_zero_shifted` hold for it with `q = 3`. -/
example : (match compile 'ε' (Regex.alt (.sym 'a') (.sym 'b')).toPostfix with
    | .ok (g, q, _) => decide (q = 4 ∧ g.vertices = List.range 6 ∧ g.lastVertexId = 6)
    | .error _ => false) = true := by decide

/-- `(ab*)*{0,2}` accepts `b`. -/
example : ∃ g q f, compile 'ε' (Regex.rep 0 (some 2) (.star (.cat (.sym 'a') (.star (.sym 'b'))))).toPostfix = .ok (g, q, f) ∧ g.Lang ['b'] := by
  obtain ⟨⟨g, q, f, h1, _, _, h2⟩, -⟩ := C99_range_star (eps := 'ε') (e := .cat (.sym 'a') (.star (.sym 'b'))) (n := 2) (by simp [Regex.Valid]) (by simp [Regex.Regular]) (by omega)
  exact ⟨g, q, f, h1, (h2 _).2 ⟨['b'], [], rfl, ⟨1, Pow.one_iff.2 rfl⟩, 0, Pow.zero_iff.2 rfl⟩⟩

end PyBGL
