import Verif.Proofs.ThompsonLang

/-!
# C29–C34: Thompson's constructions
-/

namespace PyBGL
variable {A : Type} [DecidableEq A]
open Thompson

/-- **C29.** `literal(a)` accepts exactly the word `a`. -/
theorem C29_literal {eps a : A} (ha : a ≠ eps) : ∃ g q f, literal eps a = (g, q, f) ∧ g.Single q f ∧ g.eps = eps ∧
    (∀ w, g.Lang w ↔ w = [a]) ∧ ∀ w, eps ∉ w → (g.accepts w = true ↔ w = [a]) := by
  obtain ⟨h1, _⟩ := Nfa.fr_chars (eps := eps) (cs := [a]) (by simpa using Ne.symm ha)
  refine ⟨_, 0, 1, rfl, h1.single, h1.eps_eq, fun w => ?_, fun w hw => ?_⟩
  · refine (h1.toLang w).trans ?_; simp
  · refine (h1.accepts hw).trans ?_; simp

/-- **C29.** `bracket(chars)` accepts exactly the one-symbol words drawn from `chars`. -/
theorem C29_bracket {eps : A} {chars : List A} (hc : eps ∉ chars) :
    ∃ g q f, bracket eps chars = (g, q, f) ∧ g.Single q f ∧ g.eps = eps ∧
      (∀ w, g.Lang w ↔ ∃ a ∈ chars, w = [a]) ∧ ∀ w, eps ∉ w → (g.accepts w = true ↔ ∃ a ∈ chars, w = [a]) := by
  obtain ⟨h1, _⟩ := Nfa.fr_chars (eps := eps) (cs := chars) hc
  exact ⟨_, 0, 1, rfl, h1.single, h1.eps_eq, h1.toLang, fun w hw => h1.accepts hw⟩

example : (bracket 'ε' ['a', 'b']).1.accepts ['b'] = true ∧ (bracket 'ε' ['a', 'b']).1.accepts ['a', 'b'] = false := by
  decide

/-- **C30.** `concatenation` recognises the concatenation of the two languages, with one initial state (that of the
first automaton) and one final state. -/
theorem C30_concatenation {g1 g2 : Nfa A} {q1 f1 q2 f2 : Nat} (h1 : g1.Single q1 f1) (h2 : g2.Single q2 f2)
    (he : g1.eps = g2.eps) :
    ∃ g f, concatenation (g1, q1, f1) (g2, q2, f2) = .ok (g, q1, f) ∧ g.Single q1 f ∧ g.eps = g1.eps ∧
      ∀ w, g.Lang w ↔ ∃ u v, w = u ++ v ∧ g1.Lang u ∧ g2.Lang v := by
  have k2 := Nfa.Fr.self h2
  rw [← he] at k2
  obtain ⟨⟨g, q, f⟩, a1, a2, _, _, a3⟩ := Nfa.fr_cat (Nfa.Fr.self h1) k2
  simp only at a3
  subst a3
  exact ⟨g, f, a1, a2.single, a2.eps_eq, a2.toLang⟩

/-- **C30.** `alternation` recognises the union of the two languages, with one (new) initial state and one (new) final
state. -/
theorem C30_alternation {g1 g2 : Nfa A} {q1 f1 q2 f2 : Nat} (h1 : g1.Single q1 f1) (h2 : g2.Single q2 f2)
    (he : g1.eps = g2.eps) :
    ∃ g q f, alternation (g1, q1, f1) (g2, q2, f2) = .ok (g, q, f) ∧ g.Single q f ∧ g.eps = g1.eps ∧
      g.NoIn q ∧ g.NoOut f ∧ q ≠ f ∧ ∀ w, g.Lang w ↔ g1.Lang w ∨ g2.Lang w := by
  have k2 := Nfa.Fr.self h2
  rw [← he] at k2
  obtain ⟨⟨g, q, f⟩, a1, a2, a3, a4⟩ := Nfa.fr_alt (Nfa.Fr.self h1) k2
  have wf : g.WF := a2.single.wf
  exact ⟨g, q, f, a1, a2.single, a2.eps_eq, fun x a h => a3.1 x a ((Nfa.trans_iff wf _ _ _).1 h),
    fun a x h => a4.1 a x ((Nfa.trans_iff wf _ _ _).1 h), a3.2, a2.toLang⟩

/-- The hypotheses are met by the automata of two literals. -/
example : ∃ g f, concatenation (literal 'ε' 'a') (literal 'ε' 'b') = .ok (g, 0, f) ∧
    ∀ w, g.Lang w ↔ w = ['a', 'b'] := by
  obtain ⟨g1, q1, f1, e1, s1, p1, l1, _⟩ := C29_literal (eps := 'ε') (a := 'a') (by decide)
  obtain ⟨g2, q2, f2, e2, s2, p2, l2, _⟩ := C29_literal (eps := 'ε') (a := 'b') (by decide)
  obtain ⟨g, f, h1, _, _, h4⟩ := C30_concatenation s1 s2 (p1.trans p2.symm)
  have hq : q1 = 0 := by have := congrArg (·.2.1) e1; exact this.symm
  refine ⟨g, f, by rw [e1, e2, h1, hq], fun w => ?_⟩
  rw [h4]; simp [l1, l2]

/-- **C31.** `zero_or_more` recognises the Kleene star. -/
theorem C31_zero_or_more {g : Nfa A} {q f : Nat} (h : g.Single q f) :
    ∃ g' q' f', zeroOrMore (g, q, f) = (g', q', f') ∧ g'.Single q' f' ∧ g'.eps = g.eps ∧
      ∀ w, g'.Lang w ↔ ∃ k, Pow g.Lang k w := by
  obtain ⟨a1, _⟩ := Nfa.fr_star (Nfa.Fr.self h)
  exact ⟨_, _, _, rfl, a1.single, a1.eps_eq, a1.toLang⟩

/-- **C31.** `one_or_more` recognises the Kleene plus. -/
theorem C31_one_or_more {g : Nfa A} {q f : Nat} (h : g.Single q f) :
    ∃ g' q' f', oneOrMore (g, q, f) = (g', q', f') ∧ g'.Single q' f' ∧ g'.eps = g.eps ∧
      ∀ w, g'.Lang w ↔ ∃ k, 1 ≤ k ∧ Pow g.Lang k w := by
  obtain ⟨a1, _⟩ := Nfa.fr_plus (Nfa.Fr.self h)
  exact ⟨_, _, _, rfl, a1.single, a1.eps_eq, a1.toLang⟩

example : ∃ g' q' f', oneOrMore (literal 'ε' 'a') = (g', q', f') ∧ g'.Lang ['a', 'a'] ∧ ¬ g'.Lang [] := by
  obtain ⟨g1, q1, f1, e1, s1, p1, l1, _⟩ := C29_literal (eps := 'ε') (a := 'a') (by decide)
  obtain ⟨g, q, f, h1, h2, _, h4⟩ := C31_one_or_more s1
  refine ⟨g, q, f, by rw [e1, h1], (h4 _).2 ⟨2, by omega, [['a'], ['a']], rfl, by simp [l1], rfl⟩, ?_⟩
  rw [h4]
  rintro ⟨k, hk, ws, hl, hw, he⟩
  cases ws with
  | nil => simp at hl; omega
  | cons u ws =>
    have := (l1 u).1 (hw u (by simp))
    subst this; simp at he

/-- The English statement of C32 for the automata produced by `thompson_compile_nfa`. -/
def C32_statement : Prop :=
  ∀ (toks : List (Tok Char)) (x : Frag Char), compile 'ε' toks = .ok x →
    ∀ w, 'ε' ∉ w → ((zeroOrOne x).1.accepts w = true ↔ w = [] ∨ x.1.accepts w = true)

/-- **C32 is false:** `(a*b)?` accepts `a`, as the initial state of `a*b` has an incoming transition. -/
theorem C32_zero_or_one_counterexample : ¬ C32_statement := by
  intro h
  have := h [.lit 'a', .star, .lit 'b', .cat] _ rfl ['a'] (by decide)
  revert this
  decide

/-- **C32, partial.** `zero_or_one` adds exactly the empty word when no transition enters the initial state or
leaves the final state. Missing: the other automata, for which the statement is false in general. -/
theorem C32_zero_or_one_partial {g : Nfa A} {q f : Nat} (h : g.Single q f) (h1 : g.NoIn q) (h2 : g.NoOut f)
    (hne : q ≠ f) :
    ∃ g', zeroOrOne (g, q, f) = (g', q, f) ∧ g'.Single q f ∧ g'.eps = g.eps ∧
      ∀ w, g'.Lang w ↔ w = [] ∨ g.Lang w := by
  have ho : Nfa.OptOK g.eps (g, q, f) := .of_cs_ce
    ⟨fun x a hT => h1 x a ((Nfa.trans_iff h.wf _ _ _).2 hT), hne⟩
    ⟨fun a x hT => h2 a x ((Nfa.trans_iff h.wf _ _ _).2 hT), hne⟩
  obtain ⟨a1, _⟩ := Nfa.fr_opt (Nfa.Fr.self h) ho
  exact ⟨_, rfl, a1.single, a1.eps_eq, a1.toLang⟩

/-- `zero_or_one` always accepts the empty word and the words of the original automaton. -/
theorem C32_zero_or_one_lower_partial {g : Nfa A} {q f : Nat} (h : g.Single q f) :
    ∃ g', zeroOrOne (g, q, f) = (g', q, f) ∧ g'.Single q f ∧ g'.Lang [] ∧ ∀ w, g.Lang w → g'.Lang w := by
  obtain ⟨g', e, b2, b3, b4⟩ := Thompson.zeroOrOne_spec h
  refine ⟨g', e, b2, ?_, fun w hw => ?_⟩
  · rw [b2.lang_iff, b4, b3]; exact WPath.epsStep (.inr ⟨rfl, rfl, rfl⟩)
  · rw [b2.lang_iff, b4, b3]
    exact ((h.lang_iff w).1 hw).mono (fun _ _ _ h => .inl h)

/-- The hypotheses are met by the result of any alternation. -/
example {g1 g2 : Nfa A} {q1 f1 q2 f2 : Nat} (h1 : g1.Single q1 f1) (h2 : g2.Single q2 f2) (he : g1.eps = g2.eps) :
    ∃ x g', alternation (g1, q1, f1) (g2, q2, f2) = .ok x ∧ (zeroOrOne x).1 = g' ∧
      ∀ w, g'.Lang w ↔ w = [] ∨ g1.Lang w ∨ g2.Lang w := by
  obtain ⟨g, q, f, a1, a2, a3, a4, a5, a6, a7⟩ := C30_alternation h1 h2 he
  obtain ⟨g', b1, b2, b3, b4⟩ := C32_zero_or_one_partial a2 a4 a5 a6
  exact ⟨_, g', a1, by rw [b1], fun w => by rw [b4, a7]⟩

/-- **C33.** `repetition(nfa, m)` recognises `L^m`. -/
theorem C33_repetition {g : Nfa A} {q f : Nat} (h : g.Single q f) (m : Nat) :
    ∃ g' q' f', repetition g.eps (g, q, f) m = .ok (g', q', f') ∧ g'.Single q' f' ∧ g'.eps = g.eps ∧
      ∀ w, g'.Lang w ↔ Pow g.Lang m w := by
  obtain ⟨y, a1, a2, _⟩ := Nfa.fr_rep (Nfa.Fr.self h) m
  exact ⟨_, _, _, a1, a2.single, a2.eps_eq, a2.toLang⟩

/-- **C33.** `repetition_range(nfa, m, None)` recognises the union of the `L^k`, `k ≥ m`. -/
theorem C33_range_none {g : Nfa A} {q f : Nat} (h : g.Single q f) (m : Nat) :
    ∃ g' q' f', repetitionRange g.eps (g, q, f) m none = .ok (g', q', f') ∧ g'.Single q' f' ∧ g'.eps = g.eps ∧
      ∀ w, g'.Lang w ↔ ∃ k, m ≤ k ∧ Pow g.Lang k w := by
  obtain ⟨y, a1, a2, _⟩ := Nfa.fr_range_none (Nfa.Fr.self h) m
  exact ⟨_, _, _, a1, a2.single, a2.eps_eq, a2.toLang⟩

/-- **C33.** `repetition_range(nfa, m, n)` with `1 ≤ m ≤ n` recognises the union of the `L^k`, `m ≤ k ≤ n`. -/
theorem C33_range_some {g : Nfa A} {q f : Nat} (h : g.Single q f) {m n : Nat} (hm : 1 ≤ m) (hmn : m ≤ n) :
    ∃ g' q' f', repetitionRange g.eps (g, q, f) m (some n) = .ok (g', q', f') ∧ g'.Single q' f' ∧ g'.eps = g.eps ∧
      ∀ w, g'.Lang w ↔ ∃ k, m ≤ k ∧ k ≤ n ∧ Pow g.Lang k w := by
  obtain ⟨y, a1, a2, _⟩ := Nfa.fr_range_some (Nfa.Fr.self h) hmn (by omega) (by omega)
  exact ⟨_, _, _, a1, a2.single, a2.eps_eq, a2.toLang⟩

/-- The English statement of C33 for the automata produced by `thompson_compile_nfa` and bounded repetitions. -/
def C33_statement : Prop :=
  ∀ (toks : List (Tok Char)) (x : Frag Char), compile 'ε' toks = .ok x → ∀ m n, m ≤ n →
    ∃ y, repetitionRange 'ε' x m (some n) = .ok y ∧
      ∀ w, 'ε' ∉ w → (y.1.accepts w = true ↔ ∃ k, m ≤ k ∧ k ≤ n ∧ Pow (fun w => x.1.accepts w = true) k w)

/-- **C33 is false for `m = 0`:** `(a|b){0,2}` rejects `ab`, because the state returned for zero repetitions is not the one used as
initial state. -/
theorem C33_range_counterexample : ¬ C33_statement := by
  intro h
  obtain ⟨y, h1, h2⟩ := h [.lit 'a', .lit 'b', .alt] _ rfl 0 2 (by omega)
  have := (h2 ['a', 'b'] (by decide)).2 ⟨2, by omega, by omega, [['a'], ['b']], rfl, by decide, rfl⟩
  revert this
  cases h1
  decide

/-- **C33, partial.** `repetition_range(nfa, 0, n)` recognises the union of the `L^k`, `k ≤ n`, when the initial
state of `nfa` is the vertex `0`, no transition enters it and none leaves the final state. Missing: the other automata, for
which the statement is false in general. -/
theorem C33_range_zero_partial {g : Nfa A} {f : Nat} (h : g.Single 0 f) (h1 : g.NoIn 0) (h2 : g.NoOut f) (hne : 0 ≠ f)
    (n : Nat) :
    ∃ g' q' f', repetitionRange g.eps (g, 0, f) 0 (some n) = .ok (g', q', f') ∧ g'.Single q' f' ∧ g'.eps = g.eps ∧
      ∀ w, g'.Lang w ↔ ∃ k, k ≤ n ∧ Pow g.Lang k w := by
  have ho : Nfa.OptOK g.eps (g, 0, f) := .of_cs_ce
    ⟨fun x a hT => h1 x a ((Nfa.trans_iff h.wf _ _ _).2 hT), hne⟩
    ⟨fun a x hT => h2 a x ((Nfa.trans_iff h.wf _ _ _).2 hT), hne⟩
  obtain ⟨y, a1, a2, _⟩ := Nfa.fr_range_some (Nfa.Fr.self h) (Nat.zero_le n) (fun _ _ => rfl) (fun _ _ => ho)
  exact ⟨_, _, _, a1, a2.single, a2.eps_eq, fun w => by rw [a2.toLang]; simp⟩

/-- The hypotheses are met by a literal. -/
example : ∃ y, repetitionRange 'ε' (literal 'ε' 'a') 0 (some 3) = .ok y ∧
    ∀ w, y.1.Lang w ↔ ∃ k, k ≤ 3 ∧ Pow (fun u => u = ['a']) k w := by
  obtain ⟨k1, k2, k3, _⟩ := Nfa.fr_chars (eps := 'ε') (cs := ['a']) (by decide)
  have s : (literal 'ε' 'a').1.Single 0 1 := k1.single
  have hl : ∀ w, (literal 'ε' 'a').1.Lang w ↔ w = ['a'] := fun w => (k1.toLang w).trans (by simp)
  obtain ⟨g', q', f', h1, _, _, h4⟩ := C33_range_zero_partial s
    (fun x a h => k2.1 x a ((Nfa.trans_iff s.wf _ _ _).1 h)) (fun a x h => k3.1 a x ((Nfa.trans_iff s.wf _ _ _).1 h))
    (by decide) 3
  exact ⟨_, h1, fun w => by rw [h4]; simp only [Pow.congr hl]⟩

/-- The English statement of C34. -/
def C34_statement : Prop :=
  ∀ e : Regex Char, e.Valid 'ε' → ∃ x, compile 'ε' e.toPostfix = .ok x ∧
    ∀ w, 'ε' ∉ w → (x.1.accepts w = true ↔ e.Lang w)

/-- **C34 is false:** the automaton of `(a*b)?` accepts `a`. -/
theorem C34_compile_counterexample : ¬ C34_statement := by
  intro h
  obtain ⟨x, h1, h2⟩ := h (.opt (.cat (.star (.sym 'a')) (.sym 'b'))) (by simp [Regex.Valid])
  have := (h2 ['a'] (by decide)).1 (by cases h1; decide)
  simp [Regex.Lang] at this
  obtain ⟨u, hu, _⟩ := this
  have := congrArg List.getLast? hu
  simp at this

/-- **C34, partial.** For every expression in which `e?` and `e{0,n}` are only applied to expressions that may be
skipped (see `Regex.Safe`), the evaluation of its postfix form yields an NFA, and through `moore_determination` a DFA,
accepting exactly the language of the expression. Missing: the other expressions, for which the statement is
false in general. -/
theorem C34_compile_partial {eps : A} (e : Regex A) (hv : e.Valid eps) (hs : e.Safe) :
    ∃ g q f, compile eps e.toPostfix = .ok (g, q, f) ∧ g.Single q f ∧ g.eps = eps ∧ (∀ w, g.Lang w ↔ e.Lang w) ∧
      (∀ w, eps ∉ w → (g.accepts w = true ↔ e.Lang w)) ∧
      ∀ (complete : Bool) (pick : Nat → Nat) (order : Nat → List A → List A), (∀ t l, (order t l).Perm l) →
        ∃ dfa, Returns (Moore.run g complete pick order) (.ok dfa) ∧
          ∀ w, eps ∉ w → (dfa.accepts w = true ↔ e.Lang w) := by
  obtain ⟨⟨g, q, f⟩, h1, h2⟩ := Nfa.compile_spec e hv hs
  refine ⟨g, q, f, h1, h2.single, h2.eps_eq, h2.toLang, fun w hw => h2.accepts hw, ?_⟩
  intro complete pick order hord
  obtain ⟨dfa, d1, d2⟩ := Moore.correct (g := g) h2.single.wf complete pick order hord
  refine ⟨dfa, d1, fun w hw => ?_⟩
  rw [(d2 w (by rw [show g.eps = eps from h2.eps_eq]; exact hw)).1]
  exact h2.accepts hw

/-- Expressions without `?` and without repetitions starting at `0` are always compiled correctly. -/
def Regex.Basic : Regex A → Prop
  | .sym _ => True
  | .chars _ => True
  | .cat e₁ e₂ => e₁.Basic ∧ e₂.Basic
  | .alt e₁ e₂ => e₁.Basic ∧ e₂.Basic
  | .opt _ => False
  | .star e => e.Basic
  | .plus e => e.Basic
  | .rep _ none e => e.Basic
  | .rep m (some _) e => e.Basic ∧ 1 ≤ m

theorem Regex.Basic.safe {e : Regex A} (h : e.Basic) : e.Safe := by
  induction e with
  | sym _ => trivial
  | chars _ => trivial
  | cat _ _ ih₁ ih₂ => exact ⟨ih₁ h.1, ih₂ h.2⟩
  | alt _ _ ih₁ ih₂ => exact ⟨ih₁ h.1, ih₂ h.2⟩
  | opt _ _ => exact h.elim
  | star _ ih => exact ih h
  | plus _ ih => exact ih h
  | rep m n e ih =>
    cases n with
    | none => exact ih h
    | some n => exact ⟨ih h.1, fun hm => by have := h.2; omega, fun hm => by have := h.2; omega⟩

/-- The empty expression is compiled to the empty word. -/
theorem C34_empty_partial (eps : A) : ∃ g, compile eps ([] : List (Tok A)) = .ok (g, 0, 0) ∧ ∀ w, g.Lang w ↔ w = [] := by
  have h := Nfa.RP.zero eps ((Nfa.init eps [] 1).setFinal 0) 0 0
  refine ⟨_, rfl, fun w => ?_⟩
  rw [h.single.lang_iff, h.eps_eq, h.lang, Pow.zero_iff]

/-- `(ab|c+)?d{2,3}[xy]{0,2}` meets the hypotheses. -/
example : let e : Regex Char := .cat (.cat (.opt (.alt (.cat (.sym 'a') (.sym 'b')) (.plus (.sym 'c'))))
      (.rep 2 (some 3) (.sym 'd'))) (.rep 0 (some 2) (.chars ['x', 'y']))
    e.Valid 'ε' ∧ e.Safe ∧ e.Lang ['c', 'd', 'd', 'y'] := by
  refine ⟨by simp [Regex.Valid], by simp [Regex.Safe, Regex.Skippable, Regex.StartsAtZero], ?_⟩
  refine ⟨['c', 'd', 'd'], ['y'], rfl, ⟨['c'], ['d', 'd'], rfl, .inr (.inr ⟨1, by omega, [['c']], rfl, ?_, rfl⟩),
    2, by omega, by omega, [['d'], ['d']], rfl, ?_, rfl⟩, 1, by omega, by omega, [['y']], rfl, ?_, rfl⟩ <;> simp [Regex.Lang]

end PyBGL
