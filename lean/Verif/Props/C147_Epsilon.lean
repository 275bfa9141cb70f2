import Verif.Proofs.ThompsonEpsilon
import Verif.Props.C82_RegexText

/-!
# C147: the symbol `ε` in a regular expression stands for the empty word
-/

namespace PyBGL
variable {A : Type} [DecidableEq A]
open Thompson RegexText

/-- **C147.** Whatever the symbols of the expression, `eps` included, the NFA compiled from its postfix form, and the DFA obtained from it, accept the words of the language of the
expression from which the occurrences of `eps` are deleted. -/
theorem C147_compile {eps : A} (e : Regex A) (ho : e.Ordered) (hs : e.Safe) :
    ∃ g q f, compile eps e.toPostfix = .ok (g, q, f) ∧ g.Single q f ∧ g.eps = eps ∧ (∀ w, g.Lang w ↔ ∃ v, e.Lang v ∧ w = v.filter (· ≠ eps)) ∧
      (∀ w, eps ∉ w → (g.accepts w = true ↔ ∃ v, e.Lang v ∧ w = v.filter (· ≠ eps))) ∧
      ∀ (complete : Bool) (pick : Nat → Nat) (order : Nat → List A → List A), (∀ t l, (order t l).Perm l) →
        ∃ dfa, Returns (Moore.run g complete pick order) (.ok dfa) ∧
          ∀ w, eps ∉ w → (dfa.accepts w = true ↔ ∃ v, e.Lang v ∧ w = v.filter (· ≠ eps)) := by
  obtain ⟨⟨g, q, f⟩, h1, h2⟩ := Nfa.compileEps_spec e ho hs
  refine ⟨g, q, f, h1, h2.single, h2.eps_eq, h2.toLang, fun w hw => h2.accepts hw, ?_⟩
  intro complete pick order hord
  obtain ⟨dfa, d1, d2⟩ := Moore.correct (g := g) h2.single.wf complete pick order hord
  refine ⟨dfa, d1, fun w hw => ?_⟩
  rw [(d2 w (by rw [show g.eps = eps from h2.eps_eq]; exact hw)).1]
  exact h2.accepts hw

/-- **C147.** The same for the text of a regular expression: `thompson_compile_nfa` gives an automaton for the words of its language from which the occurrences of `ε` are deleted. -/
theorem C147_text {C : ReClasses} (hC : C.Sound) {order : List Char → List Char} (hord : ∀ l, (order l).Perm l)
    {wa : List Char} {e : ReText} (hwf : e.WF C) (hp : e.Parens) (hn : wholeAlphabet wa = defaultAlphabet ∨ e.NoNegEsc) (hs : (e.shape C).Safe) :
    ∃ g q f, compileText C order wa e.text = .ok (g, q, f) ∧ g.Single q f ∧
      (∀ w, g.Lang w ↔ ∃ v, e.Lang C (wholeAlphabet wa) v ∧ w = v.filter (· ≠ 'ε')) ∧
      (∀ w, 'ε' ∉ w → (g.accepts w = true ↔ ∃ v, e.Lang C (wholeAlphabet wa) v ∧ w = v.filter (· ≠ 'ε'))) ∧
      ∀ (complete : Bool) (pick : Nat → Nat) (order : Nat → List Char → List Char), (∀ t l, (order t l).Perm l) →
        ∃ dfa, Returns (Moore.run g complete pick order) (.ok dfa) ∧
          ∀ w, 'ε' ∉ w → (dfa.accepts w = true ↔ ∃ v, e.Lang C (wholeAlphabet wa) v ∧ w = v.filter (· ≠ 'ε')) := by
  obtain ⟨r, h1, h2, h3, -, h4⟩ := compileText_ordered hC hord (wholeAlphabet_eq wa) hwf hp hn
  have hs' : r.Safe := (erase_preds r).2.2.2.2.1 (by rw [h4]; exact hs)
  obtain ⟨g, q, f, k1, k2, _, k4, k5, k6⟩ := C147_compile (eps := 'ε') r h3 hs'
  simp only [h2] at k4 k5 k6
  exact ⟨g, q, f, h1.trans k1, k2, k4, k5, k6⟩

/-- **C147.** `(e|ε)` is the right way to make an expression optional: it accepts the empty word and the words of `e`, also when `e?` is compiled to something else (C32). -/
theorem C147_optional {eps : A} (e : Regex A) (hv : e.Valid eps) (hs : e.Safe) :
    ∃ g q f, compile eps (Regex.alt e (.sym eps)).toPostfix = .ok (g, q, f) ∧ g.Single q f ∧ ∀ w, g.Lang w ↔ w = [] ∨ e.Lang w := by
  have hl : ∀ {e : Regex A}, e.Valid eps → e.Ordered := by
    intro e
    induction e with
    | sym _ => exact fun _ => trivial
    | chars _ => exact fun _ => trivial
    | cat _ _ h1 h2 => exact fun h => ⟨h1 h.1, h2 h.2⟩
    | alt _ _ h1 h2 => exact fun h => ⟨h1 h.1, h2 h.2⟩
    | opt _ h => exact h
    | star _ h => exact h
    | plus _ h => exact h
    | rep m n e h =>
      cases n with
      | none => exact h
      | some n => exact fun k => ⟨k.1, h k.2⟩
  obtain ⟨g, q, f, h1, h2, _, h4, _⟩ := C147_compile (eps := eps) (.alt e (.sym eps)) ⟨hl hv, trivial⟩ ⟨hs, trivial⟩
  obtain ⟨_, _, _, a1, _, _, a4, _⟩ := C147_compile (eps := eps) e (hl hv) hs
  obtain ⟨_, _, _, b1, _, _, b4, _⟩ := C34_compile_partial e hv hs
  rw [a1] at b1
  cases b1
  refine ⟨g, q, f, h1, h2, fun w => (h4 w).trans ?_⟩
  have : (∃ v, (Regex.alt e (.sym eps)).Lang v ∧ w = v.filter (· ≠ eps)) ↔ (∃ v, e.Lang v ∧ w = v.filter (· ≠ eps)) ∨ w = [] := by
    simp only [Regex.Lang]
    constructor
    · rintro ⟨v, h | rfl, rfl⟩
      · exact .inl ⟨v, h, rfl⟩
      · exact .inr (by simp)
    · rintro (⟨v, h, rfl⟩ | rfl)
      · exact ⟨v, .inl h, rfl⟩
      · exact ⟨[eps], .inr rfl, by simp⟩
  rw [this, ← a4, b4, or_comm]

/-- `(a|ε)b` meets the hypotheses of `C147_text`. -/
example : let e : ReText := .cat (.group (.alt (.lit 'a') (.lit 'ε'))) (.lit 'b')
    e.text = ['(', 'a', '|', 'ε', ')', 'b'] ∧ e.WF asciiClasses ∧ e.Parens ∧ e.NoNegEsc ∧ (e.shape asciiClasses).Safe ∧ e.Symbol defaultAlphabet 'ε' := by
  refine ⟨rfl, ?_, ?_, ?_, ?_, ?_⟩
  · simp [ReText.WF]
  · simp [ReText.Parens, ReText.level]
  · simp [ReText.NoNegEsc]
  · simp [ReText.shape, Regex.Safe]
  · simp [ReText.Symbol]

/-- `(a|ε)b` accepts `b` and `ab`, and not `a`. -/
example : ∃ g q f, compile 'ε' (Regex.cat (.alt (.sym 'a') (.sym 'ε')) (.sym 'b')).toPostfix = .ok (g, q, f) ∧
    g.Lang ['b'] ∧ g.Lang ['a', 'b'] ∧ ¬ g.Lang ['a'] := by
  obtain ⟨g, q, f, h1, _, _, h4, _⟩ := C147_compile (eps := 'ε') (Regex.cat (.alt (.sym 'a') (.sym 'ε')) (.sym 'b')) (by simp [Regex.Ordered]) (by simp [Regex.Safe])
  refine ⟨g, q, f, h1, (h4 _).2 ⟨['ε', 'b'], ⟨['ε'], ['b'], rfl, .inr rfl, rfl⟩, by decide⟩, (h4 _).2 ⟨['a', 'b'], ⟨['a'], ['b'], rfl, .inl rfl, rfl⟩, by decide⟩, ?_⟩
  rw [h4]
  rintro ⟨_, ⟨u, v, rfl, hu, hv⟩, h⟩
  have hv' : v = ['b'] := hv
  subst hv'
  rw [List.filter_append] at h
  have := congrArg List.getLast? h
  simp at this

/-- `(a*b|ε)` accepts the empty word and `b`, and not `a`, which `(a*b)?` accepts. -/
example : ∃ g q f, compile 'ε' (Regex.alt (.cat (.star (.sym 'a')) (.sym 'b')) (.sym 'ε')).toPostfix = .ok (g, q, f) ∧ g.Lang [] ∧ ¬ g.Lang ['a'] := by
  obtain ⟨g, q, f, h1, _, h2⟩ := C147_optional (eps := 'ε') (.cat (.star (.sym 'a')) (.sym 'b')) (by simp [Regex.Valid]) (by simp [Regex.Safe])
  refine ⟨g, q, f, h1, (h2 _).2 (.inl rfl), ?_⟩
  rw [h2]
  rintro (h | ⟨u, v, h, _, hv⟩)
  · cases h
  · have hv' : v = ['b'] := hv
    subst hv'
    have := congrArg List.getLast? h
    simp at this

end PyBGL
