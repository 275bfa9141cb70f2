import Verif.Proofs.RegexRead
import Verif.Props.C82_RegexText
import Verif.Props.C99_RegexExact

/-!
# C119: how stacked suffix operators are read
-/

namespace PyBGL
open RegexText

/-- **C119.** The text of a regular expression written with the usual precedences is compiled exactly as the text of its
reading (same automaton, or same exception), where the reading has all the parentheses required by the precedences of the
library, and the same atoms. -/
theorem C119_reading {C : ReClasses} (hC : C.Sound) (order : List Char → List Char) (wa : List Char) {e : ReText}
    (h : e.WF C) (hp : e.UsualParens) :
    compileText C order wa e.text = compileText C order wa e.readAs.text ∧ e.readAs.WF C ∧ e.readAs.Parens ∧
      ∀ S a, e.readAs.Symbol S a ↔ e.Symbol S a :=
  ⟨compileText_read hC order wa h hp, (readAs_WF C e).2 h, (readAs_parens e hp).2, fun S a => readAs_symbol S a e⟩

/-- **C119.** Where no repetition `{…}` directly follows a `*`, a `+` or a `?`, the reading has the language of the text. This
covers all the expressions with the parentheses required by the precedences of the library. -/
theorem C119_same_language (C : ReClasses) (S : List Char) {e : ReText} (h : e.RepsOnAtoms) (w : List Char) :
    e.readAs.Lang C S w ↔ e.Lang C S w := readAs_lang C S e h w

theorem C119_parens {e : ReText} (h : e.Parens) : e.RepsOnAtoms ∧ e.UsualParens := repsOnAtoms_of_parens e h

/-- **C119.** The automaton compiled from a text written with the usual precedences recognises the language of the reading,
and that of the text itself if no repetition follows a suffix operator; provided that, in the reading, `e?` and `e{0,n}` are
only applied to expressions that may be skipped (see C85). -/
theorem C119_compile {C : ReClasses} (hC : C.Sound) {order : List Char → List Char} (hord : ∀ l, (order l).Perm l)
    {wa : List Char} {e : ReText} (hwf : e.WF C) (hp : e.UsualParens)
    (hn : wholeAlphabet wa = defaultAlphabet ∨ e.NoNegEsc) (hε : ¬ e.Symbol (wholeAlphabet wa) 'ε')
    (hs : (e.readAs.shape C).Safe) :
    ∃ g q f, compileText C order wa e.text = .ok (g, q, f) ∧ g.Single q f ∧
      (∀ w, 'ε' ∉ w → (g.accepts w = true ↔ e.readAs.Lang C (wholeAlphabet wa) w)) ∧
      (e.RepsOnAtoms → ∀ w, 'ε' ∉ w → (g.accepts w = true ↔ e.Lang C (wholeAlphabet wa) w)) ∧
      ∀ (complete : Bool) (pick : Nat → Nat) (order : Nat → List Char → List Char), (∀ t l, (order t l).Perm l) →
        ∃ dfa, Returns (Moore.run g complete pick order) (.ok dfa) ∧
          ∀ w, 'ε' ∉ w → (dfa.accepts w = true ↔ e.readAs.Lang C (wholeAlphabet wa) w) := by
  obtain ⟨h1, h2, h3, h4⟩ := C119_reading hC order wa hwf hp
  obtain ⟨g, q, f, k1, k2, _, k4, k5⟩ := C85_compile_partial hC hord h2 h3
    (hn.imp id (readAs_noNegEsc e).2) (fun h => hε ((h4 _ _).1 h)) hs
  exact ⟨g, q, f, h1.trans k1, k2, k4, fun hr w hw => (k4 w hw).trans (C119_same_language C _ hr w), k5⟩

/-- **C119.** Without any condition on what is skipped, but for `{0,n}` with `n ≥ 2`: all the words of the reading are
accepted. -/
theorem C119_complete {C : ReClasses} (hC : C.Sound) {order : List Char → List Char} (hord : ∀ l, (order l).Perm l)
    {wa : List Char} {e : ReText} (hwf : e.WF C) (hp : e.UsualParens)
    (hn : wholeAlphabet wa = defaultAlphabet ∨ e.NoNegEsc) (hε : ¬ e.Symbol (wholeAlphabet wa) 'ε')
    (hs : (e.readAs.shape C).Regular) :
    ∃ g q f, compileText C order wa e.text = .ok (g, q, f) ∧
      ∀ w, 'ε' ∉ w → e.readAs.Lang C (wholeAlphabet wa) w → g.accepts w = true := by
  obtain ⟨h1, h2, h3, h4⟩ := C119_reading hC order wa hwf hp
  obtain ⟨g, q, f, k1, _, _, k4⟩ := C99_text_complete hC hord h2 h3
    (hn.imp id (readAs_noNegEsc e).2) (fun h => hε ((h4 _ _).1 h)) hs
  exact ⟨g, q, f, h1.trans k1, k4⟩

/-! ## The readings of two stacked operators, for any operand that needs no parentheses -/

theorem read_of_readAs {e : ReText} (h : e.readAs = e) (h4 : e.level = 4) : e.read = ⟨e, none, false⟩ := by
  have hall : e.read.all = e := h
  have ho := operand_level (e := e) (by omega)
  obtain ⟨h1, h2⟩ := repeated_level ho (by rw [hall]; exact h4)
  generalize e.read = r at *
  obtain ⟨o, t, q⟩ := r
  simp only at h1 h2
  subst h1 h2
  simp only [ReReading.all, ReReading.repeated] at hall
  subst hall
  rfl

/-- **C119.** `a*{…}` is read as `a{…}*`, and so on: the repetition comes first. -/
theorem C119_rep_first (f : RepForm) {e : ReText} (h : e.readAs = e) (h4 : e.level = 4) :
    (ReText.rep f (.star e)).readAs = .star (.rep f e) ∧ (ReText.rep f (.plus e)).readAs = .plus (.rep f e) ∧
      (ReText.rep f (.opt e)).readAs = .opt (.rep f e) := by
  have := read_of_readAs h h4
  simp [ReText.readAs, ReText.read, ReReading.all, ReReading.repeated, ReText.atomic, this, h4]

/-- **C119.** `a?*` is read as `(a*)?`, and `a?+` as `(a+)?`: the `?` comes last. -/
theorem C119_opt_last {e : ReText} (h : e.readAs = e) (h4 : e.level = 4) :
    (ReText.star (.opt e)).readAs = .opt (.star e) ∧ (ReText.plus (.opt e)).readAs = .opt (.plus e) := by
  have := read_of_readAs h h4
  simp [ReText.readAs, ReText.read, ReReading.all, ReReading.repeated, ReText.atomic, this, h4]

example : (ReText.group (.cat (.lit 'a') (.lit 'b'))).readAs = .group (.cat (.lit 'a') (.lit 'b')) ∧
    (ReText.group (.cat (.lit 'a') (.lit 'b'))).level = 4 := ⟨rfl, rfl⟩

/-- The hypotheses are met by `a?*{2}|b+?`, read as `((a{2})*)?|(b+)?`. -/
example : let e : ReText := .alt (.rep (.exact [] ['2'] []) (.star (.opt (.lit 'a')))) (.opt (.plus (.lit 'b')))
    e.text = "a?*{2}|b+?".toList ∧ e.WF asciiClasses ∧ e.UsualParens ∧ ¬ e.Parens ∧ ¬ e.RepsOnAtoms ∧
      e.readAs.text = "a{2}*?|(b+)?".toList ∧ e.readAs.Parens ∧ (e.readAs.shape asciiClasses).Safe ∧
      ¬ e.Symbol defaultAlphabet 'ε' := by
  refine ⟨by decide, ⟨⟨⟨rfl, by decide, rfl, by decide⟩, by simp [ReText.WF]⟩, by simp [ReText.WF]⟩, ?_, ?_, ?_, by decide, ?_, ?_, ?_⟩
  · simp [ReText.UsualParens, ReText.level]
  · simp [ReText.Parens, ReText.level]
  · simp [ReText.RepsOnAtoms, ReText.level]
  · exact (readAs_parens _ (by simp [ReText.UsualParens, ReText.level])).2
  · have h2 : toInt asciiClasses ['2'] = 2 := by decide
    simp [ReText.readAs, ReText.read, ReReading.all, ReReading.repeated, ReText.atomic, ReText.level, ReText.shape,
      Regex.Safe, Regex.Skippable, RepForm.lo, RepForm.hi, h2]
  · simp [ReText.Symbol]

end PyBGL
