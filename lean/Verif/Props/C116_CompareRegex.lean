import Verif.Props.C115_MooreInto
import Verif.Props.C82_RegexText
import Verif.Props.C44_C45_Pbfs
import Verif.Proofs.ThompsonWF

/-!
# C116: comparing regular expressions
-/

namespace PyBGL
open RegexText

/-- How `deterministic_inclusion` reports the comparison of two sets of words. -/
def ComparesAs {A : Type} (L1 L2 : List A → Prop) (r : Option Int) : Prop :=
  (r = some 0 ↔ ∀ w, L1 w ↔ L2 w) ∧
  (r = some 1 ↔ (∀ w, L1 w → L2 w) ∧ ∃ w, L2 w ∧ ¬L1 w) ∧
  (r = some (-1) ↔ (∀ w, L2 w → L1 w) ∧ ∃ w, L1 w ∧ ¬L2 w) ∧
  (r = none ↔ (∃ w, L1 w ∧ ¬L2 w) ∧ ∃ w, L2 w ∧ ¬L1 w)

/-- The English statement of C116: `deterministic_inclusion(compile_dfa(r1), compile_dfa(r2))` compares the languages of two regular expressions. -/
def C116_statement : Prop :=
  ∀ (C : ReClasses), C.Sound → ∀ (sets : List Char → List Char), (∀ l, (sets l).Perm l) → ∀ (e1 e2 : ReText), e1.WF C → e2.WF C →
    e1.UsualParens → e2.UsualParens → ¬ e1.Symbol defaultAlphabet 'ε' → ¬ e2.Symbol defaultAlphabet 'ε' →
    ∀ (complete : Bool) (pick : Nat → Nat) (order : Nat → List Char → List Char), (∀ t l, (order t l).Perm l) → ∀ ord : SetOracle Char, ord.Valid →
    ∃ d1 d2 r, Returns (compileDfa C sets complete pick order e1.text) (.ok d1) ∧ Returns (compileDfa C sets complete pick order e2.text) (.ok d2) ∧
      Returns (deterministicInclusion ord d1 d2) (.ok r) ∧ ComparesAs (e1.Lang C defaultAlphabet) (e2.Lang C defaultAlphabet) r

/-- The words of an NFA do not contain ε. -/
theorem Nfa.Lang.eps_not_mem {A : Type} [DecidableEq A] {g : Nfa A} {w : List A} (h : g.Lang w) : g.eps ∉ w := by
  obtain ⟨_, _, _, _, u, _, rfl⟩ := h
  simp

/-- **C116, partial** (missing: the regular expressions for which C85 fails). `compile_dfa` returns an automaton, on which the theorems about automata apply, that
recognises exactly the language of the regular expression. -/
theorem C116_compile_dfa_partial {C : ReClasses} (hC : C.Sound) {sets : List Char → List Char} (hsets : ∀ l, (sets l).Perm l) {e : ReText} (hwf : e.WF C)
    (hp : e.Parens) (hε : ¬ e.Symbol defaultAlphabet 'ε') (hs : (e.shape C).Safe) (complete : Bool) (pick : Nat → Nat) {order : Nat → List Char → List Char}
    (hord : ∀ t l, (order t l).Perm l) :
    ∃ d, Returns (compileDfa C sets complete pick order e.text) (.ok d) ∧ d.Reachable ∧ (∀ w, d.Lang w ↔ e.Lang C defaultAlphabet w) ∧
      ∀ w, d.accepts w = true ↔ e.Lang C defaultAlphabet w := by
  have hwa : wholeAlphabet [] = defaultAlphabet := rfl
  obtain ⟨g, q, f, h1, h2, h3, _, _⟩ := C85_compile_partial (wa := []) hC hsets hwf hp (.inl rfl) (by rw [hwa]; exact hε) hs
  rw [hwa] at h3
  obtain ⟨d, k1, k2, _, k3⟩ := MooreInto.default_spec h2.wf complete pick order hord
  have hl : ∀ w, d.Lang w ↔ e.Lang C defaultAlphabet w := fun w => by
    rw [k3, h3]
    exact ⟨fun h => h.2, fun h => ⟨((h3 w).mpr h).eps_not_mem, h⟩⟩
  refine ⟨d, ?_, k2, hl, fun w => (Automaton.accepts_iff k2.awf w).trans (hl w)⟩
  obtain ⟨N, hN⟩ := k1
  refine ⟨N, fun fuel hf => ?_⟩
  unfold compileDfa
  rw [h1]
  exact hN fuel hf

/-- **C116, partial** (same restriction). `deterministic_inclusion` on the DFAs of two regular expressions compares their languages. -/
theorem C116_compare_partial {C : ReClasses} (hC : C.Sound) {sets : List Char → List Char} (hsets : ∀ l, (sets l).Perm l) {e1 e2 : ReText}
    (hwf1 : e1.WF C) (hwf2 : e2.WF C) (hp1 : e1.Parens) (hp2 : e2.Parens) (hε1 : ¬ e1.Symbol defaultAlphabet 'ε') (hε2 : ¬ e2.Symbol defaultAlphabet 'ε')
    (hs1 : (e1.shape C).Safe) (hs2 : (e2.shape C).Safe) (complete : Bool) (pick : Nat → Nat) {order : Nat → List Char → List Char}
    (hord : ∀ t l, (order t l).Perm l) {ord : SetOracle Char} (ho : ord.Valid) :
    ∃ d1 d2 r, Returns (compileDfa C sets complete pick order e1.text) (.ok d1) ∧ Returns (compileDfa C sets complete pick order e2.text) (.ok d2) ∧
      Returns (deterministicInclusion ord d1 d2) (.ok r) ∧ ComparesAs (e1.Lang C defaultAlphabet) (e2.Lang C defaultAlphabet) r := by
  obtain ⟨d1, h1, h2, h3, _⟩ := C116_compile_dfa_partial hC hsets hwf1 hp1 hε1 hs1 complete pick hord
  obtain ⟨d2, k1, k2, k3, _⟩ := C116_compile_dfa_partial hC hsets hwf2 hp2 hε2 hs2 complete pick hord
  obtain ⟨r, l1, l2⟩ := C45_inclusion ho h2 k2
  simp only [h3, k3] at l2
  exact ⟨d1, d2, r, h1, k1, l1, l2⟩

/-- **C116**: whatever the text, valid or not, `compile_dfa` raises exactly the exception of `thompson_compile_nfa`, and otherwise returns an automaton, on which
the theorems about automata apply, that recognises the language of the NFA returned by `thompson_compile_nfa`. -/
theorem C116_any_text (C : ReClasses) (sets : List Char → List Char) (complete : Bool) (pick : Nat → Nat) {order : Nat → List Char → List Char}
    (hord : ∀ t l, (order t l).Perm l) (s : List Char) :
    (∀ e, compileText C sets [] s = .error e → Returns (compileDfa C sets complete pick order s) (.error e)) ∧
    ∀ g q f, compileText C sets [] s = .ok (g, q, f) →
      ∃ d, Returns (compileDfa C sets complete pick order s) (.ok d) ∧ d.Reachable ∧ ∀ w, d.Lang w ↔ g.Lang w := by
  refine ⟨fun e he => ⟨0, fun fuel _ => by unfold compileDfa; rw [he]⟩, fun g q f hg => ?_⟩
  obtain ⟨hwf, -⟩ := compileText_ok C sets [] s _ hg
  obtain ⟨d, ⟨N, hN⟩, k2, _, k3⟩ := MooreInto.default_spec hwf complete pick order hord
  refine ⟨d, ⟨N, fun fuel hf => ?_⟩, k2, fun w => (k3 w).trans ⟨fun h => h.2, fun h => ⟨h.eps_not_mem, h⟩⟩⟩
  unfold compileDfa
  rw [hg]
  exact hN fuel hf

/-- **C116**: whatever the two texts that compile, `deterministic_inclusion` compares the languages of the NFAs they compile to. -/
theorem C116_compare_any {C : ReClasses} {sets : List Char → List Char} {s1 s2 : List Char} {g1 g2 : Nfa Char} {q1 f1 q2 f2 : Nat}
    (hc1 : compileText C sets [] s1 = .ok (g1, q1, f1)) (hc2 : compileText C sets [] s2 = .ok (g2, q2, f2)) (complete : Bool) (pick : Nat → Nat)
    {order : Nat → List Char → List Char} (hord : ∀ t l, (order t l).Perm l) {ord : SetOracle Char} (ho : ord.Valid) :
    ∃ d1 d2 r, Returns (compileDfa C sets complete pick order s1) (.ok d1) ∧ Returns (compileDfa C sets complete pick order s2) (.ok d2) ∧
      Returns (deterministicInclusion ord d1 d2) (.ok r) ∧ ComparesAs g1.Lang g2.Lang r := by
  obtain ⟨d1, h1, h2, h3⟩ := (C116_any_text C sets complete pick hord s1).2 _ _ _ hc1
  obtain ⟨d2, k1, k2, k3⟩ := (C116_any_text C sets complete pick hord s2).2 _ _ _ hc2
  obtain ⟨r, l1, l2⟩ := C45_inclusion ho h2 k2
  simp only [h3, k3] at l2
  exact ⟨d1, d2, r, h1, k1, l1, l2⟩

/-- A text that does not compile: `a)`. -/
example : ∃ e, compileText asciiClasses id [] ['a', ')'] = .error e ∧ Returns (compileDfa asciiClasses id true id (fun _ l => l) ['a', ')']) (.error e) := by
  have h : ∃ e, compileText asciiClasses id [] ['a', ')'] = .error e := ⟨_, rfl⟩
  obtain ⟨e, he⟩ := h
  exact ⟨e, he, (C116_any_text asciiClasses id true id (fun _ _ => .refl _) _).1 e he⟩

/-- A text that compiles although it is not written as C85 expects, the operator `*` being doubled: `a**`. -/
example : ∃ g q f, compileText asciiClasses id [] ['a', '*', '*'] = .ok (g, q, f) ∧
    ∃ d, Returns (compileDfa asciiClasses id true id (fun _ l => l) ['a', '*', '*']) (.ok d) ∧ d.Reachable ∧ ∀ w, d.Lang w ↔ g.Lang w := by
  have h : ∃ g q f, compileText asciiClasses id [] ['a', '*', '*'] = .ok (g, q, f) := ⟨_, _, _, rfl⟩
  obtain ⟨g, q, f, he⟩ := h
  exact ⟨g, q, f, he, (C116_any_text asciiClasses id true id (fun _ _ => .refl _) _).2 _ _ _ he⟩

/-- `a*` -/
def starText : ReText := .star (.lit 'a')
/-- `a{2}*` -/
def twiceStarText : ReText := .star (.rep (.exact [] ['2'] []) (.lit 'a'))
/-- `a*{2}` -/
def starTwiceText : ReText := .rep (.exact [] ['2'] []) (.star (.lit 'a'))

theorem starText_ok : starText.WF asciiClasses ∧ starText.Parens ∧ ¬ starText.Symbol defaultAlphabet 'ε' ∧ (starText.shape asciiClasses).Safe := by
  refine ⟨?_, ?_, ?_, ?_⟩
  · simp [starText, ReText.WF]
  · simp [starText, ReText.Parens, ReText.level]
  · simp [starText, ReText.Symbol]
  · simp [starText, ReText.shape, Regex.Safe]

theorem twiceStarText_ok :
    twiceStarText.WF asciiClasses ∧ twiceStarText.Parens ∧ ¬ twiceStarText.Symbol defaultAlphabet 'ε' ∧ (twiceStarText.shape asciiClasses).Safe := by
  refine ⟨⟨⟨rfl, by decide, rfl, by decide⟩, by simp [ReText.WF]⟩, ?_, ?_, ?_⟩
  · simp [twiceStarText, ReText.Parens, ReText.level]
  · simp [twiceStarText, ReText.Symbol]
  · show Regex.Safe (.star (.rep 2 (some 2) (.sym ())))
    simp [Regex.Safe]

theorem twice_lang (w : List Char) : starTwiceText.Lang asciiClasses defaultAlphabet w ↔ starText.Lang asciiClasses defaultAlphabet w := by
  have h2 : starTwiceText.Lang asciiClasses defaultAlphabet w ↔ Pow (starText.Lang asciiClasses defaultAlphabet) 2 w := by
    constructor
    · rintro ⟨k, h1, h2, h3⟩
      have h1' : 2 ≤ k := h1
      have h2' : k ≤ 2 := h2 2 rfl
      cases Nat.le_antisymm h2' h1'
      exact h3
    · intro h; exact ⟨2, Nat.le_refl 2, fun n hn => by cases hn; exact Nat.le_refl 2, h⟩
  rw [h2, Pow.succ_iff]
  simp only [Pow.one_iff]
  constructor
  · rintro ⟨u, v, rfl, ⟨j, hj⟩, k, hk⟩; exact ⟨j + k, hj.add hk⟩
  · intro h; exact ⟨w, [], by simp, h, 0, Pow.zero_iff.2 rfl⟩

theorem not_twiceStar : ¬ twiceStarText.Lang asciiClasses defaultAlphabet ['a'] := by
  rintro ⟨k, hk⟩
  cases k with
  | zero => rw [Pow.zero_iff] at hk; cases hk
  | succ k =>
    obtain ⟨u, v, h, ⟨j, h1, _, h3⟩, _⟩ := Pow.succ_iff.1 hk
    have h1' : 2 ≤ j := h1
    obtain ⟨ws, hl, hw, rfl⟩ := h3
    have hlen : ws.flatten.length = ws.length := by
      clear hl h
      induction ws with
      | nil => rfl
      | cons x ws ih =>
        have hx : x = ['a'] := hw x (by simp)
        simp [hx, ih (fun u hu => hw u (by simp [hu]))]
    have := congrArg List.length h
    rw [List.length_append, hlen] at this
    simp at this
    omega

/-- **C116 is false:** `a*{2}` and `a*` have the same language, but their DFAs are found to be different. -/
theorem C116_compare_counterexample : ¬ C116_statement := by
  intro h
  obtain ⟨d1, d2, r, h1, h2, h3, h4⟩ := h asciiClasses asciiClasses_sound id (fun _ => .refl _) starTwiceText starText
    (by refine ⟨⟨rfl, by decide, rfl, by decide⟩, by simp [ReText.WF]⟩) starText_ok.1 ⟨⟨trivial, by decide⟩, by decide⟩ ⟨trivial, by decide⟩
    (by simp [starTwiceText, ReText.Symbol]) starText_ok.2.2.1 false id (fun _ l => l) (fun _ _ => .refl _) (fun _ l => l) (fun _ _ => .refl _)
  obtain ⟨h5, _⟩ := h4
  have h6 := h5.mpr twice_lang
  obtain ⟨e1, k1, k2, k3, _⟩ := C116_compile_dfa_partial asciiClasses_sound (sets := id) (fun _ => .refl _) twiceStarText_ok.1 twiceStarText_ok.2.1 twiceStarText_ok.2.2.1
    twiceStarText_ok.2.2.2 false id (order := fun _ l => l) (fun _ _ => .refl _)
  obtain ⟨e2, l1, l2, l3, _⟩ := C116_compile_dfa_partial asciiClasses_sound (sets := id) (fun _ => .refl _) starText_ok.1 starText_ok.2.1 starText_ok.2.2.1
    starText_ok.2.2.2 false id (order := fun _ l => l) (fun _ _ => .refl _)
  have hsame : compileText asciiClasses id [] starTwiceText.text = compileText asciiClasses id [] twiceStarText.text := by rfl
  have h1' : Returns (compileDfa asciiClasses id false id (fun _ l => l) twiceStarText.text) (.ok d1) := by
    unfold compileDfa at h1 ⊢
    rw [hsame] at h1
    exact h1
  cases returns_unique h1' k1
  cases returns_unique h2 l1
  obtain ⟨r', m1, m2, _⟩ := C45_inclusion (ord := fun _ l => l) (fun _ _ => .refl _) k2 l2
  cases returns_unique h3 m1
  have := (m2.mp h6) ['a']
  rw [k3, l3] at this
  exact not_twiceStar (this.mpr ⟨1, Pow.one_iff.2 rfl⟩)

/-- The hypotheses are met, and the result is not trivial: the language of `a{2}*` is strictly included in that of `a*`. -/
example : ∃ d1 d2, Returns (compileDfa asciiClasses id true (fun t => t * t) (fun _ l => l.reverse) twiceStarText.text) (.ok d1) ∧
    Returns (compileDfa asciiClasses id true (fun t => t * t) (fun _ l => l.reverse) starText.text) (.ok d2) ∧
    Returns (deterministicInclusion (fun _ l => l.reverse) d1 d2) (.ok (some 1)) := by
  obtain ⟨d1, d2, r, h1, h2, h3, _, h4, _, _⟩ := C116_compare_partial asciiClasses_sound (sets := id) (fun _ => .refl _) twiceStarText_ok.1 starText_ok.1
    twiceStarText_ok.2.1 starText_ok.2.1 twiceStarText_ok.2.2.1 starText_ok.2.2.1 twiceStarText_ok.2.2.2 starText_ok.2.2.2 true (fun t => t * t)
    (order := fun _ l => l.reverse) (fun _ l => List.reverse_perm l) (ord := fun _ l => l.reverse) (fun _ l => List.reverse_perm l)
  refine ⟨d1, d2, h1, h2, ?_⟩
  rw [h4.mpr ?_] at h3
  · exact h3
  · refine ⟨?_, ['a'], ⟨1, Pow.one_iff.2 rfl⟩, not_twiceStar⟩
    rintro w ⟨k, hk⟩
    induction k generalizing w with
    | zero => exact ⟨0, Pow.zero_iff.2 (Pow.zero_iff.1 hk)⟩
    | succ k ih =>
      obtain ⟨u, v, rfl, ⟨j, _, _, hu⟩, hv⟩ := Pow.succ_iff.1 hk
      obtain ⟨i, hi⟩ := ih v hv
      exact ⟨j + i, hu.add hi⟩

end PyBGL
