import Verif.Proofs.RegexSyntax
import Verif.Props.C119_RegexRead

/-!
# C131: what `thompson_compile_nfa` accepts is a regular expression
-/

namespace PyBGL
open RegexText

/-! ## The texts of the other properties are those of the grammar -/

namespace RegexText

theorem _root_.PyBGL.ReSyntax.snoc {C : ReClasses} {k : Nat} {u : List (List Char)} {p : List Char} (h : ReSyntax C k u) (hp : ReSuffix C p) :
    ReSyntax C k (u ++ [p]) := by
  induction h with
  | atom h => exact .suffix (.atom h) hp
  | group h _ => exact .suffix (.group h) hp
  | suffix h h' _ => exact .suffix (.suffix h h') hp
  | factor _ ih => exact .factor ih
  | cat h1 _ _ ih => rw [List.append_assoc]; exact .cat h1 ih
  | branch _ ih => exact .branch ih
  | alt h1 _ _ ih => rw [List.append_assoc]; exact .alt h1 ih

theorem _root_.PyBGL.ReSyntax.cat1 {C : ReClasses} {k : Nat} {u v : List (List Char)} (h : ReSyntax C k v) (hk : k ≠ 0) (hu : ReSyntax C 1 u) :
    ReSyntax C 1 (u ++ v) := by
  induction h with
  | atom h => exact .cat hu (.atom h)
  | group h _ => exact .cat hu (.group h)
  | suffix h h' _ => exact .cat hu (.suffix h h')
  | factor h _ => exact .cat hu h
  | cat _ h2 ih _ => rw [← List.append_assoc]; exact .cat (ih (by decide)) h2
  | branch _ _ => exact absurd rfl hk
  | alt _ _ _ _ => exact absurd rfl hk

theorem _root_.PyBGL.ReSyntax.cat0 {C : ReClasses} {k : Nat} {u v : List (List Char)} (h : ReSyntax C k u) (hk : k = 0) (hv : ReSyntax C 1 v) :
    ReSyntax C 0 (u ++ v) := by
  induction h with
  | atom h => exact absurd hk (by decide)
  | group h _ => exact absurd hk (by decide)
  | suffix h h' _ => exact absurd hk (by decide)
  | factor h _ => exact absurd hk (by decide)
  | cat _ h2 _ _ => exact absurd hk (by decide)
  | branch h _ => exact .branch (hv.cat1 (by decide) h)
  | alt h1 h2 _ _ => rw [List.append_assoc]; exact .alt h1 (hv.cat1 (by decide) h2)

theorem _root_.PyBGL.ReSyntax.catAll {C : ReClasses} {k : Nat} {u v : List (List Char)} (h : ReSyntax C k v) (hu : ReSyntax C 0 u) :
    ReSyntax C 0 (u ++ v) := by
  induction h with
  | atom h => exact hu.cat0 rfl (.factor (.atom h))
  | group h _ => exact hu.cat0 rfl (.factor (.group h))
  | suffix h h' _ => exact hu.cat0 rfl (.factor (.suffix h h'))
  | factor h _ => exact hu.cat0 rfl (.factor h)
  | cat h1 h2 _ _ => exact hu.cat0 rfl (.cat h1 h2)
  | branch h _ => exact hu.cat0 rfl h
  | alt _ h2 ih _ => rw [← List.append_assoc, ← List.append_assoc]; exact .alt ih h2

theorem _root_.PyBGL.ReSyntax.altAll {C : ReClasses} {k : Nat} {u v : List (List Char)} (h : ReSyntax C k v) (hu : ReSyntax C 0 u) :
    ReSyntax C 0 (u ++ [['|']] ++ v) := by
  induction h with
  | atom h => exact .alt hu (.factor (.atom h))
  | group h _ => exact .alt hu (.factor (.group h))
  | suffix h h' _ => exact .alt hu (.factor (.suffix h h'))
  | factor h _ => exact .alt hu (.factor h)
  | cat h1 h2 _ _ => exact .alt hu (.cat h1 h2)
  | branch h _ => exact .alt hu h
  | alt _ h2 ih _ => rw [← List.append_assoc, ← List.append_assoc]; exact .alt ih h2

theorem items_no_bracket {hat : Bool} : ∀ {first : Bool} {items : List ReItem}, ItemsWF hat first items → ']' ∉ (items.map ReItem.text).flatten
  | _, [], _ => by simp
  | first, i :: items, h => by
    have := items_no_bracket h.2
    rw [List.map_cons, List.flatten_cons, List.mem_append, not_or]
    refine ⟨?_, this⟩
    have h1 := h.1
    cases i with
    | one c => intro hc; have : ']' = c := by simpa [ReItem.text] using hc
               exact h1.1 this.symm
    | range a b =>
      intro hc
      simp only [ReItem.text, List.mem_cons, List.not_mem_nil, or_false] at hc
      rcases hc with hc | hc | hc
      · exact h1.1 hc.symm
      · exact absurd hc (by decide)
      · exact h1.2.2.2.2.1 hc.symm
    | esc c =>
      intro hc
      simp only [ReItem.text, List.mem_cons, List.not_mem_nil, or_false] at hc
      rcases hc with hc | hc
      · exact absurd hc (by decide)
      · exact h1.2 hc.symm

theorem item_text_ne (i : ReItem) : i.text ≠ [] := by cases i <;> simp [ReItem.text]

/-- Every expression has a text of the grammar. -/
theorem text_syntax {C : ReClasses} : ∀ (e : ReText), e.WF C → ∃ ps : List (List Char), ps.flatten = e.text ∧ ReSyntax C 0 ps
  | .lit c, h => ⟨[[c]], rfl, .branch (.factor (.atom (.lit h)))⟩
  | .esc c, h => ⟨[['\\', c]], rfl, .branch (.factor (.atom (.esc h)))⟩
  | .bracket neg items, h => by
    refine ⟨[(ReText.bracket neg items).text], by simp, .branch (.factor (.atom ?_))⟩
    have : (ReText.bracket neg items).text = '[' :: (((if neg then ['^'] else []) ++ (items.map ReItem.text).flatten) ++ [']']) := by
      simp [ReText.text]
    rw [this]
    refine .cls ?_ ?_
    · rw [List.mem_append, not_or]
      exact ⟨by cases neg <;> simp, items_no_bracket h.1⟩
    · rcases h.2 with h | h
      · simp [h]
      · cases items with
        | nil => exact absurd rfl h
        | cons i items => simp [item_text_ne]
  | .group e, h => by
    obtain ⟨ps, h1, h2⟩ := text_syntax e h
    exact ⟨_, by simp [h1, ReText.text], .branch (.factor (.group h2))⟩
  | .cat l r, h => by
    obtain ⟨ps, h1, h2⟩ := text_syntax l h.1
    obtain ⟨qs, k1, k2⟩ := text_syntax r h.2
    exact ⟨_, by simp [h1, k1, ReText.text], k2.catAll h2⟩
  | .alt l r, h => by
    obtain ⟨ps, h1, h2⟩ := text_syntax l h.1
    obtain ⟨qs, k1, k2⟩ := text_syntax r h.2
    exact ⟨_, by simp [h1, k1, ReText.text], k2.altAll h2⟩
  | .opt e, h => by
    obtain ⟨ps, h1, h2⟩ := text_syntax e h
    exact ⟨_, by simp [h1, ReText.text], h2.snoc .opt⟩
  | .star e, h => by
    obtain ⟨ps, h1, h2⟩ := text_syntax e h
    exact ⟨_, by simp [h1, ReText.text], h2.snoc .star⟩
  | .plus e, h => by
    obtain ⟨ps, h1, h2⟩ := text_syntax e h
    exact ⟨_, by simp [h1, ReText.text], h2.snoc .plus⟩
  | .rep f e, h => by
    obtain ⟨ps, h1, h2⟩ := text_syntax e h.2
    exact ⟨_, by simp [h1, ReText.text], h2.snoc (.rep h.1)⟩

/-! ## A text of the grammar without classes, escape sequences and repetitions is that of an expression -/

/-- Only characters, parentheses and one-character operators. -/
def Plain : ReText → Prop
  | .lit _ => True
  | .esc _ => False
  | .bracket _ _ => False
  | .group e => Plain e
  | .cat l r => Plain l ∧ Plain r
  | .alt l r => Plain l ∧ Plain r
  | .opt e => Plain e
  | .star e => Plain e
  | .plus e => Plain e
  | .rep _ _ => False

theorem plain_readAs (e : ReText) : Plain e.readAs ↔ Plain e :=
  Ignores.readAs (P := Plain) ⟨fun _ => Iff.rfl, fun _ => Iff.rfl, fun _ => Iff.rfl, fun _ => Iff.rfl⟩
    (fun _ _ _ _ h1 h2 => and_congr h1 h2) (fun _ _ _ _ h1 h2 => and_congr h1 h2) (fun _ _ _ _ => Iff.rfl) e

theorem plain_regular (C : ReClasses) : ∀ e : ReText, Plain e → (e.shape C).Regular
  | .lit _, _ => trivial
  | .group e, h => plain_regular C e h
  | .cat l r, h => ⟨plain_regular C l h.1, plain_regular C r h.2⟩
  | .alt l r, h => ⟨plain_regular C l h.1, plain_regular C r h.2⟩
  | .opt e, h => plain_regular C e h
  | .star e, h => plain_regular C e h
  | .plus e, h => plain_regular C e h

theorem plain_noNegEsc : ∀ e : ReText, Plain e → e.NoNegEsc
  | .lit _, _ => trivial
  | .group e, h => plain_noNegEsc e h
  | .cat l r, h => ⟨plain_noNegEsc l h.1, plain_noNegEsc r h.2⟩
  | .alt l r, h => ⟨plain_noNegEsc l h.1, plain_noNegEsc r h.2⟩
  | .opt e, h => plain_noNegEsc e h
  | .star e, h => plain_noNegEsc e h
  | .plus e, h => plain_noNegEsc e h

theorem plain_symbol (S : List Char) (a : Char) : ∀ e : ReText, Plain e → e.Symbol S a → a ∈ e.text
  | .lit c, _, h => by have : a = c := h
                       simp [ReText.text, this]
  | .group e, h, k => by simp [ReText.text, plain_symbol S a e h k]
  | .cat l r, h, k => by
    rcases k with k | k
    · simp [ReText.text, plain_symbol S a l h.1 k]
    · simp [ReText.text, plain_symbol S a r h.2 k]
  | .alt l r, h, k => by
    rcases k with k | k
    · simp [ReText.text, plain_symbol S a l h.1 k]
    · simp [ReText.text, plain_symbol S a r h.2 k]
  | .opt e, h, k => by simp [ReText.text, plain_symbol S a e h k]
  | .star e, h, k => by simp [ReText.text, plain_symbol S a e h k]
  | .plus e, h, k => by simp [ReText.text, plain_symbol S a e h k]

theorem syntax_plain {C : ReClasses} {k : Nat} {ps : List (List Char)} (h : ReSyntax C k ps)
    (hp : ∀ c ∈ ps.flatten, c ≠ '{' ∧ c ≠ '[' ∧ c ≠ '\\') :
    ∃ e : ReText, e.text = ps.flatten ∧ e.WF C ∧ e.UsualParens ∧ Plain e ∧ k ≤ e.level := by
  induction h with
  | atom h =>
    cases h with
    | lit h => exact ⟨.lit _, rfl, h, trivial, trivial, by simp [ReText.level]⟩
    | esc h => exact absurd rfl (hp '\\' (by simp)).2.2
    | cls h _ => exact absurd rfl (hp '[' (by simp)).2.1
  | group _ ih =>
    obtain ⟨e, h1, h2, h3, h4, _⟩ := ih (fun c hc => hp c (by
      rw [List.flatten_append, List.flatten_append]; exact List.mem_append_left _ (List.mem_append_right _ hc)))
    exact ⟨.group e, by simp [ReText.text, h1], h2, h3, h4, by simp [ReText.level]⟩
  | suffix _ hs ih =>
    obtain ⟨e, h1, h2, h3, h4, h5⟩ := ih (fun c hc => hp c (by rw [List.flatten_append]; exact List.mem_append_left _ hc))
    cases hs with
    | star => exact ⟨.star e, by simp [ReText.text, h1], h2, ⟨h3, h5⟩, h4, by simp [ReText.level]⟩
    | plus => exact ⟨.plus e, by simp [ReText.text, h1], h2, ⟨h3, h5⟩, h4, by simp [ReText.level]⟩
    | opt => exact ⟨.opt e, by simp [ReText.text, h1], h2, ⟨h3, h5⟩, h4, by simp [ReText.level]⟩
    | @rep f hf => exact absurd rfl (hp '{' (by cases f <;> simp [RepForm.text])).1
  | factor _ ih =>
    obtain ⟨e, h1, h2, h3, h4, h5⟩ := ih hp
    exact ⟨e, h1, h2, h3, h4, by omega⟩
  | cat _ _ ih1 ih2 =>
    obtain ⟨e, h1, h2, h3, h4, h5⟩ := ih1 (fun c hc => hp c (by rw [List.flatten_append]; exact List.mem_append_left _ hc))
    obtain ⟨f, k1, k2, k3, k4, k5⟩ := ih2 (fun c hc => hp c (by rw [List.flatten_append]; exact List.mem_append_right _ hc))
    exact ⟨.cat e f, by simp [ReText.text, h1, k1], ⟨h2, k2⟩, ⟨h3, k3, h5, k5⟩, ⟨h4, k4⟩, by simp [ReText.level]⟩
  | branch _ ih =>
    obtain ⟨e, h1, h2, h3, h4, _⟩ := ih hp
    exact ⟨e, h1, h2, h3, h4, by omega⟩
  | alt _ _ ih1 ih2 =>
    obtain ⟨e, h1, h2, h3, h4, h5⟩ := ih1 (fun c hc => hp c (by
      rw [List.flatten_append, List.flatten_append]; exact List.mem_append_left _ (List.mem_append_left _ hc)))
    obtain ⟨f, k1, k2, k3, k4, k5⟩ := ih2 (fun c hc => hp c (by rw [List.flatten_append]; exact List.mem_append_right _ hc))
    exact ⟨.alt e f, by simp [ReText.text, h1, k1], ⟨h2, k2⟩, ⟨h3, k3, k5⟩, ⟨h4, k4⟩, by simp [ReText.level]⟩

theorem plain_balanced {C : ReClasses} : ∀ e : ReText, Plain e → e.WF C → e.text.count '(' = e.text.count ')'
  | .lit c, _, h => by
    have h1 : c ≠ '(' := by rintro rfl; exact h (by decide)
    have h2 : c ≠ ')' := by rintro rfl; exact h (by decide)
    simp [ReText.text, h1, h2]
  | .group e, h, k => by
    have := plain_balanced e h k
    simp [ReText.text, List.count_append, this]
  | .cat l r, h, k => by
    have h1 := plain_balanced l h.1 k.1
    have h2 := plain_balanced r h.2 k.2
    simp [ReText.text, List.count_append, h1, h2]
  | .alt l r, h, k => by
    have h1 := plain_balanced l h.1 k.1
    have h2 := plain_balanced r h.2 k.2
    simp [ReText.text, List.count_append, h1, h2]
  | .opt e, h, k => by
    have := plain_balanced e h k
    simp [ReText.text, List.count_append, this]
  | .star e, h, k => by
    have := plain_balanced e h k
    simp [ReText.text, List.count_append, this]
  | .plus e, h, k => by
    have := plain_balanced e h k
    simp [ReText.text, List.count_append, this]

end RegexText

/-! ## The theorems -/

/-- **C131.** The parentheses have to be balanced: `a(|b` is accepted (C86). -/
theorem C131_balance_needed : ¬ ∀ (C : ReClasses), C.Sound → ∀ (order : List Char → List Char) (wa s : List Char) (x : Thompson.Frag Char),
    s ≠ [] → compileText C order wa s = .ok x → WellWritten C s := by
  intro h
  have h4 : (match compileText asciiClasses id [] ['a', '(', '|', 'b'] with
    | .ok _ => true
    | .error _ => false) = true := by decide
  cases hx : compileText asciiClasses id [] ['a', '(', '|', 'b'] with
  | error e => rw [hx] at h4; cases h4
  | ok x =>
    obtain ⟨ps, h1, h2⟩ := h asciiClasses asciiClasses_sound id [] _ x (by decide) hx
    obtain ⟨e, k1, k2, _, k4, _⟩ := syntax_plain h2 (by rw [h1]; decide)
    have := plain_balanced e k4 k2
    rw [k1, h1] at this
    exact absurd this (by decide)

/-- **C131.** A text whose parentheses are balanced is accepted by `thompson_compile_nfa`, or `compile_nfa`, only if it is empty or a
regular expression: characters, escape sequences, classes that are not empty and expressions in parentheses, each with any
number of suffix operators, concatenated, and separated by bars. -/
theorem C131_accepted {C : ReClasses} (hC : C.Sound) {order : List Char → List Char} {wa s : List Char} {x : Thompson.Frag Char}
    (hb : (tokenizerRe C s).count ['('] = (tokenizerRe C s).count [')']) (h : compileText C order wa s = .ok x) :
    s = [] ∨ WellWritten C s := by
  by_cases hs : s = []
  · exact .inl hs
  · exact .inr (accepted hC hs hb h)

/-- **C131.** A text with characters, operators and parentheses only, which is not a regular expression though its parentheses are balanced, raises
an `IndexError`: an operand is missing. If it is made of parentheses only, it may be an `AssertionError` instead. -/
theorem C131_missing_operand {C : ReClasses} (hC : C.Sound) (order : List Char → List Char) (wa : List Char) {s : List Char} (hs : s ≠ [])
    (hp : ∀ c ∈ s, c ∉ ['{', '[', '\\']) (hb : ∀ u v, tokenizerRe C s = u ++ v → u.count [')'] ≤ u.count ['('])
    (hc : (tokenizerRe C s).count ['('] = (tokenizerRe C s).count [')']) (hw : ¬ WellWritten C s) :
    compileText C order wa s = .error .indexError ∨
      (compileText C order wa s = .error .assertionError ∧ ∀ c ∈ s, c = '(' ∨ c = ')') :=
  missing_operand hC order wa hs (fun c h => by simpa using hp c h) hb hc hw

/-- **C131.** A text with characters, operators and balanced parentheses only is accepted if, and only if, it is a regular expression. -/
theorem C131_plain {C : ReClasses} (hC : C.Sound) {order : List Char → List Char} (hord : ∀ l, (order l).Perm l) (wa : List Char)
    {s : List Char} (hs : s ≠ []) (hp : ∀ c ∈ s, c ∉ ['{', '[', '\\', 'ε'])
    (hc : (tokenizerRe C s).count ['('] = (tokenizerRe C s).count [')']) :
    (∃ x, compileText C order wa s = .ok x) ↔ WellWritten C s := by
  constructor
  · rintro ⟨x, h⟩
    exact accepted hC hs hc h
  · rintro ⟨ps, rfl, h⟩
    obtain ⟨e, h1, h2, h3, h4, _⟩ := syntax_plain h (fun c hc => by have := hp c hc; simp at this; tauto)
    have hr := (plain_readAs e).2 h4
    obtain ⟨g, q, f, k, _⟩ := C119_complete hC hord (wa := wa) h2 h3 (.inr (plain_noNegEsc e h4))
      (fun hh => by have := hp 'ε' (h1 ▸ plain_symbol _ _ e h4 hh); simp at this) (plain_regular C _ hr)
    exact ⟨(g, q, f), h1 ▸ k⟩

/-- **C131.** The expressions of C82, C85 and C119 are regular expressions in this sense. -/
theorem C131_texts {C : ReClasses} {e : ReText} (h : e.WF C) : WellWritten C e.text := text_syntax e h

/-- `(a|b*)+c` is a regular expression with balanced parentheses; it is accepted. -/
example : WellWritten asciiClasses ['(', 'a', '|', 'b', '*', ')', '+', 'c'] ∧
    (tokenizerRe asciiClasses ['(', 'a', '|', 'b', '*', ')', '+', 'c']).count ['('] =
      (tokenizerRe asciiClasses ['(', 'a', '|', 'b', '*', ')', '+', 'c']).count [')'] := by
  refine ⟨C131_texts (e := .cat (.plus (.group (.alt (.lit 'a') (.star (.lit 'b'))))) (.lit 'c')) ?_, by decide⟩
  simp [ReText.WF]

/-- `a||b`, `(*)`, `a.b` and `()` are not regular expressions: they are rejected. -/
example : ∀ s ∈ [['a', '|', '|', 'b'], ['(', '*', ')'], ['a', '.', 'b'], ['(', ')']], ¬ WellWritten asciiClasses s := by
  intro s hs h
  have hp : ∀ s ∈ [['a', '|', '|', 'b'], ['(', '*', ')'], ['a', '.', 'b'], ['(', ')']], s ≠ [] ∧
      (∀ c ∈ s, c ∉ ['{', '[', '\\', 'ε']) ∧ (tokenizerRe asciiClasses s).count ['('] = (tokenizerRe asciiClasses s).count [')'] ∧
      (match compileText asciiClasses id [] s with
        | .ok _ => true
        | .error _ => false) = false := by decide
  obtain ⟨h1, h2, h3, h4⟩ := hp s hs
  obtain ⟨x, hx⟩ := (C131_plain asciiClasses_sound (order := id) (fun _ => List.Perm.refl _) [] h1 h2 h3).2 h
  rw [hx] at h4
  cases h4

/-- Both exceptions are raised: `a||b` has a missing operand, `()` is empty. -/
example : (match compileText asciiClasses id [] ['a', '|', '|', 'b'] with
      | .error .indexError => true
      | _ => false) = true ∧
    (match compileText asciiClasses id [] ['(', ')'] with
      | .error .assertionError => true
      | _ => false) = true := by decide

end PyBGL
