import Verif.Proofs.RegexText
import Verif.Props.C29_C34_Thompson

/-!
# C82–C85: regular expressions, from their text
-/

namespace PyBGL
open RegexText

/-- ASCII spaces and digits: an instance of the assumptions. -/
def asciiClasses : ReClasses where
  space := fun c => c = ' ' ∨ c = '\t' ∨ c = '\n' ∨ c = '\r' ∨ c = '\x0b' ∨ c = '\x0c'
  digit := fun c => c.isDigit
  val := fun c => c.toNat - '0'.toNat

theorem asciiClasses_sound : asciiClasses.Sound := by
  refine ⟨fun c h => ?_, by decide, by decide⟩
  by_contra h'
  simp only [Bool.not_eq_false] at h'
  simp only [asciiClasses, decide_eq_true_eq] at h h'
  rcases h' with rfl | rfl | rfl | rfl | rfl | rfl <;> revert h <;> decide

theorem asciiClasses_decimal : asciiClasses.Decimal := by
  unfold ReClasses.Decimal
  decide

/-- The whole alphabet: the one given by the user, `string.printable` if none is given. -/
def wholeAlphabet (wa : List Char) : List Char := if wa = [] then defaultAlphabet else wa

set_option maxRecDepth 20000 in
/-- **C82**: the default alphabet is the set of the printable ASCII characters, space and tab, line feed, carriage return, vertical tab and form feed included,
each once. -/
theorem C82_default_alphabet : defaultAlphabet.Nodup ∧ ∀ c : Char, c ∈ defaultAlphabet ↔ (32 ≤ c.toNat ∧ c.toNat ≤ 126) ∨ (9 ≤ c.toNat ∧ c.toNat ≤ 13) := by
  have e1 : (defaultAlphabet.map Char.toNat).Nodup := by decide
  have e2 : ∀ c ∈ defaultAlphabet, (32 ≤ c.toNat ∧ c.toNat ≤ 126) ∨ (9 ≤ c.toNat ∧ c.toNat ≤ 13) := by decide
  have e3 : ∀ n : Fin 127, (32 ≤ n.1 ∨ (9 ≤ n.1 ∧ n.1 ≤ 13)) → n.1 ∈ defaultAlphabet.map Char.toNat := by decide
  refine ⟨e1.of_map _, fun c => ⟨e2 c, fun h => ?_⟩⟩
  obtain ⟨c', h1, h2⟩ := List.mem_map.mp (e3 ⟨c.toNat, by omega⟩ (by rcases h with h | h <;> simp <;> omega))
  have : c' = c := Char.ext (UInt32.toNat_inj.mp h2)
  exact this ▸ h1

theorem wholeAlphabet_eq (wa : List Char) : wholeAlphabet wa = alphabetOr wa := by
  simp [wholeAlphabet, alphabetOr]

/-- The English statement of C82. -/
def C82_statement : Prop :=
  ∀ (C : ReClasses) (wa : List Char) (neg : Bool) (items : List ReItem), (ReText.bracket neg items).WF C →
    ∃ cs, parseBracket wa (ReText.bracket neg items).text = .ok cs ∧
      ∀ x, x ∈ cs ↔ (ReText.bracket neg items).Lang C (wholeAlphabet wa) [x]

set_option maxRecDepth 20000 in
/-- **C82 is false:** in brackets, `\D`, `\S` and `\W` ignore the given alphabet. With the alphabet `{a, α}`, the class
`[\D]` lacks `α`. -/
theorem C82_bracket_counterexample : ¬ C82_statement := by
  intro h
  obtain ⟨cs, h1, h2⟩ := h asciiClasses ['a', 'α'] false [.esc 'D'] (by simp [ReText.WF, ItemsWF, ReItem.WF, escapes])
  have h3 := (h2 'α').2 ⟨'α', ⟨.esc 'D', by simp, .D (by simp [wholeAlphabet]) (by decide)⟩, rfl⟩
  have h4 : (match parseBracket ['a', 'α'] (ReText.bracket false [.esc 'D']).text with
    | .ok cs => decide ('α' ∉ cs)
    | .error _ => false) = true := by decide
  rw [h1] at h4
  simp only [decide_eq_true_eq] at h4
  exact h4 h3

/-- **C82, partial.** `parse_bracket` yields the characters of the class: those of its items, or those of the alphabet which
belong to none of them. Missing: `\D`, `\S` and `\W` in brackets, with another alphabet than the default one. -/
theorem C82_bracket_partial {C : ReClasses} {wa : List Char} {neg : Bool} {items : List ReItem}
    (hwf : (ReText.bracket neg items).WF C)
    (hneg : wholeAlphabet wa = defaultAlphabet ∨ (ReText.bracket neg items).NoNegEsc) :
    ∃ cs, parseBracket wa (ReText.bracket neg items).text = .ok cs ∧
      ∀ x, x ∈ cs ↔ (ReText.bracket neg items).Lang C (wholeAlphabet wa) [x] := by
  obtain ⟨cs, h1, h2⟩ := parseBracket_spec (wholeAlphabet_eq wa) hwf.1 hwf.2 hneg
  refine ⟨cs, h1, fun x => (h2 x).trans ?_⟩
  cases neg <;> simp [ReText.Lang, ItemsMem]

/-- **C82.** `parse_escaped` yields the characters of the escape sequence. -/
theorem C82_escaped {C : ReClasses} (wa : List Char) {c : Char} (hc : (ReText.esc c).WF C) :
    ∃ cs, parseEscaped wa (ReText.esc c).text = .ok cs ∧
      ∀ x, x ∈ cs ↔ (ReText.esc c).Lang C (wholeAlphabet wa) [x] := by
  obtain ⟨cs, h1, h2⟩ := parseEscaped_spec wa hc
  refine ⟨cs, h1, fun x => (h2 x).trans ?_⟩
  rw [wholeAlphabet_eq]
  simp [ReText.Lang]

/-- **C82.** `parse_bracket` raises a `ValueError` on a text which is not in brackets, or with nothing inside, whatever the alphabet. -/
theorem C82_not_bracket (wa : List Char) {s : List Char} (hs : s ≠ []) (h : s.head? ≠ some '[' ∨ s.getLast? ≠ some ']' ∨ s.length < 3) :
    parseBracket wa s = .error .valueError := by
  cases s with
  | nil => exact absurd rfl hs
  | cons c body =>
    unfold parseBracket parseBracketWith
    simp only
    by_cases hc : c = '[' ∧ (c :: body).getLast? = some ']'
    · rw [if_neg (not_not.2 hc)]
      rw [if_pos]
      rcases h with h | h | h
      · exact absurd (by simp [hc.1]) h
      · exact absurd hc.2 h
      · exact h
    · rw [if_pos hc]

example : parseBracket [] ['a', 'b', 'c'] = .error .valueError ∧ parseBracket [] ['[', ']'] = .error .valueError ∧
    parseBracket [] ['[', 'a', ']'] = .ok ['a'] := by decide

/-- **C82.** A range whose bounds are in the wrong order raises `ValueError`, whatever precedes and follows it in the
brackets. -/
theorem C82_reversed {C : ReClasses} {wa : List Char} {neg : Bool} {items : List ReItem} {a b : Char} {tl : List Char}
    (hwf : (ReText.bracket neg items).WF C) (hab : b < a) (ha : a ≠ '-' ∧ a ≠ '\\') :
    parseBracket wa ('[' :: (if neg then ['^'] else []) ++ (items.map ReItem.text).flatten ++ a :: '-' :: b :: tl ++ [']']) =
      .error .valueError := by
  have hesc : ∀ c, ReItem.esc c ∈ items → ∃ cs, parseEscaped [] ['\\', c] = .ok cs ∧
      ∀ x, x ∈ cs ↔ EscMem (alphabetOr []) c x :=
    fun c hc => parseEscaped_spec [] (itemsWF_esc items _ _ hwf.1 hc)
  have hl : ∀ u : List Char, (u ++ [']']).getLast? = some ']' := by intro u; simp
  have key := bracketLoop_reversed (tl := tl ++ [']']) hab ha.1 ha.2 items hwf.1 hesc
  cases neg with
  | true =>
    have hl := hl ('[' :: '^' :: (items.map ReItem.text).flatten ++ a :: '-' :: b :: tl)
    simp only [if_true, List.cons_append, List.append_assoc, List.nil_append] at hl ⊢
    simp only [parseBracket, parseBracketWith, hl, and_self, not_true, if_false, List.head?_cons, if_true, List.tail_cons, key]
    rw [if_neg (by simp; omega)]
    rfl
  | false =>
    have hl := hl ('[' :: (items.map ReItem.text).flatten ++ a :: '-' :: b :: tl)
    simp only [Bool.false_eq_true, if_false, List.cons_append, List.append_assoc, List.nil_append] at hl ⊢
    simp only [parseBracket, parseBracketWith, hl, and_self, not_true, if_false, key]
    have hne : items ≠ [] := by simpa using hwf.2
    cases items with
    | nil => exact absurd rfl hne
    | cons i is =>
      have hhat : (((i :: is).map ReItem.text).flatten ++ a :: '-' :: b :: (tl ++ [']'])).head? ≠ some '^' := by
        have := hwf.1.1
        cases i <;> simp [ReItem.text, ReItem.WF] at this ⊢ <;> tauto
      rw [if_neg (by simp; omega), if_neg hhat]

/-- `[^-a-z\d_]` meets the hypotheses. -/
example : (ReText.bracket true [.one '-', .range 'a' 'z', .esc 'd', .one '_']).WF asciiClasses := by
  simp [ReText.WF, ItemsWF, ReItem.WF, escapes]
example : (ReText.bracket true [.one '-', .range 'a' 'z', .esc 'd', .one '_']).text = "[^-a-z\\d_]".toList := by decide
/-- A hyphen before the closing bracket is taken for a range. -/
example : parseBracket [] "[a-]".toList = .error .valueError := by decide

/-- **C83.** `parse_repetition` yields the bounds of the repetition. -/
theorem C83_repetition {C : ReClasses} (hC : C.Sound) {f : RepForm} (hf : f.WF C) :
    parseRepetition C f.text = .ok (f.lo C, f.hi C) :=
  parseRepetition_spec hC hf

/-- **C83.** In decimal notation. -/
theorem C83_decimal {C : ReClasses} (hC : C.Sound) (hD : C.Decimal) (m : Nat) :
    parseRepetition C ('{' :: Nat.toDigits 10 m ++ ['}']) = .ok (m, some m) ∧
    parseRepetition C ('{' :: Nat.toDigits 10 m ++ [',', '}']) = .ok (m, none) ∧
    ∀ n, parseRepetition C ('{' :: Nat.toDigits 10 m ++ ',' :: Nat.toDigits 10 n ++ ['}']) =
      if n < m then .error .valueError else .ok (m, some n) := by
  obtain ⟨h1, h2⟩ := toInt_toDigits hD m
  have h3 : Nat.toDigits 10 m ≠ [] := Nat.toDigits_ne_nil
  refine ⟨?_, ?_, fun n => ?_⟩
  · have := parseRepetition_spec hC (f := .exact [] (Nat.toDigits 10 m) []) ⟨rfl, h2, rfl, h3⟩
    simpa [RepForm.text, RepForm.lo, RepForm.hi, h1] using this
  · have := parseRepetition_spec hC (f := .range [] (Nat.toDigits 10 m) [] [] [] [])
      ⟨rfl, h2, rfl, h3, rfl, rfl, rfl, Or.inl rfl⟩
    simpa [RepForm.text, RepForm.lo, RepForm.hi, h1] using this
  · obtain ⟨k1, k2⟩ := toInt_toDigits hD n
    have k3 : Nat.toDigits 10 n ≠ [] := Nat.toDigits_ne_nil
    by_cases hn : n < m
    · rw [if_pos hn]
      have := parseRepetition_bad hC (s₁ := []) (s₂ := []) (s₃ := []) (s₄ := []) (d := Nat.toDigits 10 m)
        (d' := Nat.toDigits 10 n) rfl h2 rfl h3 rfl k2 rfl k3 (by rw [h1, k1]; exact hn)
      simpa using this
    · rw [if_neg hn]
      have := parseRepetition_spec hC (f := .range [] (Nat.toDigits 10 m) [] [] (Nat.toDigits 10 n) [])
        ⟨rfl, h2, rfl, h3, rfl, k2, rfl, Or.inr (by rw [h1, k1]; omega)⟩
      simpa [RepForm.text, RepForm.lo, RepForm.hi, h1, k1, k3] using this

/-- **C83.** Whatever the text, the bounds that are returned are ordered. -/
theorem C83_ordered {C : ReClasses} {s : List Char} {m n : Nat} (h : parseRepetition C s = .ok (m, some n)) : m ≤ n := by
  unfold parseRepetition at h
  split at h
  · simp only at h
    split at h
    · split at h <;> cases h
      exact Nat.le_refl _
    · split at h
      · split at h
        · cases h
        · split at h
          · cases h; exact Nat.zero_le _
          · split at h
            · cases h
            · rename_i hlt
              cases h
              exact Nat.not_lt.1 hlt
      · cases h
    · cases h
  · cases h

example : (RepForm.range [' '] ['1', '2'] [' '] [] ['3', '0'] [' ']).WF asciiClasses ∧
    (RepForm.range [' '] ['1', '2'] [' '] [] ['3', '0'] [' ']).text = "{ 12 ,30 }".toList := by
  refine ⟨⟨by decide, by decide, by decide, by decide, by decide, by decide, by decide, by decide⟩, by decide⟩

/-- **C84.** `tokenizer_re` loses no character, whatever the text: the tokens are the pieces of the text, in order, with
some `.` inserted. -/
theorem C84_lossless (C : ReClasses) (s : List Char) : Catified (tokenizerRe C s) s := by
  have := catified_pieces (pieces C s 0) (pieces_ne C s 0) {} [] .nil
  rw [pieces_flatten] at this
  rw [tokenizerRe_eq]
  simpa using this

theorem repContent_pattern {C : ReClasses} {body : List Char} (h : repContent C body = true) :
    ReToken C ('{' :: (body ++ ['}'])) := by
  have all_take : ∀ (p : Char → Bool) (l : List Char), (l.takeWhile p).all p = true := by
    intro p l
    induction l with
    | nil => rfl
    | cons c l ih => by_cases hc : p c = true <;> simp [List.takeWhile_cons, hc]
  have split : ∀ (p : Char → Bool) (l : List Char), ∃ a, l = a ++ l.dropWhile p ∧ a.all p = true ∧ a = l.takeWhile p :=
    fun p l => ⟨_, (List.takeWhile_append_dropWhile (p := p) (l := l)).symm, all_take p l, rfl⟩
  unfold repContent at h
  obtain ⟨s1, e1, a1, -⟩ := split C.space body
  obtain ⟨d1, e2, a2, t2⟩ := split C.digit (body.dropWhile C.space)
  obtain ⟨s2, e3, a3, -⟩ := split C.space ((body.dropWhile C.space).dropWhile C.digit)
  simp only [← t2] at h
  generalize body.dropWhile C.space = b1 at *
  generalize b1.dropWhile C.digit = b2 at *
  generalize b2.dropWhile C.space = b3 at *
  subst e1 e2 e3
  have fin : ∀ (b4 c s0 : List Char), s1 ++ (d1 ++ (s2 ++ b3)) = s1 ++ d1 ++ c ++ s0 ++ b4 →
      (c = [] ∨ ∃ r, r.all C.space = true ∧ c = r ++ [',']) → s0.all C.space = true →
      (!d1.isEmpty && (((b4.dropWhile C.space).dropWhile C.digit).dropWhile C.space).isEmpty) = true →
      ReToken C ('{' :: (s1 ++ (d1 ++ (s2 ++ b3)) ++ ['}'])) := by
    intro b4 c s0 hb hc hs0 h
    obtain ⟨s3, f1, g1, -⟩ := split C.space b4
    obtain ⟨d2, f2, g2, -⟩ := split C.digit (b4.dropWhile C.space)
    obtain ⟨s4, f3, g3, -⟩ := split C.space ((b4.dropWhile C.space).dropWhile C.digit)
    simp only [Bool.and_eq_true, Bool.not_eq_true', List.isEmpty_eq_false_iff, List.isEmpty_iff] at h
    rw [h.2, List.append_nil] at f3
    generalize b4.dropWhile C.space = b5 at *
    generalize b5.dropWhile C.digit = b6 at *
    subst f1 f2 f3
    rw [hb]
    by_cases hd : d2 = []
    · subst hd
      have := ReToken.rep (C := C) (s := s1) (d := d1) (c := c) (t := []) (s' := s0 ++ (s3 ++ b6)) a1 a2 h.1 hc (.inl rfl)
        (by simp only [List.all_append, hs0, g1, g3, Bool.and_self])
      simpa using this
    · have := ReToken.rep (C := C) (s := s1) (d := d1) (c := c) (t := s0 ++ s3 ++ d2) (s' := b6) a1 a2 h.1 hc
        (.inr ⟨s0 ++ s3, d2, by simp only [List.all_append, hs0, g1, Bool.and_self], g2, hd, rfl⟩) g3
      simpa using this
  match b3, h, fin with
  | ',' :: b4, h, fin => exact fin b4 (s2 ++ [',']) [] (by simp) (.inr ⟨s2, a3, rfl⟩) rfl h
  | [], h, fin => exact fin [] [] s2 (by simp) (.inl rfl) a3 h
  | x :: b4, h, fin =>
    by_cases hx : x = ','
    · subst hx; exact fin b4 (s2 ++ [',']) [] (by simp) (.inr ⟨s2, a3, rfl⟩) rfl h
    · refine fin (x :: b4) [] s2 (by simp) (.inl rfl) a3 ?_
      split at h
      · rename_i heq; simp at heq; exact absurd heq.1 hx
      · exact h

theorem matchAt_kind {C : ReClasses} {s : List Char} {n : Nat} (h : matchAt C s = some n) : ReToken C (s.take n) := by
  have upto : ∀ (p : Char) (cs : List Char), (cs.takeWhile (· ≠ p)).length < cs.length →
      cs.take ((cs.takeWhile (· ≠ p)).length + 1) = cs.takeWhile (· ≠ p) ++ [p] ∧ p ∉ cs.takeWhile (· ≠ p) := by
    intro p cs
    induction cs with
    | nil => simp
    | cons c cs ih =>
      intro hl
      by_cases hc : c = p
      · subst hc; simp
      · simp only [List.takeWhile_cons, ne_eq, hc, not_false_eq_true, decide_true, if_true, List.length_cons] at hl ⊢
        obtain ⟨a, b⟩ := ih (by simpa using hl)
        simp only [ne_eq] at a b
        refine ⟨by rw [List.take_succ_cons, a]; simp, ?_⟩
        intro hm
        rcases List.mem_cons.1 hm with h | h
        · exact hc h.symm
        · exact b h
  unfold matchAt at h
  split at h
  · cases h
  · rename_i c cs
    split at h
    · cases h; exact .chr c
    · split at h
      · rename_i hc; subst hc
        simp only at h
        split at h
        · rename_i hb
          cases h
          rw [List.take_succ_cons, (upto _ _ hb.1).1]
          exact repContent_pattern hb.2
        · cases h
      · split at h
        · rename_i hc; subst hc
          simp only at h
          split at h
          · rename_i hb
            cases h
            rw [List.take_succ_cons, (upto _ _ hb).1]
            exact .cls (upto _ _ hb).2
          · cases h
        · split at h
          · rename_i hc; subst hc
            split at h
            · split at h
              · rename_i hd; cases h; exact .esc hd
              · cases h
            · cases h
          · cases h

/-- **C84.** On any text, a token is a character, an escape sequence, a class or a repetition: nothing else is taken for
an operator. -/
theorem C84_token_kinds (C : ReClasses) (s : List Char) : ∀ t ∈ tokenizerRe C s, ReToken C t := by
  have hp : ∀ (s : List Char) (k : Nat), ∀ p ∈ pieces C s k, ∀ m, p = .tok m → ReToken C m := by
    intro s
    induction s with
    | nil => intro k p hp; simp [pieces] at hp
    | cons c cs ih =>
      intro k p hp m hm
      cases k with
      | succ k => exact ih k p (by simpa [pieces] using hp) m hm
      | zero =>
        rw [pieces] at hp
        split at hp
        · rename_i n hn
          rcases List.mem_cons.1 hp with rfl | hp
          · cases hm; exact matchAt_kind hn
          · exact ih _ p hp m hm
        · rcases List.mem_cons.1 hp with rfl | hp
          · cases hm
          · exact ih _ p hp m hm
  rw [tokenizerRe_eq]
  have hf : ∀ (ps : List Piece) (st : CatState), (∀ p ∈ ps, ∀ m, p = .tok m → ReToken C m) →
      (∀ t ∈ st.expression, ReToken C t) → ∀ t ∈ (ps.foldl catPiece st).expression, ReToken C t := by
    intro ps
    induction ps with
    | nil => intro st _ h; exact h
    | cons p ps ih =>
      intro st h1 h2
      rw [List.foldl_cons]
      apply ih _ (fun q hq => h1 q (by simp [hq]))
      intro t ht
      cases p with
      | chr c =>
        simp only [catPiece, catChar, List.mem_append, List.mem_singleton] at ht
        rcases ht with (ht | ht) | rfl
        · exact h2 t ht
        · split at ht
          · rw [List.mem_singleton.1 ht]; exact .chr _
          · cases ht
        · exact .chr c
      | tok m =>
        simp only [catPiece, catTok, List.mem_append, List.mem_singleton] at ht
        rcases ht with (ht | ht) | rfl
        · exact h2 t ht
        · split at ht
          · rw [List.mem_singleton.1 ht]; exact .chr _
          · cases ht
        · exact h1 _ (by simp) _ rfl
  exact hf _ _ (hp s 0) (by simp)

example : tokenizerRe asciiClasses ['a', '{', '}', '{', ' ', '2', ',', '}'] =
    [['a'], ['.'], ['{'], ['.'], ['}'], ['{', ' ', '2', ',', '}']] := by decide

/-- **C84.** The tokens of a regular expression, with the concatenation operator where it is implicit and nowhere else. -/
theorem C84_tokens {C : ReClasses} (hC : C.Sound) {e : ReText} (h : e.WF C) : tokenizerRe C e.text = e.tokens := by
  rw [tokenizerRe_text hC h, infix_tokens]

example : tokenizerRe asciiClasses "a(b|[c-e]{2}\\d)*f".toList =
    ["a", ".", "(", "b", "|", "[c-e]", "{2}", ".", "\\d", ")", "*", ".", "f"].map String.toList := by decide

/-- The English statement of C85: the automaton accepts the language of the text, read with the usual precedences. -/
def C85_statement : Prop :=
  ∀ (C : ReClasses), C.Sound → ∀ (order : List Char → List Char), (∀ l, (order l).Perm l) → ∀ (e : ReText), e.WF C →
    e.UsualParens → ¬ e.Symbol defaultAlphabet 'ε' → ∃ x, compileText C order [] e.text = .ok x ∧
      ∀ w, 'ε' ∉ w → (x.1.accepts w = true ↔ e.Lang C defaultAlphabet w)

/-- **C85 is false:** `a*{2}` is read as `(a{2})*`, hence its automaton rejects `a`. -/
theorem C85_compile_counterexample : ¬ C85_statement := by
  intro h
  obtain ⟨x, h1, h2⟩ := h asciiClasses asciiClasses_sound id (fun _ => .refl _)
    (.rep (.exact [] ['2'] []) (.star (.lit 'a')))
    (by refine ⟨⟨rfl, by decide, rfl, by decide⟩, by simp [ReText.WF]⟩) ⟨⟨trivial, by decide⟩, by decide⟩
    (by simp [ReText.Symbol])
  have h3 := (h2 ['a'] (by decide)).2 ⟨2, by decide, by decide, [['a'], []], rfl, by
    intro u hu
    simp only [List.mem_cons, List.not_mem_nil, or_false] at hu
    rcases hu with rfl | rfl
    · exact ⟨1, [['a']], rfl, by simp [ReText.Lang], rfl⟩
    · exact ⟨0, [], rfl, by simp, rfl⟩, rfl⟩
  have h4 : (match compileText asciiClasses id [] (ReText.rep (.exact [] ['2'] []) (.star (.lit 'a'))).text with
    | .ok x => x.1.accepts ['a']
    | .error _ => true) = false := by decide
  rw [h1] at h4
  simp only [h3] at h4
  cases h4

/-- **C85, partial.** For every regular expression with the parentheses required by the precedences of the library (`{m,n}` binds
tightest, then `*` and `+`, then `?`, concatenation, `|`), in which `e?` and `e{0,n}` are only applied to
expressions that may be skipped: `thompson_compile_nfa` returns an automaton whose language is that of the text, with the
given states as only initial and final ones, and `moore_determination` turns it into a DFA for the same language. Missing: the
other expressions, for which the statement is false in general. -/
theorem C85_compile_partial {C : ReClasses} (hC : C.Sound) {order : List Char → List Char} (hord : ∀ l, (order l).Perm l)
    {wa : List Char} {e : ReText} (hwf : e.WF C) (hp : e.Parens) (hn : wholeAlphabet wa = defaultAlphabet ∨ e.NoNegEsc)
    (hε : ¬ e.Symbol (wholeAlphabet wa) 'ε') (hs : (e.shape C).Safe) :
    ∃ g q f, compileText C order wa e.text = .ok (g, q, f) ∧ g.Single q f ∧
      (∀ w, g.Lang w ↔ e.Lang C (wholeAlphabet wa) w) ∧
      (∀ w, 'ε' ∉ w → (g.accepts w = true ↔ e.Lang C (wholeAlphabet wa) w)) ∧
      ∀ (complete : Bool) (pick : Nat → Nat) (order : Nat → List Char → List Char), (∀ t l, (order t l).Perm l) →
        ∃ dfa, Returns (Moore.run g complete pick order) (.ok dfa) ∧
          ∀ w, 'ε' ∉ w → (dfa.accepts w = true ↔ e.Lang C (wholeAlphabet wa) w) := by
  obtain ⟨r, h1, h2, h3, h4⟩ := compileText_eq hC hord (wholeAlphabet_eq wa) hwf hp hn hε
  have hs' : r.Safe := (erase_preds r).2.2.2.2.1 (by rw [h4]; exact hs)
  obtain ⟨g, q, f, k1, k2, _, k4, k5, k6⟩ := C34_compile_partial r h3 hs'
  refine ⟨g, q, f, h1.trans k1, k2, fun w => (k4 w).trans (h2 w), fun w hw => (k5 w hw).trans (h2 w), ?_⟩
  intro complete pick order hord
  obtain ⟨dfa, d1, d2⟩ := k6 complete pick order hord
  exact ⟨dfa, d1, fun w hw => (d2 w hw).trans (h2 w)⟩

/-- **C85.** The empty text is compiled to the empty word. -/
theorem C85_empty (C : ReClasses) (order : List Char → List Char) (wa : List Char) :
    ∃ g, compileText C order wa [] = .ok (g, 0, 0) ∧ ∀ w, g.Lang w ↔ w = [] := C34_empty_partial 'ε'

/-- `(ab|[x-z]+)?\d{2,3}`. -/
def sampleText : ReText :=
  .cat (.opt (.group (.alt (.cat (.lit 'a') (.lit 'b')) (.plus (.bracket false [.range 'x' 'z'])))))
    (.rep (.range [] ['2'] [] [] ['3'] []) (.esc 'd'))

/-- It meets the hypotheses. -/
example : sampleText.text = "(ab|[x-z]+)?\\d{2,3}".toList ∧ sampleText.WF asciiClasses ∧ sampleText.Parens ∧
    sampleText.NoNegEsc ∧ ¬ sampleText.Symbol defaultAlphabet 'ε' ∧ (sampleText.shape asciiClasses).Safe := by
  refine ⟨by decide, ?_, ?_, ?_, ?_, ?_⟩
  · refine ⟨⟨⟨?_, ?_⟩, ?_⟩, ?_, ?_⟩
    · simp [ReText.WF]
    · simp [ReText.WF]
    · simp [ReText.WF, ItemsWF, ReItem.WF]
    · exact ⟨by decide, by decide, by decide, by decide, by decide, by decide, by decide, by decide⟩
    · simp [ReText.WF, escapes]
  · simp [sampleText, ReText.Parens, ReText.level]
  · simp [sampleText, ReText.NoNegEsc]
  · rintro (((h | h) | h) | h)
    · revert h; simp [ReText.Symbol]
    · revert h; simp [ReText.Symbol]
    · obtain ⟨i, hi, hm⟩ := h
      simp only [List.mem_singleton] at hi
      subst hi
      revert hm
      simp only [ReItem.Mem]
      decide
    · have := escMem_inv h
      revert this
      simp [escapedSelf]
  · have h1 : toInt asciiClasses ['2'] = 2 := by decide
    have h2 : toInt asciiClasses ['3'] = 3 := by decide
    simp [sampleText, ReText.shape, Regex.Safe, Regex.Skippable, RepForm.lo, RepForm.hi, h1, h2]

/-- The English statement of C86. -/
def C86_statement : Prop :=
  ∀ (C : ReClasses) (order : List Char → List Char) (wa s : List Char),
    (∃ u v, tokenizerRe C s = u ++ v ∧ u.count ['('] < u.count [')']) ∨
      (tokenizerRe C s).count ['('] ≠ (tokenizerRe C s).count [')'] →
    ∃ e, compileText C order wa s = .error e

/-- **C86 is false:** `a(|b` is accepted; its automaton recognises the words of `(a|b)` followed by a parenthesis. -/
theorem C86_unbalanced_counterexample : ¬ C86_statement := by
  intro h
  obtain ⟨e, he⟩ := h asciiClasses id [] ['a', '(', '|', 'b'] (Or.inr (by decide))
  have h4 : (match compileText asciiClasses id [] ['a', '(', '|', 'b'] with
    | .ok x => x.1.accepts ['b', '(']
    | .error _ => false) = true := by decide
  rw [he] at h4
  cases h4

/-- **C86, partial.** A closing parenthesis that closes nothing is rejected by `shunting_yard_postfix`, whatever the operators
and whatever receives the output. -/
theorem C86_shunting_yard_partial {T O : Type} [DecidableEq T] {P : OpTable T} (hP : P.Sane) {sink : O → T → Except PyErr O}
    {u v : List T} {out : O} (h : u.count P.lpar < u.count P.rpar) :
    ∃ e, ShuntingYard.run P sink (u ++ v) out = .error e :=
  ShuntingYard.run_unbalanced hP h

/-- **C86, partial.** A closing parenthesis that closes nothing is rejected by `thompson_compile_nfa`. Missing: opening
parentheses that are not closed. -/
theorem C86_unbalanced_partial {C : ReClasses} {order : List Char → List Char} {wa s : List Char} {u v : List (List Char)}
    (ht : tokenizerRe C s = u ++ v) (h : u.count ['('] < u.count [')']) : ∃ e, compileText C order wa s = .error e := by
  obtain ⟨e, he⟩ := ShuntingYard.run_unbalanced (P := reTable) sane (sink := onPushText C order wa) (v := v) (out := [])
    (by convert h <;> rfl)
  refine ⟨e, ?_⟩
  have hs : s.isEmpty = false := by
    cases s with
    | nil =>
      have : tokenizerRe C [] = [] := rfl
      rw [this] at ht
      obtain ⟨rfl, rfl⟩ := List.append_eq_nil_iff.1 ht.symm
      simp at h
    | cons c s => rfl
  rw [compileText, if_neg (by simp [hs]), ht, he]
  rfl

example : ∃ u v, tokenizerRe asciiClasses "(a))b(".toList = u ++ v ∧ u.count ['('] < u.count [')'] :=
  ⟨(tokenizerRe asciiClasses "(a))b(".toList).take 4, (tokenizerRe asciiClasses "(a))b(".toList).drop 4, by simp, by decide⟩

end PyBGL
