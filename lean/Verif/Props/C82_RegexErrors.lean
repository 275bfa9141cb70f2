import Verif.Props.C82_RegexText

/-!
# C82, C83: the functions that parse the pieces of a regular expression, on every text
-/

namespace PyBGL
open RegexText

/-- **C82.** `parse_escaped` on every text that begins with a backslash: the supported escape sequences are accepted, a lone backslash raises an `IndexError`, and
every other text raises a `ValueError`. -/
theorem C82_escape_total (wa : List Char) (s : List Char) :
    (∀ c ∈ escapes, s = [c] → ∃ cs, parseEscaped wa ('\\' :: s) = .ok cs) ∧ (s = [] → parseEscaped wa ('\\' :: s) = .error .indexError) ∧
    (s ≠ [] → (∀ c ∈ escapes, s ≠ [c]) → parseEscaped wa ('\\' :: s) = .error .valueError) := by
  refine ⟨?_, ?_, ?_⟩
  · rintro c hc rfl
    obtain ⟨cs, h, _⟩ := parseEscaped_spec wa hc
    exact ⟨cs, h⟩
  · rintro rfl; rfl
  · intro h1 h2
    match s, h1, h2 with
    | [c], _, h2 =>
      have hc : c ∉ escapes := fun h => h2 c h rfl
      have e1 : c ∉ escapedSelf := by
        intro h
        exact hc (by simp only [escapedSelf, escapes, List.mem_cons, List.not_mem_nil, or_false] at h ⊢; tauto)
      have e2 : escapedSpecial c = none := by
        unfold escapedSpecial
        split <;> first | rfl | exact absurd (by simp [escapes]) hc
      have e3 : escapedBracket c = none := by
        unfold escapedBracket
        split <;> first | rfl | exact absurd (by simp [escapes]) hc
      unfold parseEscaped
      simp only
      rw [if_neg e1]
      split
      · rfl
      · rw [e2, e3]
    | a :: b :: t, _, _ => rfl

/-- **C82.** `parse_bracket` raises an `IndexError` on the empty text. -/
theorem C82_bracket_empty (wa : List Char) : parseBracket wa [] = .error .indexError := rfl

theorem bracketLoop_error {esc : List Char → Except PyErr (List Char)} (he : ∀ b e, esc ['\\', b] = .error e → e = .valueError) :
    ∀ (s : List Char) (last : Option Char) (acc : List Char) (e : PyErr), bracketLoop esc s last acc = .error e → e = .valueError := by
  intro s last acc
  induction s, last, acc using bracketLoop.induct esc with
  | case1 a b tl last acc h m hm => intro e h'; rw [bracketLoop, if_pos h] at h'; simp only [m] at hm; simp only [if_pos hm] at h'; cases h'; rfl
  | case2 a b tl last acc h m hm ih => intro e h'; rw [bracketLoop, if_pos h] at h'; simp only [m] at hm; simp only [if_neg hm] at h'; exact ih e h'
  | case3 b tl last acc e0 h1 he0 =>
    intro e h'
    rw [bracketLoop, if_neg h1, if_pos rfl] at h'
    simp only [he0] at h'
    cases h'
    exact he b _ he0
  | case4 b tl last acc cs h1 hcs ih =>
    intro e h'
    rw [bracketLoop, if_neg h1, if_pos rfl] at h'
    simp only [hcs] at h'
    exact ih e h'
  | case5 a b tl last acc h1 h2 ih => intro e h'; rw [bracketLoop, if_neg h1, if_neg h2] at h'; exact ih e h'
  | case6 s last acc hs =>
    intro e h'
    match s, hs with
    | [], _ => cases h'
    | [_], _ => cases h'
    | a :: b :: tl, hs => exact absurd rfl (hs a b tl)

/-- **C82.** `parse_bracket` raises no other exception: on a text that is not empty, it returns a set or raises a `ValueError`. -/
theorem C82_bracket_total (wa : List Char) {s : List Char} (hs : s ≠ []) : (∃ cs, parseBracket wa s = .ok cs) ∨ parseBracket wa s = .error .valueError := by
  have he : ∀ b e, parseEscaped [] ['\\', b] = .error e → e = .valueError := by
    intro b e h
    obtain ⟨h1, _, h3⟩ := C82_escape_total [] [b]
    by_cases hb : b ∈ escapes
    · obtain ⟨cs, h4⟩ := h1 b hb rfl
      rw [h4] at h; cases h
    · rw [h3 (by simp) (fun c hc hbc => hb (by cases hbc; exact hc))] at h
      cases h; rfl
  cases h : parseBracket wa s with
  | ok cs => exact .inl ⟨cs, rfl⟩
  | error e =>
    refine .inr ?_
    suffices e = .valueError by rw [this]
    unfold parseBracket parseBracketWith at h
    match s, hs with
    | c :: body, _ =>
      simp only at h
      split at h
      · cases h; rfl
      · split at h
        · cases h; rfl
        · split at h
          · cases hl : bracketLoop (parseEscaped []) body.tail none [] with
            | ok x => rw [hl] at h; cases h
            | error e' => rw [hl] at h; cases h; exact bracketLoop_error he _ _ _ _ hl
          · exact bracketLoop_error he _ _ _ _ h

/-- A repetition written with spaces where `\s*` allows them, and with numbers made of digits; the first bound of `{m, n}` may be missing, and the bounds may not
be ordered. -/
def RepForm.Loose (C : ReClasses) : RepForm → Prop
  | .exact s₁ d s₂ => s₁.all C.space ∧ d.all C.digit ∧ s₂.all C.space ∧ d ≠ []
  | .range s₁ d s₂ s₃ d' s₄ => s₁.all C.space ∧ d.all C.digit ∧ s₂.all C.space ∧ s₃.all C.space ∧ d'.all C.digit ∧ s₄.all C.space

theorem parseRepetition_loose {C : ReClasses} (hC : C.Sound) {f : RepForm} (hf : f.Loose C) (rest : List Char) :
    parseRepetition C (f.text ++ rest) = match f.hi C with
      | some n => if n < f.lo C then .error .valueError else .ok (f.lo C, some n)
      | none => .ok (f.lo C, none) := by
  cases f with
  | exact s₁ d s₂ =>
    obtain ⟨h1, h2, h3, h4⟩ := hf
    obtain ⟨k1, k2, k3⟩ := read_number hC (v := '}' :: rest) h1 h2 h3 h4
      (fun c hc => by simp at hc; subst hc; exact hC.brace)
    have : d.isEmpty = false := by simpa using h4
    have e : (RepForm.exact s₁ d s₂).text ++ rest = '{' :: (s₁ ++ (d ++ (s₂ ++ '}' :: rest))) := by simp [RepForm.text]
    rw [e]
    simp only [parseRepetition, k1, k2, k3, this, RepForm.lo, RepForm.hi]
    simp
  | range s₁ d s₂ s₃ d' s₄ =>
    obtain ⟨h1, h2, h3, h5, h6, h7⟩ := hf
    obtain ⟨k2, k3⟩ := read_number' hC (v := ',' :: (s₃ ++ (d' ++ (s₄ ++ '}' :: rest)))) h1 h2 h3
      (fun c hc => by simp at hc; subst hc; exact hC.comma)
    obtain ⟨j1, j2⟩ := read_number' hC (v := '}' :: rest) h5 h6 h7
      (fun c hc => by simp at hc; subst hc; exact hC.brace)
    have e : (RepForm.range s₁ d s₂ s₃ d' s₄).text ++ rest = '{' :: (s₁ ++ (d ++ (s₂ ++ ',' :: (s₃ ++ (d' ++ (s₄ ++ '}' :: rest)))))) := by
      simp [RepForm.text]
    rw [e]
    have hm : (if d = [] then 0 else toInt C d) = toInt C d := by
      cases d <;> rfl
    simp only [parseRepetition, k2, k3, j1, j2, RepForm.lo, RepForm.hi, List.isEmpty_iff, hm]
    by_cases hd' : d' = []
    · simp [hd']
    · simp only [hd', if_false]
      by_cases hlt : toInt C d' < toInt C d
      · exact (if_pos hlt).trans (if_pos hlt).symm
      · exact (if_neg hlt).trans (if_neg hlt).symm

theorem takeWhile_split (p : Char → Bool) (l : List Char) : l = l.takeWhile p ++ l.dropWhile p ∧ (l.takeWhile p).all p = true := by
  refine ⟨(List.takeWhile_append_dropWhile (p := p) (l := l)).symm, ?_⟩
  induction l with
  | nil => rfl
  | cons c l ih => by_cases hc : p c = true <;> simp [hc]

/-- A text whose beginning is not a repetition raises a `RuntimeError`. -/
theorem parseRepetition_not {C : ReClasses} {s : List Char} (h : ¬ ∃ f rest, s = RepForm.text f ++ rest ∧ f.Loose C) :
    parseRepetition C s = .error .runtimeError := by
  unfold parseRepetition
  split
  · rename_i s
    simp only
    obtain ⟨e1, a1⟩ := takeWhile_split C.space s
    obtain ⟨e2, a2⟩ := takeWhile_split C.digit (s.dropWhile C.space)
    obtain ⟨e3, a3⟩ := takeWhile_split C.space ((s.dropWhile C.space).dropWhile C.digit)
    split
    · rename_i rest hr
      split
      · rfl
      · rename_i hd
        refine absurd ⟨.exact (s.takeWhile C.space) ((s.dropWhile C.space).takeWhile C.digit)
          (((s.dropWhile C.space).dropWhile C.digit).takeWhile C.space), rest, ?_, a1, a2, a3, by simpa using hd⟩ h
        rw [hr] at e3
        simp only [RepForm.text, List.cons_append, List.append_assoc, List.nil_append, List.cons.injEq, true_and]
        rw [← e3, ← e2]
        exact e1
    · rename_i s' hr
      obtain ⟨f1, b1⟩ := takeWhile_split C.space s'
      obtain ⟨f2, b2⟩ := takeWhile_split C.digit (s'.dropWhile C.space)
      obtain ⟨f3, b3⟩ := takeWhile_split C.space ((s'.dropWhile C.space).dropWhile C.digit)
      split
      · rename_i rest hr'
        refine absurd ⟨.range (s.takeWhile C.space) ((s.dropWhile C.space).takeWhile C.digit)
          (((s.dropWhile C.space).dropWhile C.digit).takeWhile C.space) (s'.takeWhile C.space) ((s'.dropWhile C.space).takeWhile C.digit)
          (((s'.dropWhile C.space).dropWhile C.digit).takeWhile C.space), rest, ?_, a1, a2, a3, b1, b2, b3⟩ h
        rw [hr] at e3
        rw [hr'] at f3
        simp only [RepForm.text, List.cons_append, List.append_assoc, List.nil_append, List.cons.injEq, true_and]
        rw [← f3, ← f2, ← f1, ← e3, ← e2]
        exact e1
      · rfl
    · rfl
  · rfl

/-- **C83.** `parse_repetition` on every text: it looks for a repetition at the beginning of the text, ignores what follows, and returns its bounds; it raises
a `ValueError` if they are not ordered, and a `RuntimeError` if the text does not begin with a repetition. No other exception is raised. -/
theorem C83_total {C : ReClasses} (hC : C.Sound) (s : List Char) :
    (∀ m n, parseRepetition C s = .ok (m, n) ↔
      ∃ f rest, s = RepForm.text f ++ rest ∧ f.Loose C ∧ f.lo C = m ∧ f.hi C = n ∧ ∀ k, n = some k → m ≤ k) ∧
    (parseRepetition C s = .error .valueError ↔ ∃ f rest k, s = RepForm.text f ++ rest ∧ f.Loose C ∧ f.hi C = some k ∧ k < f.lo C) ∧
    (parseRepetition C s = .error .runtimeError ↔ ¬ ∃ f rest, s = RepForm.text f ++ rest ∧ f.Loose C) := by
  by_cases h : ∃ f rest, s = RepForm.text f ++ rest ∧ f.Loose C
  · obtain ⟨f, rest, rfl, hf⟩ := h
    have hv : ∀ f' rest', RepForm.text f ++ rest = RepForm.text f' ++ rest' → f'.Loose C →
        parseRepetition C (f.text ++ rest) = match f'.hi C with
        | some n => if n < f'.lo C then .error .valueError else .ok (f'.lo C, some n)
        | none => .ok (f'.lo C, none) := fun f' rest' e hf' => by rw [e]; exact parseRepetition_loose hC hf' rest'
    have hv0 := hv f rest rfl hf
    refine ⟨fun m n => ⟨fun hr => ?_, ?_⟩, ⟨fun hr => ?_, ?_⟩, ⟨fun hr => ?_, fun hn => absurd ⟨f, rest, rfl, hf⟩ hn⟩⟩
    · rw [hr] at hv0
      cases hh : f.hi C with
      | none =>
        rw [hh] at hv0; cases hv0
        exact ⟨f, rest, rfl, hf, rfl, hh, by simp⟩
      | some k =>
        rw [hh] at hv0
        simp only at hv0
        split at hv0
        · cases hv0
        · rename_i hk
          cases hv0
          exact ⟨f, rest, rfl, hf, rfl, hh, fun k' e => by cases e; omega⟩
    · rintro ⟨f', rest', e, hf', rfl, rfl, ho⟩
      rw [hv f' rest' e hf']
      cases hh : f'.hi C with
      | none => rfl
      | some k =>
        have := ho k hh
        simp only
        rw [if_neg (by omega)]
    · rw [hr] at hv0
      cases hh : f.hi C with
      | none => rw [hh] at hv0; cases hv0
      | some k =>
        rw [hh] at hv0
        simp only at hv0
        split at hv0
        · rename_i hk; exact ⟨f, rest, k, rfl, hf, hh, hk⟩
        · cases hv0
    · rintro ⟨f', rest', k, e, hf', hh, hk⟩
      rw [hv f' rest' e hf', hh]
      simp only
      rw [if_pos hk]
    · rw [hr] at hv0
      cases hh : f.hi C with
      | none => rw [hh] at hv0; cases hv0
      | some k =>
        rw [hh] at hv0
        simp only at hv0
        split at hv0 <;> cases hv0
  · have hr := parseRepetition_not h
    rw [hr]
    refine ⟨fun m n => ⟨(fun hr => by cases hr), ?_⟩, ⟨(fun hr => by cases hr), ?_⟩, ⟨fun _ => h, fun _ => rfl⟩⟩
    · rintro ⟨f, rest, e, hf, _⟩; exact absurd ⟨f, rest, e, hf⟩ h
    · rintro ⟨f, rest, k, e, hf, _⟩; exact absurd ⟨f, rest, e, hf⟩ h

example : asciiClasses.Sound ∧ parseRepetition asciiClasses "{,3}x".toList = .ok (0, some 3) ∧ parseRepetition asciiClasses "{,}".toList = .ok (0, none) ∧
    parseRepetition asciiClasses "{5, 3}".toList = .error .valueError ∧ parseRepetition asciiClasses "{}".toList = .error .runtimeError := by
  refine ⟨asciiClasses_sound, by decide, by decide, by decide, by decide⟩

end PyBGL
