import Verif.Model.ReEscape
import Verif.Proofs.RegexSyntax

namespace PyBGL
open RegexText

namespace ReEscape

/-- The expression for one character. -/
def atom (c : Char) : ReText := if c ∉ reEscaped then .lit c else .esc c

/-- The expression for a word that is not empty. -/
def word (e : ReText) (s : List Char) : ReText := s.foldl (fun e c => .cat e (atom c)) e

theorem atom_text (c : Char) : (atom c).text = reEscape [c] := by
  unfold atom reEscape
  split <;> simp [ReText.text, *]

theorem word_text (e : ReText) (s : List Char) : (word e s).text = e.text ++ reEscape s := by
  induction s generalizing e with
  | nil => simp [word, reEscape]
  | cons c s ih =>
    show (word (.cat e (atom c)) s).text = _
    rw [ih, ReText.text, atom_text]
    simp [reEscape]

theorem word_wf {C : ReClasses} {e : ReText} (he : e.WF C) {s : List Char} (hs : ∀ c ∈ s, (atom c).WF C) : (word e s).WF C := by
  induction s generalizing e with
  | nil => exact he
  | cons c s ih => exact ih (e := .cat e (atom c)) ⟨he, hs c (by simp)⟩ fun x hx => hs x (by simp [hx])

theorem atom_wf (C : ReClasses) {c : Char} (h : c ≠ '^' ∧ c ≠ '$' ∧ c ≠ '\\') : (atom c).WF C := by
  unfold atom
  split
  · rename_i hc
    simp only [reEscaped, List.mem_cons, List.not_mem_nil, or_false, not_or] at hc
    simp only [ReText.WF, List.mem_cons, List.not_mem_nil, or_false, not_or]
    tauto
  · rename_i hc
    simp only [reEscaped, List.mem_cons, List.not_mem_nil, or_false, not_not] at hc
    simp only [ReText.WF, escapes, List.mem_cons, List.not_mem_nil, or_false]
    tauto

theorem atom_level (c : Char) : (atom c).level = 4 ∧ (atom c).Parens ∧ (atom c).NoNegEsc := by
  unfold atom
  split <;> simp [ReText.level, ReText.Parens, ReText.NoNegEsc]

theorem word_parens {e : ReText} (he : 1 ≤ e.level ∧ e.Parens ∧ e.NoNegEsc) (s : List Char) : 1 ≤ (word e s).level ∧ (word e s).Parens ∧ (word e s).NoNegEsc := by
  induction s generalizing e with
  | nil => exact he
  | cons c s ih =>
    obtain ⟨a1, a2, a3⟩ := atom_level c
    exact ih (e := .cat e (atom c)) ⟨by simp [ReText.level], ⟨he.2.1, a2, he.1, by omega⟩, he.2.2, a3⟩

theorem atom_lang (C : ReClasses) (S : List Char) {c : Char} (h : c ≠ '^' ∧ c ≠ '$' ∧ c ≠ '\\') (w : List Char) : (atom c).Lang C S w ↔ w = [c] := by
  unfold atom
  split
  · rfl
  · rename_i hc
    simp only [reEscaped, List.mem_cons, List.not_mem_nil, or_false, not_not] at hc
    have hself : c ∈ ['+', '*', '?', '.', '|', '[', ']', '(', ')', '{', '}'] := by
      simp only [List.mem_cons, List.not_mem_nil, or_false]; tauto
    constructor
    · rintro ⟨x, hx, rfl⟩
      have : x = c := by
        cases hx with
        | self _ => rfl
        | _ => exact absurd hself (by decide)
      rw [this]
    · rintro rfl
      exact ⟨c, .self hself, rfl⟩

theorem atom_symbol (S : List Char) {c a : Char} (h : c ≠ '^' ∧ c ≠ '$' ∧ c ≠ '\\') : (atom c).Symbol S a ↔ a = c := by
  have := atom_lang ⟨fun _ => false, fun _ => false, fun _ => 0⟩ S h [a]
  unfold atom at this ⊢
  split
  · simp [ReText.Symbol]
  · rename_i hc
    rw [if_neg hc] at this
    simpa [ReText.Lang, ReText.Symbol] using this

theorem word_lang (C : ReClasses) (S : List Char) {e : ReText} {u : List Char} (he : ∀ w, e.Lang C S w ↔ w = u) {s : List Char}
    (hs : ∀ c ∈ s, c ≠ '^' ∧ c ≠ '$' ∧ c ≠ '\\') (w : List Char) : (word e s).Lang C S w ↔ w = u ++ s := by
  induction s generalizing e u with
  | nil => simpa [word] using he w
  | cons c s ih =>
    have := ih (e := .cat e (atom c)) (u := u ++ [c]) (fun w => by
      simp only [ReText.Lang, he, atom_lang C S (hs c (by simp))]
      constructor
      · rintro ⟨x, y, rfl, rfl, rfl⟩; rfl
      · rintro rfl; exact ⟨_, _, rfl, rfl, rfl⟩) fun x hx => hs x (by simp [hx])
    rw [show word e (c :: s) = word (.cat e (atom c)) s from rfl, this]
    simp

theorem word_symbol (S : List Char) {e : ReText} {a : Char} (he : ¬ e.Symbol S a) {s : List Char} (hs : ∀ c ∈ s, c ≠ '^' ∧ c ≠ '$' ∧ c ≠ '\\') (ha : a ∉ s) :
    ¬ (word e s).Symbol S a := by
  induction s generalizing e with
  | nil => exact he
  | cons c s ih =>
    refine ih (e := .cat e (atom c)) ?_ (fun x hx => hs x (by simp [hx])) fun h => ha (by simp [h])
    rintro (h | h)
    · exact he h
    · rw [atom_symbol S (hs c (by simp))] at h
      exact ha (by simp [h])

theorem word_safe (C : ReClasses) {e : ReText} (he : (e.shape C).Safe) (s : List Char) : ((word e s).shape C).Safe := by
  induction s generalizing e with
  | nil => exact he
  | cons c s ih =>
    refine ih (e := .cat e (atom c)) ⟨he, ?_⟩
    unfold atom
    split <;> trivial

/-- If the remaining operators can all be given to the output, those that precede another operator can. -/
theorem popPreceding_ok {T O : Type} [DecidableEq T] (P : OpTable T) (sink : O → T → Except PyErr O) (a : T) :
    ∀ (ops : List T) (out x : O), ops.foldlM sink out = .ok x → ∃ y, ShuntingYard.popPreceding P sink a ops out = .ok y
  | [], out, x, _ => ⟨_, rfl⟩
  | o :: ops, out, x, h => by
    unfold ShuntingYard.popPreceding
    split
    · rw [List.foldlM_cons] at h
      obtain ⟨out', h1, h2⟩ := except_bind_ok.mp h
      obtain ⟨y, hy⟩ := popPreceding_ok P sink a ops out' x h2
      exact ⟨y, by rw [h1]; exact hy⟩
    · exact ⟨_, rfl⟩

theorem backslash_error (C : ReClasses) (order : List Char → List Char) (wa : List Char) (s : List (List Char) × List (Thompson.Frag Char)) :
    ShuntingYard.step reTable (onPushText C order wa) s ['\\'] = .error .indexError := by
  rfl

/-- The pieces of a text that begins with a backslash which is not that of an escape sequence. -/
theorem pieces_backslash (C : ReClasses) {c : Char} (hc : c ∉ escapable) (v : List Char) : pieces C ('\\' :: c :: v) 0 = .chr '\\' :: pieces C (c :: v) 0 := by
  have : matchAt C ('\\' :: c :: v) = none := by simp [matchAt, singles, hc]
  rw [pieces, this]

/-- A text that begins with a lone backslash. -/
theorem error_first (C : ReClasses) (order : List Char → List Char) (wa : List Char) {c : Char} (hc : c ∉ escapable) (v : List Char) :
    compileText C order wa ('\\' :: c :: v) = .error .indexError := by
  obtain ⟨w, hw⟩ := expression_grows (catPiece {} (.chr '\\')) (pieces C (c :: v) 0)
  have ht : tokenizerRe C ('\\' :: c :: v) = ['\\'] :: w := by
    rw [tokenizerRe_eq, pieces_backslash C hc, List.foldl_cons, hw]
    rfl
  unfold compileText ShuntingYard.run
  rw [ht, List.foldlM_cons, backslash_error]
  rfl

/-- A lone backslash after an expression that is accepted. -/
theorem error_after {C : ReClasses} (hC : C.Sound) (order : List Char → List Char) (wa : List Char) {e : ReText} (he : e.WF C) (hne : e.text ≠ []) {x : Thompson.Frag Char}
    (hx : compileText C order wa e.text = .ok x) {c : Char} (hc : c ∉ escapable) (v : List Char) :
    compileText C order wa (e.text ++ '\\' :: c :: v) = .error .indexError := by
  obtain ⟨w, hw⟩ := expression_grows (catPiece ⟨(toInfix e).text reTable, true⟩ (.chr '\\')) (pieces C (c :: v) 0)
  have ht : tokenizerRe C (e.text ++ '\\' :: c :: v) = tokenizerRe C e.text ++ ['.'] :: ['\\'] :: w := by
    rw [tokenizerRe_eq, foldl_text hC e he, pieces_backslash C hc, List.foldl_cons, tokenizerRe_text hC he]
    simp only [List.nil_append, Bool.false_eq_true, if_false]
    rw [hw]
    simp [catPiece, catChar]
  unfold compileText at hx ⊢
  rw [if_neg (by simpa using hne)] at hx
  rw [if_neg (by simp)]
  obtain ⟨nfas, h1, -⟩ := except_bind_ok.mp hx
  unfold ShuntingYard.run at h1 ⊢
  obtain ⟨st, h2, h3⟩ := except_bind_ok.mp h1
  obtain ⟨y, hy⟩ := popPreceding_ok reTable (onPushText C order wa) ['.'] st.1 st.2 nfas h3
  have hdot : ShuntingYard.step reTable (onPushText C order wa) st ['.'] = .ok (['.'] :: y.1, y.2) := by
    have : reTable.ops.contains ['.'] = true := by decide
    unfold ShuntingYard.step
    rw [if_neg (by decide), if_neg (by decide), if_pos this, hy]
    rfl
  rw [ht, List.foldlM_append, h2]
  simp only [bind, Except.bind, List.foldlM_cons, hdot, backslash_error]

end ReEscape
end PyBGL
