import Verif.Proofs.ReEscape
import Verif.Props.C25_C28_Nfa
import Verif.Props.C82_RegexText

/-!
# C145: the text escaped by `re_escape` is a regular expression for this text
-/

namespace PyBGL
open RegexText ReEscape

/-- "Whatever the text `s`, `compile_nfa(re_escape(s))` returns an automaton that accepts `s` and nothing else." -/
def C145_statement : Prop :=
  ∀ (C : ReClasses), C.Sound → ∀ (order : List Char → List Char), (∀ l, (order l).Perm l) → ∀ (wa s : List Char), 'ε' ∉ s →
    ∃ g q f, compileText C order wa (reEscape s) = .ok (g, q, f) ∧ ∀ w, 'ε' ∉ w → (g.accepts w = true ↔ w = s)

/-- **C145, partial.** For every text without `^`, `$` and backslash, `thompson_compile_nfa(re_escape(s))` returns an automaton that accepts `s` and nothing else,
and `moore_determination` turns it into a DFA that does the same. (`ε` is the label of the transitions that read nothing.) Missing: the other texts, for which the statement is
false, see `C145_exact`. -/
theorem C145_literal_partial {C : ReClasses} (hC : C.Sound) {order : List Char → List Char} (hord : ∀ l, (order l).Perm l) (wa : List Char) {s : List Char}
    (hs : ∀ c ∈ s, c ≠ '^' ∧ c ≠ '$' ∧ c ≠ '\\') (hε : 'ε' ∉ s) :
    ∃ g q f, compileText C order wa (reEscape s) = .ok (g, q, f) ∧ (∀ w, g.Lang w ↔ w = s) ∧ (∀ w, 'ε' ∉ w → (g.accepts w = true ↔ w = s)) ∧
      ∀ (complete : Bool) (pick : Nat → Nat) (order : Nat → List Char → List Char), (∀ t l, (order t l).Perm l) →
        ∃ dfa, Returns (Moore.run g complete pick order) (.ok dfa) ∧ ∀ w, 'ε' ∉ w → (dfa.accepts w = true ↔ w = s) := by
  cases s with
  | nil =>
    obtain ⟨g, h1, h2⟩ := C85_empty C order wa
    have h3 : g = (Nfa.init 'ε' [] 1).setFinal 0 := by
      have : compileText C order wa [] = .ok ((Nfa.init 'ε' [] 1).setFinal 0, 0, 0) := rfl
      rw [this] at h1; cases h1; rfl
    have hr : g.Reachable := ⟨'ε', [], [.addVertex, .setFinal 0 true], by rw [h3]; rfl⟩
    have hg : g.eps = 'ε' := by rw [h3]; rfl
    refine ⟨g, 0, 0, h1, h2, fun w hw => (C26_accepts hr (hg ▸ hw)).trans (h2 w), fun complete pick order' ho => ?_⟩
    obtain ⟨d, d1, d2⟩ := C27_moore hr complete pick order' ho
    exact ⟨d, d1, fun w hw => by rw [(d2 w (hg ▸ hw)).1, C26_accepts hr (hg ▸ hw)]; exact h2 w⟩
  | cons c s =>
    have hc := hs c (by simp)
    have hs' : ∀ x ∈ s, x ≠ '^' ∧ x ≠ '$' ∧ x ≠ '\\' := fun x hx => hs x (by simp [hx])
    have hl : ∀ w, (word (atom c) s).Lang C (wholeAlphabet wa) w ↔ w = c :: s :=
      word_lang C _ (u := [c]) (atom_lang C _ hc) hs'
    have ht : reEscape (c :: s) = (word (atom c) s).text := by rw [word_text, atom_text]; simp [reEscape]
    obtain ⟨a1, a2, a3⟩ := atom_level c
    obtain ⟨-, p2, p3⟩ := word_parens ⟨by omega, a2, a3⟩ s
    have hsafe : ((atom c).shape C).Safe := by unfold atom; split <;> trivial
    obtain ⟨g, q, f, h1, -, h3, h4, h5⟩ := C85_compile_partial hC hord (wa := wa) (word_wf (atom_wf C hc) fun x hx => atom_wf C (hs' x hx)) p2 (.inr p3)
      (word_symbol _ (by rw [atom_symbol _ hc]; rintro rfl; exact hε (by simp)) hs' fun h => hε (by simp [h])) (word_safe C hsafe s)
    refine ⟨g, q, f, by rw [ht]; exact h1, fun w => (h3 w).trans (hl w), fun w hw => (h4 w hw).trans (hl w), fun complete pick order' ho => ?_⟩
    obtain ⟨d, d1, d2⟩ := h5 complete pick order' ho
    exact ⟨d, d1, fun w hw => (d2 w hw).trans (hl w)⟩

/-- **C145** (exact): `thompson_compile_nfa(re_escape(s))` raises `IndexError` if `s` holds `^`, `$` or a backslash, and otherwise returns an automaton that accepts `s` and
nothing else. -/
theorem C145_exact {C : ReClasses} (hC : C.Sound) {order : List Char → List Char} (hord : ∀ l, (order l).Perm l) (wa : List Char) {s : List Char} (hε : 'ε' ∉ s) :
    ((∃ c ∈ s, c = '^' ∨ c = '$' ∨ c = '\\') → compileText C order wa (reEscape s) = .error .indexError) ∧
    ((∀ c ∈ s, c ≠ '^' ∧ c ≠ '$' ∧ c ≠ '\\') →
      ∃ g q f, compileText C order wa (reEscape s) = .ok (g, q, f) ∧ ∀ w, 'ε' ∉ w → (g.accepts w = true ↔ w = s)) := by
  constructor
  · rintro hex
    obtain ⟨u, c, t, rfl, hu, hc⟩ : ∃ u c t, s = u ++ c :: t ∧ (∀ x ∈ u, x ≠ '^' ∧ x ≠ '$' ∧ x ≠ '\\') ∧ (c = '^' ∨ c = '$' ∨ c = '\\') := by
      clear hε
      induction s with
      | nil => simp at hex
      | cons a s ih =>
        by_cases ha : a = '^' ∨ a = '$' ∨ a = '\\'
        · exact ⟨[], a, s, rfl, by simp, ha⟩
        · obtain ⟨u, c, t, rfl, h2, h3⟩ := ih (by
            obtain ⟨x, hx, hx'⟩ := hex
            rcases List.mem_cons.mp hx with rfl | hx
            · exact absurd hx' ha
            · exact ⟨x, hx, hx'⟩)
          refine ⟨a :: u, c, t, rfl, fun x hx => ?_, h3⟩
          rcases List.mem_cons.mp hx with rfl | hx
          · tauto
          · exact h2 x hx
    have hce : c ∉ escapable := by rcases hc with rfl | rfl | rfl <;> decide
    have hcr : c ∈ reEscaped := by rcases hc with rfl | rfl | rfl <;> decide
    have hr : reEscape (u ++ c :: t) = reEscape u ++ '\\' :: c :: reEscape t := by simp [reEscape, hcr]
    rw [hr]
    cases u with
    | nil => exact error_first C order wa hce _
    | cons a u =>
      have hεu : 'ε' ∉ a :: u := fun h => hε (by simp at h ⊢; tauto)
      obtain ⟨g, q, f, h1, -⟩ := C145_literal_partial hC hord wa hu hεu
      have ht : reEscape (a :: u) = (word (atom a) u).text := by rw [word_text, atom_text]; simp [reEscape]
      rw [ht] at h1 ⊢
      refine error_after hC order wa (word_wf (atom_wf C (hu a (by simp))) fun x hx => atom_wf C (hu x (by simp [hx]))) ?_ h1 hce _
      rw [← ht]
      simp only [reEscape, List.flatMap_cons]
      split <;> simp
  · intro h
    obtain ⟨g, q, f, h1, -, h3, -⟩ := C145_literal_partial hC hord wa h hε
    exact ⟨g, q, f, h1, h3⟩

/-- **C145** (refuted): `compile_nfa(re_escape("^"))` raises `IndexError`. -/
theorem C145_counterexample : ¬ C145_statement := by
  intro h
  obtain ⟨g, q, f, h1, -⟩ := h asciiClasses asciiClasses_sound id (fun _ => .refl _) [] ['^'] (by decide)
  rw [(C145_exact asciiClasses_sound (order := id) (fun _ => .refl _) [] (by decide)).1 ⟨'^', by simp, .inl rfl⟩] at h1
  cases h1

/-- **C145**: different texts have different escaped texts, and a character of the text is left as it is unless it is one of `|[]{}.+*?()^$` or a backslash, which is then
preceded by a backslash. -/
theorem C145_injective : Function.Injective reEscape ∧
    ∀ s t, reEscape (s ++ t) = reEscape s ++ reEscape t ∧ ((∀ c ∈ s, c ∉ ['|', '[', ']', '{', '}', '.', '+', '*', '?', '(', ')', '^', '$', '\\']) → reEscape s = s) := by
  refine ⟨fun s => ?_, fun s t => ⟨by simp [reEscape], fun h => ?_⟩⟩
  · induction s with
    | nil =>
      intro t h
      cases t with
      | nil => rfl
      | cons b t =>
        simp only [reEscape, List.flatMap_nil, List.flatMap_cons] at h
        split at h <;> simp at h
    | cons a s ih =>
      intro t h
      cases t with
      | nil =>
        simp only [reEscape, List.flatMap_nil, List.flatMap_cons] at h
        split at h <;> simp at h
      | cons b t =>
        have hb : '\\' ∈ reEscaped := by decide
        simp only [reEscape, List.flatMap_cons] at h
        have key : a = b ∧ reEscape s = reEscape t := by
          by_cases h1 : a ∈ reEscaped <;> by_cases h2 : b ∈ reEscaped <;> simp [h1, h2] at h
          · simpa [reEscape] using h
          · exact absurd (h.1 ▸ hb) h2
          · exact absurd (h.1 ▸ hb) h1
          · simpa [reEscape] using h
        rw [key.1, ih key.2]
  · induction s with
    | nil => rfl
    | cons a s ih =>
      have ha : a ∉ reEscaped := h a (by simp)
      have := ih fun c hc => h c (by simp [hc])
      simp only [reEscape, List.flatMap_cons, ha, not_false_eq_true, if_true, List.cons_append, List.nil_append, List.cons.injEq, true_and]
      exact this

/-- The hypotheses are met: `(a.b)+`. -/
example : reEscape ['(', 'a', '.', 'b', ')', '+'] = ['\\', '(', 'a', '\\', '.', 'b', '\\', ')', '\\', '+'] ∧
    (∀ c ∈ ['(', 'a', '.', 'b', ')', '+'], c ≠ '^' ∧ c ≠ '$' ∧ c ≠ '\\') ∧ 'ε' ∉ ['(', 'a', '.', 'b', ')', '+'] := by decide

end PyBGL
