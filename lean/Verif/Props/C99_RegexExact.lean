import Verif.Proofs.ThompsonEnds
import Verif.Props.C82_RegexText

/-!
# C99: exact languages of the optional and bounded operators
-/

namespace PyBGL
variable {A : Type} [DecidableEq A]
open Thompson RegexText

theorem Nfa.Single.fre {g : Nfa A} {q f : Nat} (h : g.Single q f) :
    Nfa.FrE g.eps (g, q, f) (fun a b w => WPath g.Trans g.eps (Nfa.corner (g, q, f) a) w (Nfa.corner (g, q, f) b)) := by
  refine ⟨h, rfl, fun a b w => ?_⟩
  have : g.T = g.Trans := by
    funext x a y; exact propext (Nfa.trans_iff h.wf _ _ _).symm
  rw [this]

/-- **C99.** Whatever the automaton, `zero_or_one` accepts the words that the automaton accepts, and the words made of a word read from the
initial state to itself, then of words read from the final state to the initial one, then of a word read from the final state to itself. -/
theorem C99_zero_or_one {g : Nfa A} {q f : Nat} (h : g.Single q f) :
    ∃ g', zeroOrOne (g, q, f) = (g', q, f) ∧ g'.Single q f ∧ g'.eps = g.eps ∧
      ∀ w, g'.Lang w ↔ g.Lang w ∨ ∃ (u : List A) (ws : List (List A)) (v : List A), WPath g.Trans g.eps q u q ∧
        (∀ x ∈ ws, WPath g.Trans g.eps f x q) ∧ WPath g.Trans g.eps f v f ∧ w = u ++ ws.flatten ++ v := by
  obtain ⟨h1, _⟩ := Nfa.fre_opt h.fre
  refine ⟨_, rfl, h1.single, h1.eps_eq, fun w => ?_⟩
  refine (h1.fr.toLang w).trans (or_congr ?_ Iff.rfl)
  exact (h.fre.fr.toLang w).symm

/-- **C99.** `repetition_range(nfa, 0, n)` with `2 ≤ n`, for an automaton whose initial state is the vertex `0`, accepts the words of `L^k`
for `k ≤ n` and the words read from the final state to itself. -/
theorem C99_range_zero {g : Nfa A} {f : Nat} (h : g.Single 0 f) {n : Nat} (hn : 2 ≤ n) :
    ∃ g' q' f', repetitionRange g.eps (g, 0, f) 0 (some n) = .ok (g', q', f') ∧ g'.Single q' f' ∧ g'.eps = g.eps ∧
      ∀ w, g'.Lang w ↔ (∃ k, k ≤ n ∧ Pow g.Lang k w) ∨ WPath g.Trans g.eps f w f := by
  obtain ⟨⟨g', q', f'⟩, a1, a2, _⟩ := Nfa.fre_range_some h.fre (m := 0) (n := n) (by omega) (fun _ _ => rfl)
  rw [if_neg (by omega), if_neg (by omega)] at a2
  refine ⟨g', q', f', a1, a2.single, a2.eps_eq, fun w => (a2.fr.toLang w).trans ?_⟩
  have hl : ∀ w, WPath g.Trans g.eps 0 w f ↔ g.Lang w := by
    exact fun w => (h.fre.fr.toLang w).symm
  simp only [Ends.range, Nfa.corner, true_and, Nat.zero_le, Pow.congr hl]

omit [DecidableEq A] in
theorem Pow.mono {L L' : List A → Prop} (h : ∀ w, L w → L' w) {k : Nat} {w : List A} (hw : Pow L k w) : Pow L' k w := by
  obtain ⟨ws, h1, h2, h3⟩ := hw
  exact ⟨ws, h1, fun u hu => h u (h2 u hu), h3⟩

/-- The words read from an end to itself. -/
theorem Regex.ends_nil (e : Regex A) (b : Bool) : e.Ends b b [] := by
  have hrep : ∀ (P : PyBGL.Ends A) (m : Nat), (∀ b, P b b []) → ∀ b, PyBGL.Ends.rep P m b b [] := by
    intro P m hP b
    match m with
    | 0 => rfl
    | 1 => exact hP b
    | m + 2 =>
      cases b with
      | false =>
        have := (Nfa.rep_ends (P := P) (m + 2)).2.1 []
        rw [this, if_neg (by omega)]; exact hP false
      | true => exact hP true
  induction e generalizing b with
  | sym _ => cases b <;> rfl
  | chars _ => cases b <;> rfl
  | cat e₁ e₂ h1 h2 =>
    cases b
    · exact h1 false
    · exact h2 true
  | alt _ _ _ _ => cases b <;> rfl
  | opt e h => exact .inl (h b)
  | star e h => exact ⟨0, Pow.zero_iff.2 rfl⟩
  | plus e h => cases b <;> exact ⟨0, Pow.zero_iff.2 rfl⟩
  | rep m n e h =>
    cases n with
    | none =>
      simp only [Regex.Ends]
      split
      · exact ⟨0, Pow.zero_iff.2 rfl⟩
      · split
        · cases b <;> exact ⟨0, Pow.zero_iff.2 rfl⟩
        · cases b
          · exact hrep _ _ h false
          · exact ⟨0, Pow.zero_iff.2 rfl⟩
    | some n =>
      simp only [Regex.Ends]
      split
      · exact .inl (h b)
      · split
        · exact hrep _ _ h b
        · cases b
          · simp only [Ends.range]
            split
            · trivial
            · exact h false
          · exact h true

/-- The language of an expression is included in the words that its automaton accepts. -/
theorem Regex.ends_of_lang (e : Regex A) (eps : A) (hv : e.Valid eps) {w : List A} (h : e.Lang w) : e.Ends false true w := by
  induction e generalizing w with
  | sym _ => exact h
  | chars _ => exact h
  | cat e₁ e₂ h1 h2 =>
    obtain ⟨u, v, rfl, hu, hv'⟩ := h
    exact ⟨u, v, rfl, h1 hv.1 hu, h2 hv.2 hv'⟩
  | alt e₁ e₂ h1 h2 => exact h.imp (h1 hv.1) (h2 hv.2)
  | opt e ih =>
    rcases h with rfl | h
    · exact .inr ⟨[], [], [], e.ends_nil false, by simp, e.ends_nil true, rfl⟩
    · exact .inl (ih hv h)
  | star e ih => obtain ⟨k, hk⟩ := h; exact ⟨k, hk.mono (fun w => ih hv)⟩
  | plus e ih => obtain ⟨k, h1, hk⟩ := h; exact ⟨k, h1, hk.mono (fun w => ih hv)⟩
  | rep m n e ih =>
    cases n with
    | none =>
      obtain ⟨k, h1, hk⟩ := h
      have hk' := hk.mono (fun w => ih hv)
      simp only [Regex.Ends]
      split
      · exact ⟨k, hk'⟩
      · split
        · exact ⟨k, by omega, hk'⟩
        · rw [show k = (m - 1) + (k - (m - 1)) by omega, Pow.add_iff] at hk'
          obtain ⟨u, v, rfl, hu, hv'⟩ := hk'
          exact ⟨u, v, rfl, ((Nfa.rep_ends (m - 1)).1 u).2 hu, k - (m - 1), by omega, hv'⟩
    | some n =>
      obtain ⟨k, h1, h2, hk⟩ := h
      have hk' := hk.mono (fun w => ih hv.2)
      simp only [Regex.Ends]
      split
      · rename_i h01
        obtain ⟨rfl, rfl⟩ := h01
        match k, h2 with
        | 0, _ =>
          obtain rfl := Pow.zero_iff.1 hk'
          exact .inr ⟨[], [], [], e.ends_nil false, by simp, e.ends_nil true, rfl⟩
        | 1, _ => exact .inl (Pow.one_iff.1 hk')
      · split
        · obtain rfl : k = m := by omega
          exact ((Nfa.rep_ends k).1 w).2 hk'
        · exact .inl ⟨k, h1, h2, hk'⟩

/-- **C99.** The NFA compiled from a postfix expression, and the DFA obtained from it, accept exactly the words read from the initial to the final state according to
`Regex.Ends`; among them are all the words of the language of the expression. -/
theorem C99_compile {eps : A} (e : Regex A) (hv : e.Valid eps) (hs : e.Regular) :
    ∃ g q f, compile eps e.toPostfix = .ok (g, q, f) ∧ g.Single q f ∧ g.eps = eps ∧ (∀ w, g.Lang w ↔ e.Ends false true w) ∧
      (∀ w, e.Lang w → g.Lang w) ∧
      (∀ w, eps ∉ w → (g.accepts w = true ↔ e.Ends false true w)) ∧
      ∀ (complete : Bool) (pick : Nat → Nat) (order : Nat → List A → List A), (∀ t l, (order t l).Perm l) →
        ∃ dfa, Returns (Moore.run g complete pick order) (.ok dfa) ∧
          ∀ w, eps ∉ w → (dfa.accepts w = true ↔ e.Ends false true w) := by
  obtain ⟨⟨g, q, f⟩, h1, h2⟩ := Nfa.compileE_spec e hv hs
  refine ⟨g, q, f, h1, h2.single, h2.eps_eq, h2.fr.toLang, fun w hw => (h2.fr.toLang w).2 (e.ends_of_lang eps hv hw), fun w hw => h2.fr.accepts hw, ?_⟩
  intro complete pick order hord
  obtain ⟨dfa, d1, d2⟩ := Moore.correct (g := g) h2.single.wf complete pick order hord
  refine ⟨dfa, d1, fun w hw => ?_⟩
  rw [(d2 w (by rw [show g.eps = eps from h2.eps_eq]; exact hw)).1]
  exact h2.fr.accepts hw

theorem erase_regular (r : Regex Char) : (RegexText.erase r).Regular ↔ r.Regular := by
  induction r with
  | sym _ => simp [RegexText.erase, Regex.Regular]
  | chars _ => simp [RegexText.erase, Regex.Regular]
  | cat l r ihl ihr => simp [RegexText.erase, Regex.Regular, ihl, ihr]
  | alt l r ihl ihr => simp [RegexText.erase, Regex.Regular, ihl, ihr]
  | opt e ih => simp [RegexText.erase, Regex.Regular, ih]
  | star e ih => simp [RegexText.erase, Regex.Regular, ih]
  | plus e ih => simp [RegexText.erase, Regex.Regular, ih]
  | rep m n e ih => cases n <;> simp [RegexText.erase, Regex.Regular, ih, (RegexText.erase_preds e).2.2.1]

/-- **C99.** `thompson_compile_nfa` accepts every word of the language of the text of a regular expression. -/
theorem C99_text_complete {C : ReClasses} (hC : C.Sound) {order : List Char → List Char} (hord : ∀ l, (order l).Perm l)
    {wa : List Char} {e : ReText} (hwf : e.WF C) (hp : e.Parens) (hn : wholeAlphabet wa = defaultAlphabet ∨ e.NoNegEsc)
    (hε : ¬ e.Symbol (wholeAlphabet wa) 'ε') (hs : (e.shape C).Regular) :
    ∃ g q f, compileText C order wa e.text = .ok (g, q, f) ∧ g.Single q f ∧
      (∀ w, e.Lang C (wholeAlphabet wa) w → g.Lang w) ∧
      ∀ w, 'ε' ∉ w → e.Lang C (wholeAlphabet wa) w → g.accepts w = true := by
  obtain ⟨r, h1, h2, h3, h4⟩ := RegexText.compileText_eq hC hord (wholeAlphabet_eq wa) hwf hp hn hε
  have hs' : r.Regular := (erase_regular r).1 (by rw [h4]; exact hs)
  obtain ⟨g, q, f, k1, k2, _, k4, _, k5, _⟩ := C99_compile r h3 hs'
  exact ⟨g, q, f, h1.trans k1, k2, fun w hw => (k4 w).2 (r.ends_of_lang _ h3 ((h2 w).2 hw)),
    fun w hε hw => (k5 w hε).2 (r.ends_of_lang _ h3 ((h2 w).2 hw))⟩

/-- `(a*b)?c` is regular; it is compiled to an automaton which accepts `aac`, besides `c` and `abc`. -/
example : let e : Regex Char := .cat (.opt (.cat (.star (.sym 'a')) (.sym 'b'))) (.sym 'c')
    e.Valid 'ε' ∧ e.Regular ∧ e.Ends false true ['a', 'a', 'c'] ∧ e.Ends false true ['c'] ∧ ¬ e.Ends false true ['a'] := by
  have ha : Pow (fun w : List Char => w = ['a']) 2 ['a', 'a'] := ⟨[['a'], ['a']], rfl, by simp, rfl⟩
  refine ⟨by simp [Regex.Valid], by simp [Regex.Regular], ?_, ?_, ?_⟩
  · exact ⟨['a', 'a'], ['c'], rfl, .inr ⟨['a', 'a'], [], [], ⟨2, ha⟩, by simp, rfl, rfl⟩, rfl⟩
  · exact ⟨[], ['c'], rfl, .inr ⟨[], [], [], ⟨0, [], rfl, by simp, rfl⟩, by simp, rfl, rfl⟩, rfl⟩
  · rintro ⟨u, v, h, _, hv⟩
    have hv' : v = ['c'] := hv
    subst hv'
    have := congrArg List.getLast? h
    simp at this

/-- `(ab*){0,2}` is regular; it is compiled to an automaton which accepts `b`. -/
example : let e : Regex Char := .rep 0 (some 2) (.cat (.sym 'a') (.star (.sym 'b')))
    e.Valid 'ε' ∧ e.Regular ∧ e.Ends false true ['b'] ∧ ¬ e.Safe := by
  refine ⟨by simp [Regex.Valid], by simp [Regex.Regular, Regex.StartsAtZero], ?_, ?_⟩
  · exact .inr ⟨rfl, 1, Pow.one_iff.2 rfl⟩
  · simp [Regex.Safe, Regex.Skippable, Regex.CleanEnd]

end PyBGL
