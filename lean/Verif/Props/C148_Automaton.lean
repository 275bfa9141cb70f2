import Verif.Proofs.ThompsonNet
import Verif.Props.C138_Sizes
import Verif.Props.C147_Epsilon

/-!
# C148: the automaton compiled from a regular expression, arc by arc
-/

namespace PyBGL
variable {A : Type} [DecidableEq A]
open Thompson RegexText

/-- **C148.** The automaton compiled from an expression is the one drawn by `Regex.net`: same states, initial state, final state and arcs. It accepts the words read along its arcs, and
so does the DFA obtained from it. -/
theorem C148_compile_exact {eps : A} (e : Regex A) (hv : e.NoVoid) (ho : e.Ordered) :
    ∃ g q f, compile eps e.toPostfix = .ok (g, q, f) ∧ g.eps = eps ∧ g.vertices = List.range (e.net eps).size ∧ q = (e.net eps).start ∧ f + 1 = (e.net eps).size ∧
      (∀ x, x ∈ g.initials ↔ x = q) ∧ (∀ x, g.isFinal x = true ↔ x = f) ∧
      (∀ x a y, g.Trans x a y ↔ (e.net eps).arc x a y) ∧
      (∀ w, g.Lang w ↔ (e.net eps).Lang eps w) ∧
      (∀ w, eps ∉ w → (g.accepts w = true ↔ (e.net eps).Lang eps w)) ∧
      ∀ (complete : Bool) (pick : Nat → Nat) (order : Nat → List A → List A), (∀ t l, (order t l).Perm l) →
        ∃ dfa, Returns (Moore.run g complete pick order) (.ok dfa) ∧ ∀ w, eps ∉ w → (dfa.accepts w = true ↔ (e.net eps).Lang eps w) := by
  obtain ⟨⟨g, q, f⟩, h1, h2⟩ := Nfa.compileNet_spec (eps := eps) e hv ho
  have hs : g.Single q f := h2.single (Nfa.net_good e hv ho)
  have l : f + 1 = (e.net eps).size := h2.last
  have hq : q = (e.net eps).start := h2.start
  have hT : g.T = (e.net eps).arc := by funext x a y; exact propext (h2.arcs x a y)
  have hfr : Nfa.Fr eps (g, q, f) ((e.net eps).Lang eps) := by
    refine ⟨hs, h2.eps_eq, fun w => ?_⟩
    show WPath g.T eps q w f ↔ _
    unfold Net.Lang
    rw [hT, ← hq, ← l, Nat.add_sub_cancel]
  refine ⟨g, q, f, h1, h2.eps_eq, h2.dense.1, hq, l, hs.init, hs.fin, fun x a y => ?_, hfr.toLang, fun w hw => hfr.accepts hw, ?_⟩
  · rw [Nfa.trans_iff hs.wf, hT]
  · intro complete pick order hord
    obtain ⟨dfa, d1, d2⟩ := Moore.correct (g := g) hs.wf complete pick order hord
    refine ⟨dfa, d1, fun w hw => ?_⟩
    rw [(d2 w (by rw [show g.eps = eps from h2.eps_eq]; exact hw)).1]
    exact hfr.accepts hw

/-- **C148.** The number of states drawn is that of C138. -/
theorem C148_states (eps : A) (e : Regex A) (hv : e.NoVoid) (ho : e.Ordered) : (e.net eps).size = e.states := by
  obtain ⟨g, q, f, h1, _, _, _, h5, _⟩ := C148_compile_exact (eps := eps) e hv ho
  have := (C138_thompson e hv h1).2.2
  omega

theorem erase_noVoid (r : Regex Char) : (RegexText.erase r).NoVoid ↔ r.NoVoid := by
  induction r with
  | sym _ => simp [RegexText.erase, Regex.NoVoid]
  | chars _ => simp [RegexText.erase, Regex.NoVoid]
  | cat l r ihl ihr => simp [RegexText.erase, Regex.NoVoid, ihl, ihr]
  | alt l r ihl ihr => simp [RegexText.erase, Regex.NoVoid, ihl, ihr]
  | opt e ih => simp [RegexText.erase, Regex.NoVoid, ih]
  | star e ih => simp [RegexText.erase, Regex.NoVoid, ih]
  | plus e ih => simp [RegexText.erase, Regex.NoVoid, ih]
  | rep m n e ih => cases n <;> simp [RegexText.erase, Regex.NoVoid, ih, (RegexText.erase_preds e).2.2.1]

/-- **C148.** The same for texts: the automaton of a text is drawn from an expression which has the shape and the language of the text. -/
theorem C148_text_exact {C : ReClasses} (hC : C.Sound) {order : List Char → List Char} (hord : ∀ l, (order l).Perm l)
    {wa : List Char} {e : ReText} (hwf : e.WF C) (hp : e.Parens) (hn : wholeAlphabet wa = defaultAlphabet ∨ e.NoNegEsc) (hs : (e.shape C).NoVoid) :
    ∃ (r : Regex Char) (g : Nfa Char) (q f : Nat), erase r = e.shape C ∧ (∀ w, r.Lang w ↔ e.Lang C (wholeAlphabet wa) w) ∧
      compileText C order wa e.text = .ok (g, q, f) ∧
      g.vertices = List.range (r.net 'ε').size ∧ q = (r.net 'ε').start ∧ f + 1 = (r.net 'ε').size ∧
      (∀ x a y, g.Trans x a y ↔ (r.net 'ε').arc x a y) ∧ ∀ w, g.Lang w ↔ (r.net 'ε').Lang 'ε' w := by
  obtain ⟨r, h1, h2, h3, -, h4⟩ := compileText_ordered hC hord (wholeAlphabet_eq wa) hwf hp hn
  have hs' : r.NoVoid := (erase_noVoid r).1 (by rw [h4]; exact hs)
  obtain ⟨g, q, f, k1, _, k3, k4, k5, _, _, k8, k9, _⟩ := C148_compile_exact (eps := 'ε') r hs' h3
  exact ⟨r, g, q, f, h4, h2, h1.trans k1, k3, k4, k5, k8, k9⟩

/-- `((a|b){0,2}){0,2}` meets the hypotheses, and not those of C99; its automaton has 27 states and starts at the state 4, which is the last state of the branch `b` of the first copy,
instead of 0. -/
example : let e : Regex Char := .rep 0 (some 2) (.rep 0 (some 2) (.alt (.sym 'a') (.sym 'b')))
    e.NoVoid ∧ e.Ordered ∧ ¬ e.Regular ∧ (e.net 'ε').size = 27 ∧ (e.net 'ε').start = 4 := by
  refine ⟨by simp [Regex.NoVoid], by simp [Regex.Ordered], by simp [Regex.Regular, Regex.StartsAtZero], rfl, rfl⟩

/-- In `(a|b){0,2}` the state 4, from which the words are read, leads to the end of the first copy, which leads to the last state and to the second copy. -/
example : let P := (Regex.rep 0 (some 2) (.alt (.sym 'a') (.sym 'b'))).net 'ε'
    P.start = 4 ∧ P.arc 4 'ε' 6 ∧ P.arc 6 'ε' 12 ∧ P.arc 6 'ε' 11 ∧ P.Lang 'ε' [] := by
  have h1 : ((Regex.rep 0 (some 2) (.alt (.sym 'a') (.sym 'b'))).net 'ε').arc 4 'ε' 6 :=
    .inl (.inl (.inr (.inl ⟨3, 5, rfl, rfl, .inr (.inr ⟨rfl, .inr ⟨.inr rfl, rfl⟩⟩)⟩)))
  have h2 : ((Regex.rep 0 (some 2) (.alt (.sym 'a') (.sym 'b'))).net 'ε').arc 6 'ε' 12 := .inr ⟨rfl, ⟨1, by decide, rfl⟩, rfl⟩
  refine ⟨rfl, h1, h2, .inl (.inr (.inr ⟨rfl, rfl, rfl⟩)), ?_⟩
  exact WPath.consEps h1 (WPath.consEps h2 (.nil _))

end PyBGL
