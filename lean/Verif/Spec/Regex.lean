import Verif.Spec.NfaLanguage
import Verif.Model.Thompson

/-!
# Regular expressions and their languages
-/

namespace PyBGL

/-- `Pow L k w`: `w` is the concatenation of `k` words of `L`. -/
def Pow {A : Type} (L : List A → Prop) (k : Nat) (w : List A) : Prop :=
  ∃ ws : List (List A), ws.length = k ∧ (∀ u ∈ ws, L u) ∧ w = ws.flatten

/-- Abstract syntax of regular expressions. -/
inductive Regex (A : Type) where
  | sym (a : A)
  | chars (cs : List A)
  | cat (e₁ e₂ : Regex A)
  | alt (e₁ e₂ : Regex A)
  | opt (e : Regex A)
  | star (e : Regex A)
  | plus (e : Regex A)
  | rep (m : Nat) (n : Option Nat) (e : Regex A)
  deriving Repr, DecidableEq

/-- The language denoted by a regular expression. -/
def Regex.Lang {A : Type} : Regex A → List A → Prop
  | .sym a, w => w = [a]
  | .chars cs, w => ∃ a ∈ cs, w = [a]
  | .cat e₁ e₂, w => ∃ u v, w = u ++ v ∧ e₁.Lang u ∧ e₂.Lang v
  | .alt e₁ e₂, w => e₁.Lang w ∨ e₂.Lang w
  | .opt e, w => w = [] ∨ e.Lang w
  | .star e, w => ∃ k, Pow e.Lang k w
  | .plus e, w => ∃ k, 1 ≤ k ∧ Pow e.Lang k w
  | .rep m none e, w => ∃ k, m ≤ k ∧ Pow e.Lang k w
  | .rep m (some n) e, w => ∃ k, m ≤ k ∧ k ≤ n ∧ Pow e.Lang k w

/-- Postfix notation. -/
def Regex.toPostfix {A : Type} : Regex A → List (Thompson.Tok A)
  | .sym a => [.lit a]
  | .chars cs => [.chars cs]
  | .cat e₁ e₂ => e₁.toPostfix ++ e₂.toPostfix ++ [.cat]
  | .alt e₁ e₂ => e₁.toPostfix ++ e₂.toPostfix ++ [.alt]
  | .opt e => e.toPostfix ++ [.opt]
  | .star e => e.toPostfix ++ [.star]
  | .plus e => e.toPostfix ++ [.plus]
  | .rep m n e => e.toPostfix ++ [.rep m n]

/-- Lower and upper bounds of repetitions are ordered and no symbol is `eps`. -/
def Regex.Valid {A : Type} (eps : A) : Regex A → Prop
  | .sym a => a ≠ eps
  | .chars cs => eps ∉ cs
  | .cat e₁ e₂ => e₁.Valid eps ∧ e₂.Valid eps
  | .alt e₁ e₂ => e₁.Valid eps ∧ e₂.Valid eps
  | .opt e => e.Valid eps
  | .star e => e.Valid eps
  | .plus e => e.Valid eps
  | .rep _ none e => e.Valid eps
  | .rep m (some n) e => m ≤ n ∧ e.Valid eps

/-- Lower and upper bounds of repetitions are ordered; `eps` may be among the symbols. -/
def Regex.Ordered {A : Type} : Regex A → Prop
  | .sym _ => True
  | .chars _ => True
  | .cat e₁ e₂ => e₁.Ordered ∧ e₂.Ordered
  | .alt e₁ e₂ => e₁.Ordered ∧ e₂.Ordered
  | .opt e => e.Ordered
  | .star e => e.Ordered
  | .plus e => e.Ordered
  | .rep _ none e => e.Ordered
  | .rep m (some n) e => m ≤ n ∧ e.Ordered

/-- The words of `L` once the occurrences of `eps` are deleted. -/
def Erased {A : Type} [DecidableEq A] (eps : A) (L : List A → Prop) (w : List A) : Prop :=
  ∃ v, L v ∧ w = v.filter (· ≠ eps)

/-! The following predicates delimit the expressions that the library compiles correctly, see
`C34_compile_partial`. -/

/-- The automaton built for the expression has no transition towards its initial state, which is not final. -/
def Regex.CleanStart {A : Type} : Regex A → Prop
  | .sym _ => True
  | .chars _ => True
  | .cat e₁ _ => e₁.CleanStart
  | .alt _ _ => True
  | .opt e => e.CleanStart
  | .star _ => False
  | .plus _ => False
  | .rep m none e => 2 ≤ m ∧ e.CleanStart
  | .rep m (some n) e => 1 ≤ n ∧ (e.CleanStart ∨ (m = 0 ∧ 2 ≤ n))

/-- The automaton built for the expression has no transition leaving its final state, which is not initial. -/
def Regex.CleanEnd {A : Type} : Regex A → Prop
  | .sym _ => True
  | .chars _ => True
  | .cat _ e₂ => e₂.CleanEnd
  | .alt _ _ => True
  | .opt e => e.CleanEnd
  | .star _ => False
  | .plus _ => False
  | .rep _ none _ => False
  | .rep _ (some n) e => 1 ≤ n ∧ e.CleanEnd

/-- The initial state of the automaton built for the expression is the vertex `0`. -/
def Regex.StartsAtZero {A : Type} : Regex A → Prop
  | .sym _ => True
  | .chars _ => True
  | .cat e₁ _ => e₁.StartsAtZero
  | .alt _ _ => False
  | .opt e => e.StartsAtZero
  | .star _ => False
  | .plus _ => False
  | .rep m none e => 2 ≤ m ∧ e.StartsAtZero
  | .rep _ (some _) e => e.StartsAtZero

/-- The expression may be made optional by adding an ε-transition from the initial to the final state. -/
def Regex.Skippable {A : Type} : Regex A → Prop
  | .sym _ => True
  | .chars _ => True
  | .cat e₁ e₂ => e₁.CleanStart ∧ e₂.CleanEnd
  | .alt _ _ => True
  | .opt _ => True
  | .star _ => True
  | .plus _ => True
  | .rep m none _ => m ≤ 1
  | .rep m (some n) e => m = 0 ∨ (m = 1 ∧ n = 1 ∧ e.Skippable) ∨ (e.CleanStart ∧ e.CleanEnd)

/-- The expressions for which the language of the automaton is the expected one: `e?` and `e{0,n}` require `e` to be
skippable, and `e{0,n}` with `n ≠ 1` requires the automaton of `e` to start at the vertex `0`. -/
def Regex.Safe {A : Type} : Regex A → Prop
  | .sym _ => True
  | .chars _ => True
  | .cat e₁ e₂ => e₁.Safe ∧ e₂.Safe
  | .alt e₁ e₂ => e₁.Safe ∧ e₂.Safe
  | .opt e => e.Safe ∧ e.Skippable
  | .star e => e.Safe
  | .plus e => e.Safe
  | .rep _ none e => e.Safe
  | .rep m (some n) e =>
    e.Safe ∧ (m = 0 → n ≠ 1 → e.StartsAtZero) ∧ (m = 0 → 1 ≤ n → e.Skippable)

/-- An NFA with one initial state `q0`, one final state `f`, whose transitions relate its vertices. -/
structure Nfa.Single {A : Type} [DecidableEq A] (g : Nfa A) (q0 f : Nat) : Prop where
  wf : Nfa.WF g
  lt : ∀ x ∈ g.vertices, x < g.lastVertexId
  closed : ∀ q a r, g.Trans q a r → q ∈ g.vertices ∧ r ∈ g.vertices
  init : ∀ x, x ∈ g.initials ↔ x = q0
  fin : ∀ x, g.isFinal x = true ↔ x = f
  q0_mem : q0 ∈ g.vertices
  f_mem : f ∈ g.vertices

/-- No transition enters `q`. -/
def Nfa.NoIn {A : Type} (g : Nfa A) (q : Nat) : Prop := ∀ x a, ¬ g.Trans x a q

/-- No transition leaves `q`. -/
def Nfa.NoOut {A : Type} (g : Nfa A) (q : Nat) : Prop := ∀ a x, ¬ g.Trans q a x

end PyBGL
