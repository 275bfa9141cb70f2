import Verif.Spec.Regex

/-!
# Number of states of the automaton built for an expression
-/

namespace PyBGL

/-- The number of states of the automaton of an expression: two for a symbol or a set of characters, two more for an alternation and for each of the stars and pluses, none
for a concatenation or an option, and as many copies as needed for a repetition. -/
def Regex.states {A : Type} : Regex A → Nat
  | .sym _ => 2
  | .chars _ => 2
  | .cat e₁ e₂ => e₁.states + e₂.states
  | .alt e₁ e₂ => e₁.states + e₂.states + 2
  | .opt e => e.states
  | .star e => e.states + 2
  | .plus e => e.states + 2
  | .rep m none e => max m 1 * e.states + 2
  | .rep m (some n) e => if m = 0 ∧ n ≠ 1 then 1 + n * e.states else n * e.states

/-- `{0}` (or `{0,0}`) is only applied to expressions whose automaton starts at the state `0`. -/
def Regex.NoVoid {A : Type} : Regex A → Prop
  | .sym _ => True
  | .chars _ => True
  | .cat e₁ e₂ => e₁.NoVoid ∧ e₂.NoVoid
  | .alt e₁ e₂ => e₁.NoVoid ∧ e₂.NoVoid
  | .opt e => e.NoVoid
  | .star e => e.NoVoid
  | .plus e => e.NoVoid
  | .rep _ none e => e.NoVoid
  | .rep _ (some n) e => e.NoVoid ∧ (n = 0 → e.StartsAtZero)

/-- Without `{m}`, `{m,}` and `{m,n}`. -/
def Regex.NoRep {A : Type} : Regex A → Prop
  | .sym _ => True
  | .chars _ => True
  | .cat e₁ e₂ => e₁.NoRep ∧ e₂.NoRep
  | .alt e₁ e₂ => e₁.NoRep ∧ e₂.NoRep
  | .opt e => e.NoRep
  | .star e => e.NoRep
  | .plus e => e.NoRep
  | .rep _ _ _ => False

end PyBGL
