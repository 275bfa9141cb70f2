import Verif.Spec.Regex

/-!
# The words read between the two ends of the automaton built for an expression

Thompson's constructions, as the library implements them, are compositional once one keeps, besides the words leading from the initial to
the final state, those leading from the initial state to itself, from the final state to itself, and from the final state to the initial
one. `false` stands for the initial state and `true` for the final state.
-/

namespace PyBGL
variable {A : Type}

/-- The words read between the ends of an automaton. -/
abbrev Ends (A : Type) := Bool → Bool → List A → Prop

namespace Ends

/-- A language read from the initial to the final state of an automaton in which no transition enters the former or leaves the latter. -/
def plain (L : List A → Prop) : Ends A
  | false, true => L
  | true, false => fun _ => False
  | _, _ => fun w => w = []

/-- A single state, both initial and final. -/
def one : Ends A := fun _ _ w => w = []

/-- Two automata in sequence. -/
def cat (P R : Ends A) : Ends A
  | false, true => fun w => ∃ u v, w = u ++ v ∧ P false true u ∧ R false true v
  | false, false => P false false
  | true, true => R true true
  | true, false => fun _ => False

/-- A star: both ends are linked to each other. -/
def star (P : Ends A) : Ends A := fun _ _ w => ∃ k, Pow (P false true) k w

/-- A plus: the final state is linked to the initial one. -/
def plus (P : Ends A) : Ends A
  | false, true => fun w => ∃ k, 1 ≤ k ∧ Pow (P false true) k w
  | _, _ => fun w => ∃ k, Pow (P false true) k w

/-- An ε-transition is added from the initial to the final state: a word may use it several times. -/
def opt (P : Ends A) : Ends A := fun a b w =>
  P a b w ∨ ∃ (u : List A) (ws : List (List A)) (v : List A), P a false u ∧ (∀ x ∈ ws, P true false x) ∧ P true b v ∧ w = u ++ ws.flatten ++ v

/-- `m` copies in sequence. -/
def rep (P : Ends A) : Nat → Ends A
  | 0 => one
  | 1 => P
  | m + 2 => cat (rep P (m + 1)) P

/-- Between `m` and `n` copies, for `m < n` and `n ≠ 1`: every state reached after `m, …, n` copies is linked to the last one, where the
loops of the final state of the last copy may be read. -/
def range (P : Ends A) (m n : Nat) : Ends A
  | false, true => fun w => (∃ k, m ≤ k ∧ k ≤ n ∧ Pow (P false true) k w) ∨ (m = 0 ∧ P true true w)
  | false, false => fun w => if m = 0 then w = [] else P false false w
  | true, true => P true true
  | true, false => fun _ => False

end Ends

/-- The words read between the ends of the automaton built for an expression. -/
def Regex.Ends : Regex A → Ends A
  | .sym a => .plain (fun w => w = [a])
  | .chars cs => .plain (fun w => ∃ a ∈ cs, w = [a])
  | .cat e₁ e₂ => .cat e₁.Ends e₂.Ends
  | .alt e₁ e₂ => .plain (fun w => e₁.Ends false true w ∨ e₂.Ends false true w)
  | .opt e => .opt e.Ends
  | .star e => .star e.Ends
  | .plus e => .plus e.Ends
  | .rep m none e => if m = 0 then .star e.Ends else if m = 1 then .plus e.Ends else .cat (.rep e.Ends (m - 1)) (.plus e.Ends)
  | .rep m (some n) e => if m = 0 ∧ n = 1 then .opt e.Ends else if m = n then .rep e.Ends m else .range e.Ends m n

/-- `e{0,n}` with `n ≠ 1` is only applied to expressions whose automaton starts at the vertex `0`. -/
def Regex.Regular : Regex A → Prop
  | .sym _ => True
  | .chars _ => True
  | .cat e₁ e₂ => e₁.Regular ∧ e₂.Regular
  | .alt e₁ e₂ => e₁.Regular ∧ e₂.Regular
  | .opt e => e.Regular
  | .star e => e.Regular
  | .plus e => e.Regular
  | .rep _ none e => e.Regular
  | .rep m (some n) e => e.Regular ∧ (m = 0 → n ≠ 1 → e.StartsAtZero)

end PyBGL
