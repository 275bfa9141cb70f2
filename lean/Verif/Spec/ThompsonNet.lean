import Verif.Spec.Regex
import Verif.Spec.NfaLanguage

/-!
# The automaton of an expression, drawn

The states are numbered from 0 and the last one is the final state. The pictures below are those of Thompson's construction, as the library draws them: the initial state of `e{0,n}` is
the state that bears the number of the initial state of `e`, although the copies of `e` are shifted by one.
-/

namespace PyBGL
variable {A : Type}

/-- An automaton with the states `0, …, size - 1`, the initial state `start` and the final state `size - 1`. -/
structure Net (A : Type) where
  size : Nat
  start : Nat
  arc : Nat → A → Nat → Prop

namespace Net

/-- A single state. -/
def point : Net A := ⟨1, 0, fun _ _ _ => False⟩

/-- Two states linked by some symbols. -/
def symbols (cs : List A) : Net A := ⟨2, 0, fun x a y => x = 0 ∧ a ∈ cs ∧ y = 1⟩

/-- The arcs once `k` is added to the states. -/
def shifted (k : Nat) (R : Nat → A → Nat → Prop) (x : Nat) (a : A) (y : Nat) : Prop := ∃ x' y', x = k + x' ∧ y = k + y' ∧ R x' a y'

/-- The states of `R` follow those of `P`; the last state of `P` leads to the start of `R`. -/
def cat (eps : A) (P R : Net A) : Net A :=
  ⟨P.size + R.size, P.start, fun x a y => P.arc x a y ∨ shifted P.size R.arc x a y ∨ (a = eps ∧ x + 1 = P.size ∧ y = P.size + R.start)⟩

/-- The states of `R` follow those of `P`; a new start leads to both starts, and both last states to a new last one. -/
def alt (eps : A) (P R : Net A) : Net A :=
  ⟨P.size + R.size + 2, P.size + R.size, fun x a y => P.arc x a y ∨ shifted P.size R.arc x a y ∨ (a = eps ∧
    ((x = P.size + R.size ∧ (y = P.start ∨ y = P.size + R.start)) ∨
      ((x + 1 = P.size ∨ x + 1 = P.size + R.size) ∧ y = P.size + R.size + 1)))⟩

/-- The start leads to the last state. -/
def opt (eps : A) (P : Net A) : Net A := ⟨P.size, P.start, fun x a y => P.arc x a y ∨ (a = eps ∧ x = P.start ∧ y + 1 = P.size)⟩

/-- A new start leads to the start, the last state to a new last one, and the new states lead to each other. -/
def star (eps : A) (P : Net A) : Net A :=
  ⟨P.size + 2, P.size, fun x a y => P.arc x a y ∨ (a = eps ∧ ((x = P.size ∧ y = P.start) ∨ (x + 1 = P.size ∧ y = P.size + 1) ∨
    (x = P.size ∧ y = P.size + 1) ∨ (x = P.size + 1 ∧ y = P.size)))⟩

/-- A new start leads to the start, the last state to a new last one, and the latter to the new start. -/
def plus (eps : A) (P : Net A) : Net A :=
  ⟨P.size + 2, P.size, fun x a y => P.arc x a y ∨ (a = eps ∧ ((x = P.size ∧ y = P.start) ∨ (x + 1 = P.size ∧ y = P.size + 1) ∨
    (x = P.size + 1 ∧ y = P.size)))⟩

/-- `m` copies in sequence. -/
def copies (eps : A) (P : Net A) : Nat → Net A
  | 0 => point
  | 1 => P
  | m + 2 => cat eps (copies eps P (m + 1)) P

/-- `m + j` copies in sequence, with a state before them if `m = 0`; the number of the start is that of `P`. -/
def stage (eps : A) (P : Net A) (m : Nat) : Nat → Net A
  | 0 => ⟨(copies eps P m).size, P.start, (copies eps P m).arc⟩
  | j + 1 => cat eps (stage eps P m j) P

/-- The last states of the copies `m, …, m + k - 1` lead to the last state. -/
def range (eps : A) (P : Net A) (m k : Nat) : Net A :=
  ⟨(stage eps P m k).size, P.start, fun x a y => (stage eps P m k).arc x a y ∨
    (a = eps ∧ (∃ j < k, x + 1 = (stage eps P m j).size) ∧ y + 1 = (stage eps P m k).size)⟩

/-- The words read from the start to the last state. -/
def Lang [DecidableEq A] (eps : A) (P : Net A) (w : List A) : Prop := WPath P.arc eps P.start w (P.size - 1)

end Net

/-- The automaton of an expression. -/
def Regex.net (eps : A) : Regex A → Net A
  | .sym a => .symbols [a]
  | .chars cs => .symbols cs
  | .cat e₁ e₂ => .cat eps (e₁.net eps) (e₂.net eps)
  | .alt e₁ e₂ => .alt eps (e₁.net eps) (e₂.net eps)
  | .opt e => .opt eps (e.net eps)
  | .star e => .star eps (e.net eps)
  | .plus e => .plus eps (e.net eps)
  | .rep m none e => if m = 0 then .star eps (e.net eps) else if m = 1 then .plus eps (e.net eps)
      else .cat eps (.copies eps (e.net eps) (m - 1)) (.plus eps (e.net eps))
  | .rep m (some n) e => if m = 0 ∧ n = 1 then .opt eps (e.net eps) else .range eps (e.net eps) m (n - m)

end PyBGL
