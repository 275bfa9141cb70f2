import Verif.Proofs.Rpn
import Verif.Spec.AlgText

/-!
# The usual notation of arithmetic expressions, read with the table of the library
-/

namespace PyBGL
namespace AlgText
variable {K : Type} [DecidableEq K]

/-- The expression over the table of operators. -/
def toInfix : AlgText K → Infix (AlgTok K)
  | num x => .leaf (.num x)
  | paren e => .paren e.toInfix
  | neg e => .pre .uminus e.toInfix
  | pow l r => .bin .pow l.toInfix r.toInfix
  | mul l r => .bin .mul l.toInfix r.toInfix
  | div l r => .bin .div l.toInfix r.toInfix
  | add l r => .bin .add l.toInfix r.toInfix
  | sub l r => .bin .sub l.toInfix r.toInfix

theorem toInfix_text (e : AlgText K) : (e.toInfix.text Alg.table).map AlgTok.written = e.text := by
  induction e with
  | num x => rfl
  | paren e ih => simp only [toInfix, Infix.text, List.map_append, List.map_cons, List.map_nil, ih, text, List.cons_append]; rfl
  | neg e ih => simp [toInfix, Infix.text, ih, text, AlgTok.written]
  | pow l r ihl ihr => simp [toInfix, Infix.text, ihl, ihr, text, AlgTok.written]
  | mul l r ihl ihr => simp [toInfix, Infix.text, ihl, ihr, text, AlgTok.written]
  | div l r ihl ihr => simp [toInfix, Infix.text, ihl, ihr, text, AlgTok.written]
  | add l r ihl ihr => simp [toInfix, Infix.text, ihl, ihr, text, AlgTok.written]
  | sub l r ihl ihr => simp [toInfix, Infix.text, ihl, ihr, text, AlgTok.written]

theorem toInfix_value (R : Arith K) (e : AlgText K) : e.toInfix.expr.value R = e.value R := by
  induction e with
  | num x => rfl
  | paren e ih => exact ih
  | neg e ih => simp only [toInfix, Infix.expr, Expr.value, ih, value]
  | pow l r ihl ihr => simp only [toInfix, Infix.expr, Expr.value, ihl, ihr, value]
  | mul l r ihl ihr => simp only [toInfix, Infix.expr, Expr.value, ihl, ihr, value]
  | div l r ihl ihr => simp only [toInfix, Infix.expr, Expr.value, ihl, ihr, value]
  | add l r ihl ihr => simp only [toInfix, Infix.expr, Expr.value, ihl, ihr, value]
  | sub l r ihl ihr => simp only [toInfix, Infix.expr, Expr.value, ihl, ihr, value]

theorem toInfix_rpn (e : AlgText K) : e.toInfix.expr.rpn = e.rpn := by
  induction e <;> simp_all [toInfix, Infix.expr, Expr.rpn, rpn]

theorem toInfix_over (e : AlgText K) :
    e.toInfix.expr.Over Alg.table ∧ e.toInfix.NoPost ∧ e.toInfix.expr.NoUplus := by
  induction e with
  | num x => simp [toInfix, Infix.expr, Expr.Over, Alg.table, Dict.get?, Infix.NoPost, Expr.NoUplus]
  | paren e ih => exact ih
  | neg e ih => exact ⟨⟨⟨_, rfl, rfl⟩, ih.1⟩, ih.2.1, by simp, ih.2.2⟩
  | pow l r ihl ihr => exact ⟨⟨⟨_, rfl, rfl⟩, ihl.1, ihr.1⟩, ⟨ihl.2.1, ihr.2.1⟩, ihl.2.2, ihr.2.2⟩
  | mul l r ihl ihr => exact ⟨⟨⟨_, rfl, rfl⟩, ihl.1, ihr.1⟩, ⟨ihl.2.1, ihr.2.1⟩, ihl.2.2, ihr.2.2⟩
  | div l r ihl ihr => exact ⟨⟨⟨_, rfl, rfl⟩, ihl.1, ihr.1⟩, ⟨ihl.2.1, ihr.2.1⟩, ihl.2.2, ihr.2.2⟩
  | add l r ihl ihr => exact ⟨⟨⟨_, rfl, rfl⟩, ihl.1, ihr.1⟩, ⟨ihl.2.1, ihr.2.1⟩, ihl.2.2, ihr.2.2⟩
  | sub l r ihl ihr => exact ⟨⟨⟨_, rfl, rfl⟩, ihl.1, ihr.1⟩, ⟨ihl.2.1, ihr.2.1⟩, ihl.2.2, ihr.2.2⟩

/-- The main operators, by level. -/
theorem head_level (e : AlgText K) :
    (e.level = 0 ∧ e.toInfix.head? = some .add) ∨ (e.level = 0 ∧ e.toInfix.head? = some .sub) ∨
    (e.level = 1 ∧ e.toInfix.head? = some .mul) ∨ (e.level = 1 ∧ e.toInfix.head? = some .div) ∨
    (e.level = 2 ∧ e.toInfix.head? = some .uminus) ∨ (e.level = 3 ∧ e.toInfix.head? = some .pow) ∨
    (e.level = 4 ∧ e.toInfix.head? = none) := by
  cases e <;> simp [level, toInfix, Infix.head?]

theorem left_ok {e : AlgText K} {o : AlgTok K} {n : Nat} (hn : n ≤ e.level)
    (h : ∀ p ∈ [(0, AlgTok.add), (0, .sub), (1, .mul), (1, .div), (2, .uminus), (3, .pow)], n ≤ p.1 →
      (Alg.table : OpTable (AlgTok K)).leftFree p.2 o = true) :
    ∀ o₁, e.toInfix.head? = some o₁ → (Alg.table : OpTable (AlgTok K)).leftFree o₁ o = true := by
  intro o₁ ho
  rcases head_level e with ⟨h', k⟩ | ⟨h', k⟩ | ⟨h', k⟩ | ⟨h', k⟩ | ⟨h', k⟩ | ⟨h', k⟩ | ⟨h', k⟩ <;> rw [k] at ho <;>
    first
    | (cases ho; done)
    | (obtain rfl := Option.some.inj ho; rw [h'] at hn; exact h (_, _) (by simp) hn)

theorem right_ok {e : AlgText K} {o : AlgTok K} {n : Nat} (hn : n ≤ e.level)
    (h : ∀ p ∈ [(0, AlgTok.add), (0, .sub), (1, .mul), (1, .div), (2, .uminus), (3, .pow)], n ≤ p.1 →
      (Alg.table : OpTable (AlgTok K)).rightFree o p.2 = true) :
    ∀ o₁, e.toInfix.head? = some o₁ → (Alg.table : OpTable (AlgTok K)).rightFree o o₁ = true := by
  intro o₁ ho
  rcases head_level e with ⟨h', k⟩ | ⟨h', k⟩ | ⟨h', k⟩ | ⟨h', k⟩ | ⟨h', k⟩ | ⟨h', k⟩ | ⟨h', k⟩ <;> rw [k] at ho <;>
    first
    | (cases ho; done)
    | (obtain rfl := Option.some.inj ho; rw [h'] at hn; exact h (_, _) (by simp) hn)

theorem toInfix_enough (e : AlgText K) : e.Parens false → e.toInfix.Enough Alg.table := by
  induction e with
  | num x => intro _; trivial
  | paren e ih => exact ih
  | neg e ih =>
    rintro ⟨h1, h2⟩
    exact ⟨ih h1, right_ok h2 (by simp [OpTable.rightFree, Alg.table, Dict.get?])⟩
  | pow l r ihl ihr =>
    rintro ⟨h1, h2, h3, h4⟩
    have h4 : 3 ≤ r.level := by simpa using h4
    exact ⟨ihl h1, ihr h2, left_ok (Nat.le_of_eq h3.symm) (by simp [OpTable.leftFree, Alg.table, Dict.get?]),
      right_ok h4 (by simp [OpTable.rightFree, Alg.table, Dict.get?])⟩
  | mul l r ihl ihr =>
    rintro ⟨h1, h2, h3, h4⟩
    exact ⟨ihl h1, ihr h2, left_ok h3 (by simp [OpTable.leftFree, Alg.table, Dict.get?]),
      right_ok h4 (by simp [OpTable.rightFree, Alg.table, Dict.get?])⟩
  | div l r ihl ihr =>
    rintro ⟨h1, h2, h3, h4⟩
    exact ⟨ihl h1, ihr h2, left_ok h3 (by simp [OpTable.leftFree, Alg.table, Dict.get?]),
      right_ok h4 (by simp [OpTable.rightFree, Alg.table, Dict.get?])⟩
  | add l r ihl ihr =>
    rintro ⟨h1, h2, h4⟩
    exact ⟨ihl h1, ihr h2, left_ok (Nat.zero_le _) (by simp [OpTable.leftFree, Alg.table, Dict.get?]),
      right_ok h4 (by simp [OpTable.rightFree, Alg.table, Dict.get?])⟩
  | sub l r ihl ihr =>
    rintro ⟨h1, h2, h4⟩
    exact ⟨ihl h1, ihr h2, left_ok (Nat.zero_le _) (by simp [OpTable.leftFree, Alg.table, Dict.get?]),
      right_ok h4 (by simp [OpTable.rightFree, Alg.table, Dict.get?])⟩

end AlgText
end PyBGL
