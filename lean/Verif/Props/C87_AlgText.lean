import Verif.Proofs.AlgText
import Verif.Props.C35_C37_Expr

/-!
# C87: the usual conventions of arithmetic
-/

namespace PyBGL

/-- The English statement of C87. -/
def C87_statement : Prop :=
  ∀ (R : Arith Int) (e : AlgText Int), e.Parens true →
    (do Alg.compute R (← Alg.tokens e.text)) = (e.value R).map .num

/-- **C87 is false for a signed exponent:** `2 ^ -3` raises `IndexError`. -/
theorem C87_compute_counterexample : ¬ C87_statement := by
  intro h
  have := h ⟨fun x y => .ok (x + y), fun x y => .ok (x - y), fun x y => .ok (x * y), fun x y => .ok (x / y),
    fun x _ => .ok x, fun x => .ok (-x)⟩ (.pow (.num 2) (.neg (.num 3))) (by simp [AlgText.Parens, AlgText.level])
  revert this
  decide

/-- **C87, partial.** `shunting_yard_compute` on the text of an arithmetic expression returns its value, read with the usual
conventions, or raises what the arithmetic raises. Missing: exponents starting with a sign, which require parentheses, and
the unary plus (see C36). -/
theorem C87_compute_partial {K : Type} [DecidableEq K] (R : Arith K) {e : AlgText K} (he : e.Parens false) :
    (do Alg.compute R (← Alg.tokens e.text)) = (e.value R).map .num := by
  obtain ⟨h1, h2, h3⟩ := AlgText.toInfix_over e
  have := C81_compute R h1 (AlgText.toInfix_enough e he) h2 h3
  rwa [AlgText.toInfix_text, AlgText.toInfix_value] at this

/-- **C87.** The corresponding tree: the operators are applied to the operands of the expression. -/
theorem C87_postfix_partial {K : Type} [DecidableEq K] {e : AlgText K} (he : e.Parens false) :
    (do ShuntingYard.postfixOf Alg.table (← Alg.tokens e.text)) = .ok e.rpn := by
  obtain ⟨h1, h2, h3⟩ := AlgText.toInfix_over e
  rw [← AlgText.toInfix_text, C81_tokenizer h1 h2, ← AlgText.toInfix_rpn]
  exact C35_enough Alg.table_sane h1 (AlgText.toInfix_enough e he)

/-- `1 - 2 - -3 * 2 ^ 3 ^ 2 / (1 + 1)`. -/
def sampleAlg : AlgText Int :=
  .sub (.sub (.num 1) (.num 2)) (.div (.mul (.neg (.num 3)) (.pow (.num 2) (.pow (.num 3) (.num 2))))
    (.paren (.add (.num 1) (.num 1))))

example : sampleAlg.Parens false := by simp [sampleAlg, AlgText.Parens, AlgText.level]

end PyBGL
