import Verif.Spec.Expr

/-!
# Arithmetic expressions as they are usually written
-/

namespace PyBGL

/-- Arithmetic expressions with their parentheses. -/
inductive AlgText (K : Type) where
  | num (x : K)
  | paren (e : AlgText K)
  | neg (e : AlgText K)
  | pow (l r : AlgText K)
  | mul (l r : AlgText K)
  | div (l r : AlgText K)
  | add (l r : AlgText K)
  | sub (l r : AlgText K)

namespace AlgText
variable {K : Type}

/-- The text, as the tokenizer cuts it. -/
def text : AlgText K → List (Alg.Chunk K)
  | num x => [.text x]
  | paren e => .op .lpar :: e.text ++ [.op .rpar]
  | neg e => .op .sub :: e.text
  | pow l r => l.text ++ .op .pow :: r.text
  | mul l r => l.text ++ .op .mul :: r.text
  | div l r => l.text ++ .op .div :: r.text
  | add l r => l.text ++ .op .add :: r.text
  | sub l r => l.text ++ .op .sub :: r.text

/-- The value, computed from left to right. -/
def value (R : Arith K) : AlgText K → Except PyErr K
  | num x => .ok x
  | paren e => e.value R
  | neg e => do R.neg (← e.value R)
  | pow l r => do R.pow (← l.value R) (← r.value R)
  | mul l r => do R.mul (← l.value R) (← r.value R)
  | div l r => do R.div (← l.value R) (← r.value R)
  | add l r => do R.add (← l.value R) (← r.value R)
  | sub l r => do R.sub (← l.value R) (← r.value R)

/-- The postfix form. -/
def rpn : AlgText K → List (AlgTok K)
  | num x => [.num x]
  | paren e => e.rpn
  | neg e => e.rpn ++ [.uminus]
  | pow l r => l.rpn ++ r.rpn ++ [.pow]
  | mul l r => l.rpn ++ r.rpn ++ [.mul]
  | div l r => l.rpn ++ r.rpn ++ [.div]
  | add l r => l.rpn ++ r.rpn ++ [.add]
  | sub l r => l.rpn ++ r.rpn ++ [.sub]

/-- How tight the expression binds: sums 0, products 1, opposites 2, powers 3, numbers and parentheses 4. -/
def level : AlgText K → Nat
  | num _ => 4
  | paren _ => 4
  | neg _ => 2
  | pow _ _ => 3
  | mul _ _ => 1
  | div _ _ => 1
  | add _ _ => 0
  | sub _ _ => 0

/-- The usual conventions: sums and products group from the left, powers from the right, `-a ^ b` is `-(a ^ b)`, and `a ^ -b`
requires no parentheses if `unaryExponent` is set. -/
def Parens (unaryExponent : Bool) : AlgText K → Prop
  | num _ => True
  | paren e => e.Parens unaryExponent
  | neg e => e.Parens unaryExponent ∧ 2 ≤ e.level
  | pow l r => l.Parens unaryExponent ∧ r.Parens unaryExponent ∧ l.level = 4 ∧
    (3 ≤ r.level ∨ unaryExponent = true ∧ r.level = 2)
  | mul l r => l.Parens unaryExponent ∧ r.Parens unaryExponent ∧ 1 ≤ l.level ∧ 2 ≤ r.level
  | div l r => l.Parens unaryExponent ∧ r.Parens unaryExponent ∧ 1 ≤ l.level ∧ 2 ≤ r.level
  | add l r => l.Parens unaryExponent ∧ r.Parens unaryExponent ∧ 1 ≤ r.level
  | sub l r => l.Parens unaryExponent ∧ r.Parens unaryExponent ∧ 1 ≤ r.level

end AlgText
end PyBGL
