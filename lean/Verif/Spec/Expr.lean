import Verif.Model.ShuntingYard

/-!
# Expressions, their postfix form and their infix printings
-/

namespace PyBGL

/-- Expression trees: operands, unary operators, binary operators. -/
inductive Expr (T : Type) where
  | leaf (a : T)
  | un (o : T) (e : Expr T)
  | bin (o : T) (l r : Expr T)
  deriving DecidableEq, Repr

namespace Expr
variable {T : Type}

/-- Postfix (reverse Polish) form. -/
def rpn : Expr T → List T
  | leaf a => [a]
  | un o e => e.rpn ++ [o]
  | bin o l r => l.rpn ++ r.rpn ++ [o]

/-- Only binary operators. -/
def Binary : Expr T → Prop
  | leaf _ => True
  | un _ _ => False
  | bin _ l r => l.Binary ∧ r.Binary

/-- The inner nodes carry operators of the table, the leaves carry other tokens. -/
def Over [DecidableEq T] (P : OpTable T) : Expr T → Prop
  | leaf a => P.ops.get? a = none ∧ a ≠ P.lpar ∧ a ≠ P.rpar
  | un o e => (∃ p, P.ops.get? o = some p ∧ p.cardinality = 1) ∧ e.Over P
  | bin o l r => (∃ p, P.ops.get? o = some p ∧ p.cardinality = 2) ∧ l.Over P ∧ r.Over P

/-- The operators have the number of operands given by the dictionary, and the leaves are not operators. -/
def Arity [DecidableEq T] (ops : Dict T Op) : Expr T → Prop
  | leaf a => ops.get? a = none
  | un o e => (∃ p, ops.get? o = some p ∧ p.cardinality = 1) ∧ e.Arity ops
  | bin o l r => (∃ p, ops.get? o = some p ∧ p.cardinality = 2) ∧ l.Arity ops ∧ r.Arity ops

end Expr

/-- The two parentheses are distinct and are not operators. -/
structure OpTable.Sane {T : Type} [DecidableEq T] (P : OpTable T) : Prop where
  ne : P.lpar ≠ P.rpar
  lpar : P.ops.get? P.lpar = none
  rpar : P.ops.get? P.rpar = none

/-- Infix text with its parentheses, as a tree: `pre` is a prefix operator (`-x`), `post` a postfix operator (`x*`), `imm`
a suffix which is not an operator of the table (`x{2}`). -/
inductive Infix (T : Type) where
  | leaf (a : T)
  | paren (e : Infix T)
  | pre (o : T) (e : Infix T)
  | post (o : T) (e : Infix T)
  | imm (o : T) (e : Infix T)
  | bin (o : T) (l r : Infix T)
  deriving DecidableEq, Repr

namespace Infix
variable {T : Type}

/-- The text. -/
def text (P : OpTable T) : Infix T → List T
  | leaf a => [a]
  | paren e => P.lpar :: e.text P ++ [P.rpar]
  | pre o e => o :: e.text P
  | post o e => e.text P ++ [o]
  | imm o e => e.text P ++ [o]
  | bin o l r => l.text P ++ o :: r.text P

/-- The expression it stands for. -/
def expr : Infix T → Expr T
  | leaf a => .leaf a
  | paren e => e.expr
  | pre o e => .un o e.expr
  | post o e => .un o e.expr
  | imm o e => .un o e.expr
  | bin o l r => .bin o l.expr r.expr

end Infix

section Printing
variable {T : Type} [DecidableEq T]

/-- In `l o r`, the expression `l`, whose main operator is `o₁`, needs no parentheses: `o₁` binds tighter than `o`, or as
tight and `o` groups from the left. -/
def OpTable.leftFree (P : OpTable T) (o₁ o : T) : Bool :=
  match P.ops.get? o₁, P.ops.get? o with
  | some p₁, some p => p.precedence < p₁.precedence ∨ p₁.precedence = p.precedence ∧ p.associativity = .left
  | _, _ => false

/-- In `l o r`, the expression `r`, whose main operator is `o₂`, needs no parentheses: `o₂` binds tighter than `o`, or as
tight and `o₂` groups from the right. -/
def OpTable.rightFree (P : OpTable T) (o o₂ : T) : Bool :=
  match P.ops.get? o, P.ops.get? o₂ with
  | some p, some p₂ => p.precedence < p₂.precedence ∨ p₂.precedence = p.precedence ∧ p₂.associativity = .right
  | _, _ => false

/-- The main operator of an expression which is not in parentheses. -/
def Infix.head? : Infix T → Option T
  | .leaf _ => none
  | .paren _ => none
  | .pre o _ => some o
  | .post o _ => some o
  | .imm _ _ => none
  | .bin o _ _ => some o

/-- The parentheses required by precedence and associativity are there; there may be more of them. -/
def Infix.Enough (P : OpTable T) : Infix T → Prop
  | .leaf _ => True
  | .paren e => e.Enough P
  | .pre o e => e.Enough P ∧ ∀ o₂, e.head? = some o₂ → P.rightFree o o₂
  | .post o e => e.Enough P ∧ ∀ o₁, e.head? = some o₁ → P.leftFree o₁ o
  | .imm o e => e.Enough P ∧ e.head? = none ∧ P.ops.get? o = none
  | .bin o l r => l.Enough P ∧ r.Enough P ∧
    (∀ o₁, l.head? = some o₁ → P.leftFree o₁ o) ∧ ∀ o₂, r.head? = some o₂ → P.rightFree o o₂

/-- The operators belong to the table, and the other tokens, suffixes included, do not. -/
def Infix.Toks (P : OpTable T) : Infix T → Prop
  | .leaf a => P.ops.get? a = none ∧ a ≠ P.lpar ∧ a ≠ P.rpar
  | .paren e => e.Toks P
  | .pre o e => (P.ops.get? o).isSome ∧ e.Toks P
  | .post o e => (P.ops.get? o).isSome ∧ e.Toks P
  | .imm a e => (P.ops.get? a = none ∧ a ≠ P.lpar ∧ a ≠ P.rpar) ∧ e.Toks P
  | .bin o l r => (P.ops.get? o).isSome ∧ l.Toks P ∧ r.Toks P

/-- Infix form with parentheses around each subexpression which is not a leaf; unary operators are printed in front of
their operand. -/
def Expr.full : Expr T → Infix T
  | .leaf a => .leaf a
  | .un o e => .paren (.pre o e.full)
  | .bin o l r => .paren (.bin o l.full r.full)

/-- The main operator. -/
def Expr.head? : Expr T → Option T
  | .leaf _ => none
  | .un o _ => some o
  | .bin o _ _ => some o

/-- Infix form with parentheses only where precedence and associativity require; unary operators are printed in front of
their operand. -/
def Expr.minimal (P : OpTable T) : Expr T → Infix T
  | .leaf a => .leaf a
  | .un o e => .pre o (if e.head?.all (P.rightFree o) then e.minimal P else .paren (e.minimal P))
  | .bin o l r =>
    .bin o (if l.head?.all (P.leftFree · o) then l.minimal P else .paren (l.minimal P))
      (if r.head?.all (P.rightFree o) then r.minimal P else .paren (r.minimal P))

end Printing

end PyBGL

namespace PyBGL

/-- Number of nodes. -/
def Expr.size {T : Type} : Expr T → Nat
  | .leaf _ => 1
  | .un _ e => e.size + 1
  | .bin _ l r => l.size + r.size + 1

/-- The value of an algebraic expression. -/
def Expr.value {K : Type} (R : Arith K) : Expr (AlgTok K) → Except PyErr K
  | .leaf (.num x) => .ok x
  | .un .uplus e => e.value R
  | .un .uminus e => do R.neg (← e.value R)
  | .bin .add l r => do R.add (← l.value R) (← r.value R)
  | .bin .sub l r => do R.sub (← l.value R) (← r.value R)
  | .bin .mul l r => do R.mul (← l.value R) (← r.value R)
  | .bin .div l r => do R.div (← l.value R) (← r.value R)
  | .bin .pow l r => do R.pow (← l.value R) (← r.value R)
  | _ => .error .valueError

/-- The value of a tree whose leaves may be opening parentheses, which are strings: `+` concatenates two strings, and the other
operations on strings raise `TypeError`. The operands are computed first; the unary plus raises `ValueError`. -/
def Expr.outcome {K : Type} (R : Arith K) : Expr (AlgTok K) → Except PyErr (AlgVal K)
  | .leaf a => .ok a.item
  | .un o e => do
    match o, ← e.outcome R with
    | .uminus, .num x => (R.neg x).map .num
    | .uminus, .text _ => .error .typeError
    | _, _ => .error .valueError
  | .bin o l r => do
    match o, ← l.outcome R, ← r.outcome R with
    | .add, .num x, .num y => (R.add x y).map .num
    | .sub, .num x, .num y => (R.sub x y).map .num
    | .mul, .num x, .num y => (R.mul x y).map .num
    | .div, .num x, .num y => (R.div x y).map .num
    | .pow, .num x, .num y => (R.pow x y).map .num
    | .add, .text s, .text t => .ok (.text (s ++ t))
    | _, _, _ => .error .typeError

/-- The unary plus does not occur. -/
def Expr.NoUplus {K : Type} : Expr (AlgTok K) → Prop
  | .leaf _ => True
  | .un o e => o ≠ .uplus ∧ e.NoUplus
  | .bin _ l r => l.NoUplus ∧ r.NoUplus

/-- The subtree of the AST below the vertex `u` is `e`: same symbols, same children in the same order. -/
def Ast.Represents {T : Type} [DecidableEq T] (t : Ast T) : Nat → Expr T → Prop
  | u, .leaf a => t.symbol u = .ok a ∧ t.children u = []
  | u, .un o e => t.symbol u = .ok o ∧ ∃ v, t.children u = [v] ∧ t.Represents v e
  | u, .bin o l r => t.symbol u = .ok o ∧ ∃ v w, t.children u = [v, w] ∧ t.Represents v l ∧ t.Represents w r

/-- The text that the tokeniser finds for a token: the unary operators are written like the binary ones. -/
def AlgTok.written {K : Type} : AlgTok K → Alg.Chunk K
  | .num x => .text x
  | .uplus => .op .add
  | .uminus => .op .sub
  | a => .op a

/-- No postfix operator. -/
def Infix.NoPost {T : Type} : Infix T → Prop
  | .leaf _ => True
  | .paren e => e.NoPost
  | .pre _ e => e.NoPost
  | .post _ _ => False
  | .imm _ _ => False
  | .bin _ l r => l.NoPost ∧ r.NoPost

/-- The text of a chunk reported by `tokenize`. -/
def TokenizeEvent.chunk {C : Type} : TokenizeEvent C → List C
  | .unmatched c _ _ => c
  | .matched c _ _ => c

/-- The span of a matched chunk. -/
def TokenizeEvent.span? {C : Type} : TokenizeEvent C → Option (Nat × Nat)
  | .unmatched _ _ _ => none
  | .matched _ i j => some (i, j)

/-- What `finditer` guarantees: the spans are ordered, do not overlap, and lie between `start` and `n`. -/
def SpansFrom (n : Nat) : Nat → List (Nat × Nat) → Prop
  | start, [] => start ≤ n
  | start, (i, j) :: spans => start ≤ i ∧ i ≤ j ∧ SpansFrom n j spans

end PyBGL
