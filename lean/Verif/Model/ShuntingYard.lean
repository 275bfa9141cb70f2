import Verif.Model.Graph

/-!
# Shunting yard, RPN sinks, tokenisation (`shunting_yard_postfix.py`, `tokenize.py`)
-/

namespace PyBGL

/-- Associativity (shunting_yard_postfix.py:21). -/
inductive Assoc where
  | right
  | left
  deriving DecidableEq, Repr

/-- `Op` (shunting_yard_postfix.py:25-27). -/
structure Op where
  cardinality : Nat
  precedence : Nat
  associativity : Assoc
  deriving DecidableEq, Repr

/-- The tokens `"("` and `")"` and the dictionary `map_operators` (shunting_yard_postfix.py:290-295). Tokens are
abstract; the operator names are assumed to be truthy (non-empty strings). -/
structure OpTable (T : Type) where
  lpar : T
  rpar : T
  ops : Dict T Op

namespace ShuntingYard
variable {T O : Type} [DecidableEq T]

/-- `o1 in map_operators.keys() and preceeds(o1, o2)` for an operator `o2`
(shunting_yard_postfix.py:329-348, 391-392). -/
def preceeds (P : OpTable T) (o1 o2 : T) : Bool :=
  match P.ops.get? o1, P.ops.get? o2 with
  | some p1, some p2 =>
    match p2.associativity with
    | .right => decide (p1.precedence > p2.precedence)
    | .left => decide (p1.precedence ≥ p2.precedence)
  | _, _ => false

/-- The branch `a == ")"` (shunting_yard_postfix.py:383-387); the stack is listed from its top. `sink` models
`push_output` (369-378): `output.append` followed by the visitor's `on_push_output`. The notifications
`on_pop_operator` and `on_push_operator` are not modelled. -/
def closeParen (P : OpTable T) (sink : O → T → Except PyErr O) : List T → O → Except PyErr (List T × O)
  | [], _ => .error .indexError
  | o :: ops, out =>
    if o = P.lpar then .ok (ops, out)
    else do
      let out ← sink out o
      closeParen P sink ops out

/-- The loop popping the operators that precede `a` (shunting_yard_postfix.py:389-395). -/
def popPreceding (P : OpTable T) (sink : O → T → Except PyErr O) (a : T) : List T → O → Except PyErr (List T × O)
  | [], out => .ok ([], out)
  | o :: ops, out =>
    if preceeds P o a then do
      let out ← sink out o
      popPreceding P sink a ops out
    else .ok (o :: ops, out)

/-- One iteration of the main loop (shunting_yard_postfix.py:380-398). -/
def step (P : OpTable T) (sink : O → T → Except PyErr O) (s : List T × O) (a : T) : Except PyErr (List T × O) :=
  if a = P.lpar then .ok (a :: s.1, s.2)
  else if a = P.rpar then closeParen P sink s.1 s.2
  else if P.ops.contains a then do
    let s ← popPreceding P sink a s.1 s.2
    .ok (a :: s.1, s.2)
  else do
    let out ← sink s.2 a
    .ok (s.1, out)

/-- `shunting_yard_postfix(expression, map_operators, output, vis)` (shunting_yard_postfix.py:290-402). -/
def run (P : OpTable T) (sink : O → T → Except PyErr O) (expression : List T) (out : O) : Except PyErr O := do
  let s ← expression.foldlM (step P sink) ([], out)
  s.1.foldlM sink s.2

/-- `output.append` for a plain `deque`. -/
def plainSink (out : List T) (a : T) : Except PyErr (List T) := .ok (out ++ [a])

/-- `shunting_yard_postfix(expression, map_operators)`. -/
def postfixOf (P : OpTable T) (expression : List T) : Except PyErr (List T) := run P plainSink expression []

end ShuntingYard

/-! ## RPN deques -/

/-- The overridable methods `on_append`, `on_operation` of `RpnDequeOperation` (shunting_yard_postfix.py:436-464), acting
on items of type `U` and on a state `S` (the AST under construction). -/
structure RpnHooks (T U S : Type) where
  onAppend : T → S → Except PyErr (U × S)
  onOperation : T → Op → U → List U → S → Except PyErr (U × S)

namespace Rpn
variable {T U S : Type} [DecidableEq T]

/-- The loop `for _ in range(card): v = self.pop(); vs.insert(0, v)` (shunting_yard_postfix.py:482-485); the deque is
listed from its right end. -/
def popArgs : Nat → List U → List U → Except PyErr (List U × List U)
  | 0, dq, vs => .ok (dq, vs)
  | _ + 1, [], _ => .error .indexError
  | n + 1, v :: dq, vs => popArgs n dq (v :: vs)

/-- `RpnDequeOperation.append` (shunting_yard_postfix.py:466-487). -/
def append (ops : Dict T Op) (h : RpnHooks T U S) (s : List U × S) (a : T) : Except PyErr (List U × S) :=
  match ops.get? a with
  | none => do
    let us ← h.onAppend a s.2
    .ok (us.1 :: s.1, us.2)
  | some op => do
    let us ← h.onAppend a s.2
    let dv ← popArgs op.cardinality s.1 []
    let us ← h.onOperation a op us.1 dv.2 us.2
    .ok (us.1 :: dv.1, us.2)

/-- `assert len(ret) == 1; ret.pop()` (shunting_yard_postfix.py:678-679, 786-787). -/
def single (s : List U × S) : Except PyErr (S × U) :=
  match s.1 with
  | [u] => .ok (s.2, u)
  | _ => .error .assertionError

end Rpn

/-! ## Abstract syntax trees -/

/-- `Ast` (shunting_yard_postfix.py:490-519): a `DirectedGraph` whose vertices carry a symbol. The attribute `root`
stays `None`. -/
structure Ast (T : Type) where
  g : Graph
  sym : Dict Nat T

namespace Ast
variable {T : Type} [DecidableEq T]

/-- `Ast()` (shunting_yard_postfix.py:495-519). -/
def empty : Ast T := ⟨.empty, []⟩

/-- `Ast.add_vertex` (shunting_yard_postfix.py:521-533). -/
def addVertex (t : Ast T) (a : T) : Nat × Ast T :=
  let r := t.g.addVertex
  (r.1, ⟨r.2, t.sym.set r.1 a⟩)

/-- `Ast.symbol` (shunting_yard_postfix.py:545-556). -/
def symbol (t : Ast T) (u : Nat) : Except PyErr T := t.sym.getE u

/-- `list(ast.children(u))` (shunting_yard_postfix.py:558-570). -/
def children (t : Ast T) (u : Nat) : List Nat := (t.g.outEdges u).map (·.target)

/-- The loop `for v in vs: self.ast.add_edge(u, v)` (shunting_yard_postfix.py:650-651). -/
def addEdges (t : Ast T) (u : Nat) : List Nat → Except PyErr (Ast T)
  | [] => .ok t
  | v :: vs => do
    let r ← t.g.addEdge u v
    addEdges ⟨r.2, t.sym⟩ u vs

/-- `RpnDequeAst` (shunting_yard_postfix.py:599-652). -/
def hooks : RpnHooks T Nat (Ast T) where
  onAppend a t := .ok (t.addVertex a)
  onOperation _ _ u vs t := do
    let t ← t.addEdges u vs
    .ok (u, t)

end Ast

/-- `shunting_yard_ast` (shunting_yard_postfix.py:655-680). -/
def shuntingYardAst {T : Type} [DecidableEq T] (P : OpTable T) (expression : List T) : Except PyErr (Ast T × Nat) := do
  let s ← ShuntingYard.run P (Rpn.append P.ops Ast.hooks) expression ([], Ast.empty)
  Rpn.single s

/-! ## Algebraic expressions -/

/-- The tokens of an algebraic expression: a number, an operator of `MAP_OPERATORS_ALG`, or a parenthesis. -/
inductive AlgTok (K : Type) where
  | num (x : K)
  | uplus
  | uminus
  | pow
  | mul
  | div
  | add
  | sub
  | lpar
  | rpar
  deriving DecidableEq, Repr

/-- The items of an `RpnDequeAlg` (shunting_yard_postfix.py:683-748): numbers and strings. -/
inductive AlgVal (K : Type) where
  | num (x : K)
  | text (s : List Char)
  deriving DecidableEq, Repr

/-- What `on_append` returns for a token (shunting_yard_postfix.py:436-448): the token itself, a number or a string. -/
def AlgTok.item {K : Type} : AlgTok K → AlgVal K
  | .num x => .num x
  | .uplus => .text ['u', '+']
  | .uminus => .text ['u', '-']
  | .pow => .text ['^']
  | .mul => .text ['*']
  | .div => .text ['/']
  | .add => .text ['+']
  | .sub => .text ['-']
  | .lpar => .text ['(']
  | .rpar => .text [')']

/-- The arithmetic of Python numbers, which may raise (division by zero, overflow): a parameter of the model. -/
structure Arith (K : Type) where
  add : K → K → Except PyErr K
  sub : K → K → Except PyErr K
  mul : K → K → Except PyErr K
  div : K → K → Except PyErr K
  pow : K → K → Except PyErr K
  neg : K → Except PyErr K

namespace Alg
variable {K : Type} [DecidableEq K]

/-- `MAP_OPERATORS_ALG` (shunting_yard_postfix.py:57-67). -/
def table : OpTable (AlgTok K) where
  lpar := .lpar
  rpar := .rpar
  ops := [(.uplus, ⟨1, 3, .right⟩), (.uminus, ⟨1, 3, .right⟩), (.pow, ⟨2, 4, .right⟩), (.mul, ⟨2, 3, .left⟩),
    (.div, ⟨2, 3, .left⟩), (.add, ⟨2, 2, .left⟩), (.sub, ⟨2, 2, .left⟩)]

/-- `RpnDequeAlg.on_operation` (shunting_yard_postfix.py:708-748). A stray parenthesis in the deque is a string: `+` concatenates two
strings, any other operation on a string raises `TypeError` (the numbers are of type `float`). -/
def onOperation (R : Arith K) (a : AlgTok K) (op : Op) (vs : List (AlgVal K)) : Except PyErr (AlgVal K) :=
  if vs.length = op.cardinality then
    match op.cardinality, vs with
    | 1, [x] =>
      match a, x with
      | .add, _ => .error .unboundLocalError
      | .sub, _ => .error .unboundLocalError
      | .div, _ => .error .unboundLocalError
      | .mul, _ => .error .unboundLocalError
      | .pow, _ => .error .unboundLocalError
      | .uminus, .num x => (R.neg x).map .num
      | .uminus, .text _ => .error .typeError
      | _, _ => .error .valueError
    | 2, [x, y] =>
      match a, x, y with
      | .add, .num x, .num y => (R.add x y).map .num
      | .add, .text s, .text t => .ok (.text (s ++ t))
      | .add, _, _ => .error .typeError
      | .sub, .num x, .num y => (R.sub x y).map .num
      | .sub, _, _ => .error .typeError
      | .div, .num x, .num y => (R.div x y).map .num
      | .div, _, _ => .error .typeError
      | .mul, .num x, .num y => (R.mul x y).map .num
      | .mul, _, _ => .error .typeError
      | .pow, .num x, .num y => (R.pow x y).map .num
      | .pow, _, _ => .error .typeError
      | .uminus, .num x, _ => (R.neg x).map .num
      | .uminus, .text _, _ => .error .typeError
      | _, _, _ => .error .valueError
    | _, _ => .error .valueError
  else .error .assertionError

/-- `RpnDequeAlg` (shunting_yard_postfix.py:683-748). -/
def hooks (R : Arith K) : RpnHooks (AlgTok K) (AlgVal K) Unit where
  onAppend a s := .ok (a.item, s)
  onOperation a op _ vs s := do
    let u ← onOperation R a op vs
    .ok (u, s)

/-- `shunting_yard_compute` applied to the tokens of the expression (shunting_yard_postfix.py:751-788), with the default
table. The tokenisation is `Alg.tokens` below. -/
def compute (R : Arith K) (expression : List (AlgTok K)) : Except PyErr (AlgVal K) := do
  let s ← ShuntingYard.run table (Rpn.append table.ops (hooks R)) expression ([], ())
  let r ← Rpn.single s
  .ok r.2

/-- The chunks reported by `tokenize` to `AlgTokenizeVisitor`: unmatched text, which is converted to a number, or one of
the operators and parentheses; `u+` and `u-` are matched as they are. -/
inductive Chunk (K : Type) where
  | text (x : K)
  | op (a : AlgTok K)

/-- `AlgTokenizeVisitor.on_unmatched` and `on_matched` (shunting_yard_postfix.py:89-105); the state is the reversed
expression and `prev_is_operator`. `float(unmatched)` is a parameter: chunks carry the number. -/
def onChunk (s : List (AlgTok K) × Bool) : Chunk K → Except PyErr (List (AlgTok K) × Bool)
  | .text x => .ok (.num x :: s.1, false)
  | .op a =>
    if s.2 && a ≠ .lpar && a ≠ .rpar then
      match a with
      | .add => .ok (.uplus :: s.1, true)
      | .sub => .ok (.uminus :: s.1, true)
      | _ => .error .runtimeError
    else .ok (a :: s.1, a ≠ .rpar)

/-- `tokenizer_alg` (shunting_yard_postfix.py:108-129) on the chunks found in the text. -/
def tokens (chunks : List (Chunk K)) : Except PyErr (List (AlgTok K)) := do
  let s ← chunks.foldlM onChunk ([], true)
  .ok s.1.reverse

end Alg

/-! ## `tokenize` -/

/-- The notifications of a `TokenizeVisitor` (tokenize.py:7-52): the chunk and its position; `none` for the end of the last
unmatched chunk. -/
inductive TokenizeEvent (C : Type) where
  | unmatched (chunk : List C) (start : Nat) (stop : Option Nat)
  | matched (chunk : List C) (start : Nat) (stop : Nat)
  deriving DecidableEq, Repr

/-- `s[i:j]` for `0 ≤ i, j`. -/
def slice {C : Type} (s : List C) (i j : Nat) : List C := (s.take j).drop i

/-- The loop of `tokenize` (tokenize.py:63-75). `spans` is the sequence of the spans `(match.start(), match.end())` returned
by `tokenizer.finditer(s)`, which belongs to the standard library. -/
def tokenizeFrom {C : Type} (s : List C) : Nat → List (Nat × Nat) → List (TokenizeEvent C)
  | start, [] =>
    let remaining := s.drop start
    if remaining.isEmpty then [] else [.unmatched remaining start none]
  | start, (i, j) :: spans =>
    (if (slice s start i).isEmpty then [] else [.unmatched (slice s start i) start (some i)]) ++
    (if (slice s i j).isEmpty then [] else [.matched (slice s i j) i j]) ++
    tokenizeFrom s j spans

/-- `tokenize(tokenizer, s, vis)` (tokenize.py:55-75). -/
def tokenize {C : Type} (s : List C) (spans : List (Nat × Nat)) : List (TokenizeEvent C) := tokenizeFrom s 0 spans

end PyBGL
