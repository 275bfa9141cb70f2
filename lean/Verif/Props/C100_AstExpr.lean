import Verif.Model.AstExpr
import Verif.Spec.Expr
import Verif.Proofs.PyLemmas
import Verif.Props.C35_C37_Expr

/-!
# C100: `Ast.to_expr`
-/

namespace PyBGL
variable {T : Type} [DecidableEq T]

/-- A text is the concatenation of the tokens of an infix form of `e` that has at least the required parentheses: such a text, cut into tokens, is read as
`e` by `shunting_yard_postfix` (`C35_enough`). -/
def Expr.WrittenAs (P : OpTable T) (str : T → List Char) (e : Expr T) (x : List Char) : Prop :=
  ∃ i : Infix T, i.expr = e ∧ i.Enough P ∧ x = ((i.text P).map str).flatten

/-- The English statement of C100. -/
def C100_statement : Prop :=
  ∀ (T : Type) (_ : DecidableEq T) (P : OpTable T), P.Sane → ∀ (str : T → List Char), str P.lpar = ['('] → str P.rpar = [')'] →
    ∀ i : Infix T, i.expr.Over P → i.Enough P → ∀ t root, shuntingYardAst P (i.text P) = .ok (t, root) →
      ∃ x, Returns (t.toExpr str (some root)) (.ok x) ∧ i.expr.WrittenAs P str x

/-- **C100**: on the AST returned by `shunting_yard_ast`, whose attribute `root` is not set, `to_expr()` raises `KeyError`. -/
theorem C100_root_unset {P : OpTable T} (str : T → List Char) (x : List T) {t : Ast T} {root : Nat} (_ : shuntingYardAst P x = .ok (t, root)) :
    Returns (t.toExpr str none) (.error .keyError) := ⟨0, fun _ _ => rfl⟩

/-- **C100**: when the vertex 0 carries no symbol, for example because the AST is empty, `to_expr()` raises `KeyError` whether `root` is 0 or not set. -/
theorem C100_no_symbol (str : T → List Char) {t : Ast T} (h : t.sym.get? 0 = none) :
    Returns (t.toExpr str none) (.error .keyError) ∧ Returns (t.toExpr str (some 0)) (.error .keyError) := by
  have hs : t.symbol 0 = .error .keyError := by simp [Ast.symbol, Dict.getE, h]
  refine ⟨⟨0, fun _ _ => rfl⟩, 1, fun fuel hf => ?_⟩
  obtain ⟨n, rfl⟩ : ∃ n, fuel = n + 1 := ⟨fuel - 1, by omega⟩
  simp only [Ast.toExpr, Ast.toExprRec, hs]

/-- The empty AST carries no symbol. -/
example : (Ast.empty : Ast Char).sym.get? 0 = none := rfl

/-- The root of the AST is its last vertex. -/
theorem ast_root {P : OpTable T} (hP : P.Sane) {i : Infix T} (ho : i.expr.Over P) (he : i.Enough P) {t : Ast T} {root : Nat}
    (h : shuntingYardAst P (i.text P) = .ok (t, root)) : root + 1 = i.expr.size ∧ t.Represents root i.expr := by
  have h1 : shuntingYardAst P (i.text P) =
      .ok (⟨⟨i.expr.size, Ast.treeAdj 0 i.expr⟩, Ast.treeSym 0 i.expr⟩, 0 + i.expr.size - 1) := by
    rw [shuntingYardAst, ShuntingYard.run_text hP ho he, Rpn.feed ho]
    have := Ast.eval_tree ho 0 [] [] (by simp [Dict.keys]) (by simp [Dict.keys])
    rw [Ast.empty, Graph.empty, this]
    simp [Rpn.single, ShuntingYard.ok_bind']
  obtain ⟨t', r', h2, h3, _⟩ := C36_ast hP ho he
  rw [h2] at h
  cases h
  rw [h2] at h1
  have hpos : 0 < i.expr.size := by cases i.expr <;> simp [Expr.size]
  have : root = 0 + i.expr.size - 1 := by injection h1 with h1; injection h1
  exact ⟨by omega, h3⟩

/-- **C100**: after `ast.root = root`, `to_expr()` raises `RuntimeError` for every expression with an operator, and returns the token of the others. -/
theorem C100_root_set {P : OpTable T} (hP : P.Sane) (str : T → List Char) {i : Infix T} (ho : i.expr.Over P) (he : i.Enough P) {t : Ast T}
    {root : Nat} (h : shuntingYardAst P (i.text P) = .ok (t, root)) :
    (∀ a, i.expr = .leaf a → Returns (t.toExpr str (some root)) (.ok (str a))) ∧
      ((∀ a, i.expr ≠ .leaf a) → Returns (t.toExpr str (some root)) (.error .runtimeError)) := by
  obtain ⟨h1, h2⟩ := ast_root hP ho he h
  constructor
  · intro a ha
    rw [ha] at h1 h2
    have : root = 0 := by simp [Expr.size] at h1; exact h1
    subst this
    simp only [Ast.Represents] at h2
    obtain ⟨hs, hc⟩ := h2
    refine ⟨1, fun fuel hf => ?_⟩
    obtain ⟨n, rfl⟩ : ∃ n, fuel = n + 1 := ⟨fuel - 1, by omega⟩
    have hd : t.g.outDegree 0 = 0 := by
      have := congrArg List.length hc
      simpa [Ast.children, Graph.outDegree] using this
    simp [Ast.toExpr, Ast.toExprRec, hs, hd]
  · intro ha
    refine ⟨0, fun fuel _ => ?_⟩
    have : 1 < i.expr.size := by
      have hpos : ∀ e : Expr T, 0 < e.size := fun e => by cases e <;> simp [Expr.size]
      cases he : i.expr with
      | leaf a => exact absurd he (ha a)
      | un o e => simp [Expr.size, hpos e]
      | bin o l r => simp [Expr.size]; have := hpos l; have := hpos r; omega
    obtain ⟨n, rfl⟩ : ∃ n, root = n + 1 := ⟨root - 1, by omega⟩
    rfl

/-- The expression with all its parentheses (for binary operators). -/
def Expr.fullText (str : T → List Char) : Expr T → List Char
  | .leaf a => str a
  | .un o e => '(' :: (str o ++ (e.fullText str ++ [')']))
  | .bin o l r => '(' :: (l.fullText str ++ (str o ++ (r.fullText str ++ [')'])))

theorem Expr.fullText_eq {P : OpTable T} {str : T → List Char} (hl : str P.lpar = ['(']) (hr : str P.rpar = [')']) (e : Expr T) :
    e.fullText str = ((e.full.text P).map str).flatten := by
  induction e with
  | leaf a => simp [fullText, full, Infix.text]
  | un o e ih => simp [fullText, full, Infix.text, hl, hr, ih]
  | bin o l r ihl ihr => simp [fullText, full, Infix.text, hl, hr, ihl, ihr]

/-- The recursive function returns on every AST that represents an expression: the text with all its parentheses when all operators are binary, and
`TypeError` as soon as there is a unary operator. -/
theorem toExprRec_spec {str : T → List Char} {t : Ast T} (e : Expr T) :
    ∀ u, t.Represents u e →
      (e.Binary → Returns (fun fuel => t.toExprRec str fuel u) (.ok (e.fullText str))) ∧
        (¬ e.Binary → Returns (fun fuel => t.toExprRec str fuel u) (.error .typeError)) := by
  induction e with
  | leaf a =>
    rintro u ⟨hs, hc⟩
    have hd : t.g.outDegree u = 0 := by
      have := congrArg List.length hc
      simpa [Ast.children, Graph.outDegree] using this
    refine ⟨fun _ => ⟨1, fun fuel hf => ?_⟩, fun h => absurd trivial h⟩
    obtain ⟨n, rfl⟩ : ∃ n, fuel = n + 1 := ⟨fuel - 1, by omega⟩
    simp [Ast.toExprRec, hs, hd, Expr.fullText]
  | un o e _ =>
    rintro u ⟨hs, v, hc, _⟩
    have hd : t.g.outDegree u = 1 := by
      have := congrArg List.length hc
      simpa [Ast.children, Graph.outDegree] using this
    refine ⟨fun h => absurd h (by simp [Expr.Binary]), fun _ => ⟨1, fun fuel hf => ?_⟩⟩
    obtain ⟨n, rfl⟩ : ∃ n, fuel = n + 1 := ⟨fuel - 1, by omega⟩
    simp [Ast.toExprRec, hs, hd]
  | bin o l r ihl ihr =>
    rintro u ⟨hs, v, w, hc, hv, hw⟩
    have hd : t.g.outDegree u = 2 := by
      have := congrArg List.length hc
      simpa [Ast.children, Graph.outDegree] using this
    obtain ⟨l1, l2⟩ := ihl v hv
    obtain ⟨r1, r2⟩ := ihr w hw
    by_cases hbl : l.Binary
    · obtain ⟨nl, hnl⟩ := l1 hbl
      by_cases hbr : r.Binary
      · obtain ⟨nr, hnr⟩ := r1 hbr
        refine ⟨fun _ => ⟨nl + nr + 4, fun fuel hf => ?_⟩, fun h => absurd ⟨hbl, hbr⟩ h⟩
        obtain ⟨n, rfl⟩ : ∃ n, fuel = n + 4 := ⟨fuel - 4, by omega⟩
        have e1 := hnl (n + 2) (by omega)
        have e2 := hnr (n + 1) (by omega)
        dsimp only at e1 e2
        dsimp only
        rw [Ast.toExprRec, hc, Ast.toExprAll, e1, Ast.toExprAll, e2]
        simp [hs, hd, Ast.toExprAll, Ast.joinText, Expr.fullText]
      · obtain ⟨nr, hnr⟩ := r2 hbr
        refine ⟨fun h => absurd h.2 hbr, fun _ => ⟨nl + nr + 4, fun fuel hf => ?_⟩⟩
        obtain ⟨n, rfl⟩ : ∃ n, fuel = n + 4 := ⟨fuel - 4, by omega⟩
        have e1 := hnl (n + 2) (by omega)
        have e2 := hnr (n + 1) (by omega)
        dsimp only at e1 e2
        dsimp only
        rw [Ast.toExprRec, hc, Ast.toExprAll, e1, Ast.toExprAll, e2]
        simp [hs, hd]
    · obtain ⟨nl, hnl⟩ := l2 hbl
      refine ⟨fun h => absurd h.1 hbl, fun _ => ⟨nl + 4, fun fuel hf => ?_⟩⟩
      obtain ⟨n, rfl⟩ : ∃ n, fuel = n + 4 := ⟨fuel - 4, by omega⟩
      have e1 := hnl (n + 2) (by omega)
      dsimp only at e1
      dsimp only
      rw [Ast.toExprRec, hc, Ast.toExprAll, e1]
      simp [hs, hd]

/-- **C100, partial** (missing: ASTs whose root is not the vertex 0, hence those of `shunting_yard_ast`, and unary operators): on an AST whose root is
the vertex 0 and whose operators are all binary, `to_expr()` returns the expression with all its parentheses, which is read as the same expression. -/
theorem C100_to_expr_partial {P : OpTable T} (hP : P.Sane) {str : T → List Char} (hl : str P.lpar = ['(']) (hr : str P.rpar = [')']) {t : Ast T}
    {e : Expr T} (ho : e.Over P) (ht : t.Represents 0 e) (hb : e.Binary) :
    ∃ x, Returns (t.toExpr str (some 0)) (.ok x) ∧ e.WrittenAs P str x ∧ x = ((e.full.text P).map str).flatten ∧
      ShuntingYard.postfixOf P (e.full.text P) = .ok e.rpn :=
  ⟨_, (toExprRec_spec e 0 ht).1 hb, ⟨e.full, ShuntingYard.full_expr e, ShuntingYard.full_enough P e, Expr.fullText_eq hl hr e⟩,
    Expr.fullText_eq hl hr e, C35_full hP ho⟩

/-- **C100**: on an AST whose root is the vertex 0 and that has a unary operator, `to_expr()` raises `TypeError`. -/
theorem C100_unary {str : T → List Char} {t : Ast T} {e : Expr T} (ht : t.Represents 0 e) (hb : ¬ e.Binary) :
    Returns (t.toExpr str (some 0)) (.error .typeError) := (toExprRec_spec e 0 ht).2 hb

section Examples

/-- Tokens for the examples: the names of operands, `+` and `*` binary, `~` unary, and the parentheses. -/
private def tab : OpTable Char where
  lpar := '('
  rpar := ')'
  ops := [('~', ⟨1, 3, .right⟩), ('*', ⟨2, 3, .left⟩), ('+', ⟨2, 2, .left⟩)]

private def str (c : Char) : List Char := [c]

/-- `x + y * z`, the root first. -/
private def byHand : Ast Char where
  g := ⟨5, [(0, [(1, [0]), (2, [0])]), (1, []), (2, [(3, [0]), (4, [0])]), (3, []), (4, [])]⟩
  sym := [(0, '+'), (1, 'x'), (2, '*'), (3, 'y'), (4, 'z')]

example : byHand.Represents 0 (.bin '+' (.leaf 'x') (.bin '*' (.leaf 'y') (.leaf 'z'))) :=
  ⟨rfl, 1, 2, rfl, ⟨rfl, rfl⟩, rfl, 3, 4, rfl, ⟨rfl, rfl⟩, rfl, rfl⟩

example : byHand.toExpr str (some 0) 10 = some (.ok ['(', 'x', '+', '(', 'y', '*', 'z', ')', ')']) := rfl

/-- **C100 is false**: for `x + y`, `shunting_yard_ast` returns an AST on which `to_expr()` raises. -/
theorem C100_to_expr_counterexample : ¬ C100_statement := by
  intro h
  obtain ⟨t, root, h1, _⟩ := C36_ast (P := tab) ⟨by decide, by decide, by decide⟩ (i := .bin '+' (.leaf 'x') (.leaf 'y'))
    (by simp [Infix.expr, Expr.Over]; decide) (by simp [Infix.Enough, Infix.head?])
  obtain ⟨x, h2, _⟩ := h Char _ tab ⟨by decide, by decide, by decide⟩ str rfl rfl (.bin '+' (.leaf 'x') (.leaf 'y'))
    (by simp [Infix.expr, Expr.Over]; decide) (by simp [Infix.Enough, Infix.head?]) t root h1
  have h3 := (C100_root_set (P := tab) ⟨by decide, by decide, by decide⟩ str (by simp [Infix.expr, Expr.Over]; decide)
    (by simp [Infix.Enough, Infix.head?]) h1).2 (by simp [Infix.expr])
  cases returns_unique h2 h3

end Examples

end PyBGL
