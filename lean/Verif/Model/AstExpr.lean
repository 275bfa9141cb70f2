import Verif.Model.ShuntingYard

/-!
# `Ast.to_expr` (`shunting_yard_postfix.py`)
-/

namespace PyBGL

namespace Ast
variable {T : Type} [DecidableEq T]

/-- `a.join(...)` for strings, as lists of characters. -/
def joinText (a : List Char) : List (List Char) → List Char
  | [] => []
  | [x] => x
  | x :: y :: rest => x ++ a ++ joinText a (y :: rest)

mutual

/-- `to_expr_rec(u)` (shunting_yard_postfix.py:581-593), `str` being Python's `str` on symbols. `self.children(u)` is a generator, which cannot
be indexed: `self.children(u)[0]` raises `TypeError`. `none` when the depth of the recursion exceeds `fuel`. -/
def toExprRec (t : Ast T) (str : T → List Char) : Nat → Nat → Option (Except PyErr (List Char))
  | 0, _ => none
  | fuel + 1, u =>
    match t.symbol u with
    | .error e => some (.error e)
    | .ok a =>
      if t.g.outDegree u = 0 then some (.ok (str a))
      else if t.g.outDegree u = 1 then some (.error .typeError)
      else
        match toExprAll t str fuel (t.children u) with
        | none => none
        | some (.error e) => some (.error e)
        | some (.ok texts) => some (.ok (['('] ++ joinText (str a) texts ++ [')']))

/-- `to_expr_rec(child) for child in self.children(u)` (shunting_yard_postfix.py:590-593). -/
def toExprAll (t : Ast T) (str : T → List Char) : Nat → List Nat → Option (Except PyErr (List (List Char)))
  | _, [] => some (.ok [])
  | 0, _ :: _ => none
  | fuel + 1, v :: vs =>
    match toExprRec t str fuel v with
    | none => none
    | some (.error e) => some (.error e)
    | some (.ok x) =>
      match toExprAll t str fuel vs with
      | none => none
      | some (.error e) => some (.error e)
      | some (.ok xs) => some (.ok (x :: xs))

end

/-- `ast.to_expr()` (shunting_yard_postfix.py:572-596) when the attribute `ast.root` is `root`. `if self.root` holds of every vertex but 0, and not
of `None`; the symbol of `None` is looked up in a `defaultdict()` without factory. -/
def toExpr (t : Ast T) (str : T → List Char) (root : Option Nat) (fuel : Nat) : Option (Except PyErr (List Char)) :=
  match root with
  | none => some (.error .keyError)
  | some (_ + 1) => some (.error .runtimeError)
  | some 0 => toExprRec t str fuel 0

end Ast

end PyBGL
