import Verif.Spec.RegexText

/-!
# The grammar of regular expressions

A text is cut into pieces: characters, escape sequences, classes, operators, repetitions and parentheses.
-/

namespace PyBGL
open RegexText

/-- What stands for one character: a character which is not special, an escape sequence, or a class, which is not empty. -/
inductive ReAtom : List Char → Prop
  | lit {c : Char} : c ∉ ['*', '+', '?', '.', '|', '(', ')', '[', '{', '\\'] → ReAtom [c]
  | esc {c : Char} : c ∈ escapes → ReAtom ['\\', c]
  | cls {body : List Char} : ']' ∉ body → body ≠ [] → ReAtom ('[' :: (body ++ [']']))

/-- A suffix operator: `*`, `+`, `?`, or a repetition with ordered bounds. -/
inductive ReSuffix (C : ReClasses) : List Char → Prop
  | star : ReSuffix C ['*']
  | plus : ReSuffix C ['+']
  | opt : ReSuffix C ['?']
  | rep {f : RepForm} : f.WF C → ReSuffix C f.text

/-- The grammar: an expression (0) is one or several branches separated by `|`; a branch (1) is one or several factors; a factor (2)
is an atom or an expression in parentheses, followed by any number of suffix operators. -/
inductive ReSyntax (C : ReClasses) : Nat → List (List Char) → Prop
  | atom {p : List Char} : ReAtom p → ReSyntax C 2 [p]
  | group {u : List (List Char)} : ReSyntax C 0 u → ReSyntax C 2 ([['(']] ++ u ++ [[')']])
  | suffix {u : List (List Char)} {p : List Char} : ReSyntax C 2 u → ReSuffix C p → ReSyntax C 2 (u ++ [p])
  | factor {u : List (List Char)} : ReSyntax C 2 u → ReSyntax C 1 u
  | cat {u v : List (List Char)} : ReSyntax C 1 u → ReSyntax C 2 v → ReSyntax C 1 (u ++ v)
  | branch {u : List (List Char)} : ReSyntax C 1 u → ReSyntax C 0 u
  | alt {u v : List (List Char)} : ReSyntax C 0 u → ReSyntax C 1 v → ReSyntax C 0 (u ++ [['|']] ++ v)

/-- The text is a regular expression. -/
def WellWritten (C : ReClasses) (s : List Char) : Prop := ∃ ps : List (List Char), ps.flatten = s ∧ ReSyntax C 0 ps

end PyBGL
