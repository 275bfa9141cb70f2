import Verif.Model.RegexText
import Verif.Spec.Regex

/-!
# The concrete syntax of regular expressions and its meaning
-/

namespace PyBGL

/-- What is assumed of the character classes of the standard library: spaces, digits and punctuation are distinct. -/
structure RegexText.ReClasses.Sound (C : RegexText.ReClasses) : Prop where
  disjoint : ∀ c, C.digit c = true → C.space c = false
  comma : C.space ',' = false ∧ C.digit ',' = false
  brace : C.space '}' = false ∧ C.digit '}' = false

/-- The decimal digits are digits, with their usual values. -/
def RegexText.ReClasses.Decimal (C : RegexText.ReClasses) : Prop :=
  ∀ n < 10, C.digit (Nat.digitChar n) = true ∧ C.val (Nat.digitChar n) = n

/-- What an escape sequence `\c` stands for, as a set of characters; `S` is the whole alphabet. `\s` and `\w` are those of
the library: blank and tabulation, ASCII letters and digits. -/
inductive EscMem (S : List Char) : Char → Char → Prop
  | self {c : Char} : c ∈ ['+', '*', '?', '.', '|', '[', ']', '(', ')', '{', '}'] → EscMem S c c
  | a : EscMem S 'a' '\x07'
  | b : EscMem S 'b' '\x08'
  | f : EscMem S 'f' '\x0c'
  | n : EscMem S 'n' '\n'
  | r : EscMem S 'r' '\r'
  | t : EscMem S 't' '\t'
  | v : EscMem S 'v' '\x0b'
  | d {x : Char} : '0' ≤ x → x ≤ '9' → EscMem S 'd' x
  | D {x : Char} : x ∈ S → ¬ ('0' ≤ x ∧ x ≤ '9') → EscMem S 'D' x
  | s {x : Char} : x = ' ' ∨ x = '\t' → EscMem S 's' x
  | S {x : Char} : x ∈ S → ¬ (x = ' ' ∨ x = '\t') → EscMem S 'S' x
  | w {x : Char} : ('0' ≤ x ∧ x ≤ '9') ∨ ('A' ≤ x ∧ x ≤ 'Z') ∨ ('a' ≤ x ∧ x ≤ 'z') → EscMem S 'w' x
  | W {x : Char} : x ∈ S → ¬ (('0' ≤ x ∧ x ≤ '9') ∨ ('A' ≤ x ∧ x ≤ 'Z') ∨ ('a' ≤ x ∧ x ≤ 'z')) → EscMem S 'W' x

/-- The escape sequences of the library. -/
def escapes : List Char := ['+', '*', '?', '.', '|', '[', ']', '(', ')', '{', '}', 'a', 'b', 'f', 'n', 'r', 't', 'v', 'd', 'D', 's', 'S', 'w', 'W']

/-- An item of a character class: a character, a range, an escape sequence. -/
inductive ReItem where
  | one (c : Char)
  | range (a b : Char)
  | esc (c : Char)
  deriving DecidableEq, Repr

namespace ReItem

/-- Its text. -/
def text : ReItem → List Char
  | one c => [c]
  | range a b => [a, '-', b]
  | esc c => ['\\', c]

/-- Its characters. -/
def Mem (S : List Char) : ReItem → Char → Prop
  | one c, x => x = c
  | range a b, x => a ≤ x ∧ x ≤ b
  | esc c, x => EscMem S c x

/-- It may be written in brackets: the hyphen and the hat may only be written where they have no special meaning. -/
def WF (first hat : Bool) : ReItem → Prop
  | one c => c ≠ ']' ∧ c ≠ '\\' ∧ (c = '-' → first = true) ∧ (c = '^' → hat = true ∨ first = false)
  | range a b => a ≠ ']' ∧ a ≠ '\\' ∧ (a = '-' → first = true) ∧ (a = '^' → hat = true ∨ first = false) ∧ b ≠ ']' ∧ a ≤ b
  | esc c => c ∈ escapes ∧ c ≠ ']'

end ReItem

/-- The items of a class may be written in brackets. -/
def ItemsWF (hat : Bool) : Bool → List ReItem → Prop
  | _, [] => True
  | first, i :: is => i.WF first hat ∧ ItemsWF hat false is

/-- A repetition: `{m}`, `{m,}` or `{m,n}`; spaces are allowed around the numbers. -/
inductive RepForm where
  | exact (s₁ d s₂ : List Char)
  | range (s₁ d s₂ s₃ d' s₄ : List Char)
  deriving DecidableEq, Repr

namespace RepForm
open RegexText

/-- Its text. -/
def text : RepForm → List Char
  | exact s₁ d s₂ => '{' :: s₁ ++ d ++ s₂ ++ ['}']
  | range s₁ d s₂ s₃ d' s₄ => '{' :: s₁ ++ d ++ s₂ ++ ',' :: s₃ ++ d' ++ s₄ ++ ['}']

/-- The least number of repetitions. -/
def lo (C : ReClasses) : RepForm → Nat
  | exact _ d _ => toInt C d
  | range _ d _ _ _ _ => toInt C d

/-- The greatest number of repetitions, if any. -/
def hi (C : ReClasses) : RepForm → Option Nat
  | exact _ d _ => some (toInt C d)
  | range _ _ _ _ d' _ => if d' = [] then none else some (toInt C d')

/-- Spaces are spaces, numbers are made of digits, and the bounds are ordered. -/
def WF (C : ReClasses) : RepForm → Prop
  | exact s₁ d s₂ => s₁.all C.space ∧ d.all C.digit ∧ s₂.all C.space ∧ d ≠ []
  | range s₁ d s₂ s₃ d' s₄ => s₁.all C.space ∧ d.all C.digit ∧ s₂.all C.space ∧ d ≠ [] ∧
    s₃.all C.space ∧ d'.all C.digit ∧ s₄.all C.space ∧ (d' = [] ∨ toInt C d ≤ toInt C d')

end RepForm

/-- Regular expressions as they are written. -/
inductive ReText where
  | lit (c : Char)
  | esc (c : Char)
  | bracket (neg : Bool) (items : List ReItem)
  | group (e : ReText)
  | cat (l r : ReText)
  | alt (l r : ReText)
  | opt (e : ReText)
  | star (e : ReText)
  | plus (e : ReText)
  | rep (f : RepForm) (e : ReText)
  deriving Repr

namespace ReText
open RegexText

/-- The text. -/
def text : ReText → List Char
  | lit c => [c]
  | esc c => ['\\', c]
  | bracket neg items => '[' :: (if neg then ['^'] else []) ++ (items.map ReItem.text).flatten ++ [']']
  | group e => '(' :: e.text ++ [')']
  | cat l r => l.text ++ r.text
  | alt l r => l.text ++ '|' :: r.text
  | opt e => e.text ++ ['?']
  | star e => e.text ++ ['*']
  | plus e => e.text ++ ['+']
  | rep f e => e.text ++ f.text

/-- Its language; `S` is the whole alphabet, from which negated classes are taken. -/
def Lang (C : ReClasses) (S : List Char) : ReText → List Char → Prop
  | lit c, w => w = [c]
  | esc c, w => ∃ x, EscMem S c x ∧ w = [x]
  | bracket false items, w => ∃ x, (∃ i ∈ items, i.Mem S x) ∧ w = [x]
  | bracket true items, w => ∃ x, (x ∈ S ∧ ¬ ∃ i ∈ items, i.Mem S x) ∧ w = [x]
  | group e, w => e.Lang C S w
  | cat l r, w => ∃ u v, w = u ++ v ∧ l.Lang C S u ∧ r.Lang C S v
  | alt l r, w => l.Lang C S w ∨ r.Lang C S w
  | opt e, w => w = [] ∨ e.Lang C S w
  | star e, w => ∃ k, Pow (e.Lang C S) k w
  | plus e, w => ∃ k, 1 ≤ k ∧ Pow (e.Lang C S) k w
  | rep f e, w => ∃ k, f.lo C ≤ k ∧ (∀ n, f.hi C = some n → k ≤ n) ∧ Pow (e.Lang C S) k w

/-- The literals are not metacharacters, and the classes, escapes and repetitions are well written. -/
def WF (C : ReClasses) : ReText → Prop
  | lit c => c ∉ ['*', '+', '?', '.', '|', '(', ')', '[', '{', '\\']
  | esc c => c ∈ escapes
  | bracket neg items => ItemsWF neg true items ∧ (neg = true ∨ items ≠ [])
  | group e => e.WF C
  | cat l r => l.WF C ∧ r.WF C
  | alt l r => l.WF C ∧ r.WF C
  | opt e => e.WF C
  | star e => e.WF C
  | plus e => e.WF C
  | rep f e => f.WF C ∧ e.WF C

/-- The tokens of the expression, with an explicit operator for concatenations. -/
def tokens : ReText → List (List Char)
  | lit c => [[c]]
  | esc c => [['\\', c]]
  | bracket neg items => [(bracket neg items).text]
  | group e => [['(']] ++ e.tokens ++ [[')']]
  | cat l r => l.tokens ++ [['.']] ++ r.tokens
  | alt l r => l.tokens ++ [['|']] ++ r.tokens
  | opt e => e.tokens ++ [['?']]
  | star e => e.tokens ++ [['*']]
  | plus e => e.tokens ++ [['+']]
  | rep f e => e.tokens ++ [f.text]

/-- How tight the expression binds: alternatives 0, concatenations 1, `?` 2, `*` and `+` 3, other expressions 4. -/
def level : ReText → Nat
  | alt _ _ => 0
  | cat _ _ => 1
  | opt _ => 2
  | star _ => 3
  | plus _ => 3
  | _ => 4

/-- The parentheses needed by the precedences of the library are there. -/
def Parens : ReText → Prop
  | lit _ => True
  | esc _ => True
  | bracket _ _ => True
  | group e => e.Parens
  | cat l r => l.Parens ∧ r.Parens ∧ 1 ≤ l.level ∧ 2 ≤ r.level
  | alt l r => l.Parens ∧ r.Parens ∧ 1 ≤ r.level
  | opt e => e.Parens ∧ 2 ≤ e.level
  | star e => e.Parens ∧ 3 ≤ e.level
  | plus e => e.Parens ∧ 3 ≤ e.level
  | rep _ e => e.Parens ∧ e.level = 4

/-- The parentheses needed by the usual precedences, according to which all postfix operators bind as tight. -/
def UsualParens : ReText → Prop
  | lit _ => True
  | esc _ => True
  | bracket _ _ => True
  | group e => e.UsualParens
  | cat l r => l.UsualParens ∧ r.UsualParens ∧ 1 ≤ l.level ∧ 2 ≤ r.level
  | alt l r => l.UsualParens ∧ r.UsualParens ∧ 1 ≤ r.level
  | opt e => e.UsualParens ∧ 2 ≤ e.level
  | star e => e.UsualParens ∧ 2 ≤ e.level
  | plus e => e.UsualParens ∧ 2 ≤ e.level
  | rep _ e => e.UsualParens ∧ 2 ≤ e.level

/-- The character `a` occurs in a word of a literal, an escape sequence or a class of the expression. -/
def Symbol (S : List Char) (a : Char) : ReText → Prop
  | lit c => a = c
  | esc c => EscMem S c a
  | bracket false items => ∃ i ∈ items, i.Mem S a
  | bracket true items => a ∈ S ∧ ¬ ∃ i ∈ items, i.Mem S a
  | group e => e.Symbol S a
  | cat l r => l.Symbol S a ∨ r.Symbol S a
  | alt l r => l.Symbol S a ∨ r.Symbol S a
  | opt e => e.Symbol S a
  | star e => e.Symbol S a
  | plus e => e.Symbol S a
  | rep _ e => e.Symbol S a

/-- The negated classes `\D`, `\S` and `\W` are not written in brackets. -/
def NoNegEsc : ReText → Prop
  | lit _ => True
  | esc _ => True
  | bracket _ items => ∀ c ∈ ['D', 'S', 'W'], ReItem.esc c ∉ items
  | group e => e.NoNegEsc
  | cat l r => l.NoNegEsc ∧ r.NoNegEsc
  | alt l r => l.NoNegEsc ∧ r.NoNegEsc
  | opt e => e.NoNegEsc
  | star e => e.NoNegEsc
  | plus e => e.NoNegEsc
  | rep _ e => e.NoNegEsc

/-- The structure of the expression, without its symbols and its parentheses. -/
def shape (C : ReClasses) : ReText → Regex Unit
  | lit _ => .sym ()
  | esc _ => .sym ()
  | bracket _ _ => .sym ()
  | group e => e.shape C
  | cat l r => .cat (l.shape C) (r.shape C)
  | alt l r => .alt (l.shape C) (r.shape C)
  | opt e => .opt (e.shape C)
  | star e => .star (e.shape C)
  | plus e => .plus (e.shape C)
  | rep f e => .rep (f.lo C) (f.hi C) (e.shape C)

end ReText

/-- The list of tokens is the text cut into pieces, with some `.` inserted. -/
inductive Catified : List (List Char) → List Char → Prop
  | nil : Catified [] []
  | keep (t : List Char) {ts : List (List Char)} {s : List Char} : t ≠ [] → Catified ts s → Catified (t :: ts) (t ++ s)
  | insert {ts : List (List Char)} {s : List Char} : Catified ts s → Catified (['.'] :: ts) s

/-- What a token of a regular expression may be: a character, an escape sequence, a class, or a repetition
`\{\s*\d+(\s*,)?(\s*\d+)?\s*\}`. -/
inductive ReToken (C : RegexText.ReClasses) : List Char → Prop
  | chr (c : Char) : ReToken C [c]
  | esc {c : Char} : c ∈ ['a', 'b', 'd', 'D', 'f', 'n', 'r', 's', 'S', 't', 'v', 'w', 'W', '*', '+', '?', '.', '|', '[', ']',
      '(', ')', '{', '}'] → ReToken C ['\\', c]
  | cls {body : List Char} : ']' ∉ body → ReToken C ('[' :: (body ++ [']']))
  | rep {s d c t s' : List Char} : s.all C.space = true → d.all C.digit = true → d ≠ [] →
      (c = [] ∨ ∃ r, r.all C.space = true ∧ c = r ++ [',']) →
      (t = [] ∨ ∃ r d', r.all C.space = true ∧ d'.all C.digit = true ∧ d' ≠ [] ∧ t = r ++ d') →
      s'.all C.space = true → ReToken C ('{' :: ((s ++ d ++ c ++ t ++ s') ++ ['}']))

end PyBGL
