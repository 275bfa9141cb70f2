import Verif.Model.ShuntingYard
import Verif.Model.Thompson

/-!
# From the text of a regular expression to an automaton

`shunting_yard_postfix.py` (tokenisation of regular expressions), the parsers of `thompson_compile_nfa.py`, `regexp.py`.
Strings are lists of characters (Unicode scalar values: a `str` may also hold lone surrogates). The matcher
of the standard library (`re`) is not modelled in general; `matchAt` models the only pattern used here.
-/

namespace PyBGL
namespace RegexText

/-- The character classes of the standard library: `\s` and `\d` in a `str` pattern, and the value `int` gives to a
digit. Sets and values are left abstract. -/
structure ReClasses where
  space : Char → Bool
  digit : Char → Bool
  val : Char → Nat

/-- `string.printable` (thompson_compile_nfa.py:20). -/
def defaultAlphabet : List Char :=
  ['0', '1', '2', '3', '4', '5', '6', '7', '8', '9', 'a', 'b', 'c', 'd', 'e', 'f', 'g', 'h', 'i', 'j', 'k',
   'l', 'm', 'n', 'o', 'p', 'q', 'r', 's', 't', 'u', 'v', 'w', 'x', 'y', 'z', 'A', 'B', 'C', 'D', 'E', 'F',
   'G', 'H', 'I', 'J', 'K', 'L', 'M', 'N', 'O', 'P', 'Q', 'R', 'S', 'T', 'U', 'V', 'W', 'X', 'Y', 'Z', '!',
   '"', '#', '$', '%', '&', '\'', '(', ')', '*', '+', ',', '-', '.', '/', ':', ';', '<', '=', '>', '?', '@',
   '[', '\\', ']', '^', '_', '`', '{', '|', '}', '~', ' ', '\t', '\n', '\r', '\x0b', '\x0c']

/-- The keys of `MAP_OPERATORS_RE` and the parentheses (shunting_yard_postfix.py:136-149). -/
def singles : List Char := ['*', '+', '?', '.', '|', '(', ')']

/-- The letters that may follow a backslash in a token (shunting_yard_postfix.py:156). -/
def escapable : List Char :=
  ['a', 'b', 'd', 'D', 'f', 'n', 'r', 's', 'S', 't', 'v', 'w', 'W', '*', '+', '?', '.', '|', '[', ']', '(', ')', '{', '}']

/-- The content of a repetition, between the braces: `\s*\d+(\s*,)?(\s*\d+)?\s*` (shunting_yard_postfix.py:151). `re`
backtracks; as spaces, digits and the comma are distinct, reading as much as possible finds the same matches. -/
def repContent (C : ReClasses) (s : List Char) : Bool :=
  let s := s.dropWhile C.space
  let d := s.takeWhile C.digit
  let s := (s.dropWhile C.digit).dropWhile C.space
  let s := match s with
    | ',' :: s => s
    | s => s
  let s := ((s.dropWhile C.space).dropWhile C.digit).dropWhile C.space
  !d.isEmpty && s.isEmpty

/-- Length of the token found at the beginning of `s` by the pattern made of `RE_OPERATORS_RE`
(shunting_yard_postfix.py:146-157, 224). The alternatives begin with distinct characters, hence their order (that of a
set) is irrelevant. -/
def matchAt (C : ReClasses) (s : List Char) : Option Nat :=
  match s with
  | [] => none
  | c :: cs =>
    if c ∈ singles then some 1
    else if c = '{' then
      let body := cs.takeWhile (· ≠ '}')
      if body.length < cs.length ∧ repContent C body then some (body.length + 2) else none
    else if c = '[' then
      let body := cs.takeWhile (· ≠ ']')
      if body.length < cs.length then some (body.length + 2) else none
    else if c = '\\' then
      match cs with
      | d :: _ => if d ∈ escapable then some 2 else none
      | [] => none
    else none

/-- The spans of the matches found by `finditer` (tokenize.py:64) in the suffix beginning at `pos`, the first `skip`
characters of which belong to the previous match. -/
def spans (C : ReClasses) : List Char → Nat → Nat → List (Nat × Nat)
  | [], _, _ => []
  | _ :: cs, pos, skip + 1 => spans C cs (pos + 1) skip
  | c :: cs, pos, 0 =>
    match matchAt C (c :: cs) with
    | some (n + 1) => (pos, pos + n + 1) :: spans C cs (pos + 1) n
    | _ => spans C cs (pos + 1) 0

/-- `CatifyTokenizeVisitor` with `cat = "."` (shunting_yard_postfix.py:160-202): the list `expression` and
`prev_needs_cat`. -/
structure CatState where
  expression : List (List Char) := []
  needsCat : Bool := false
  deriving DecidableEq, Repr

/-- One iteration of the loop of `on_unmatched` (shunting_yard_postfix.py:183-187). -/
def catChar (s : CatState) (a : Char) : CatState :=
  ⟨s.expression ++ (if s.needsCat then [['.']] else []) ++ [[a]], true⟩

/-- `on_matched` (shunting_yard_postfix.py:192-202); the token is not empty. -/
def catTok (s : CatState) (m : List Char) : CatState :=
  ⟨s.expression ++
      (if s.needsCat ∧ (m.head? = some '[' ∨ m.head? = some '(' ∨ m.head? = some '\\') then [['.']] else []) ++ [m],
    decide (m ≠ ['('] ∧ m ≠ ['|'])⟩

/-- The notifications received from `tokenize`. -/
def catEvent (s : CatState) : TokenizeEvent Char → CatState
  | .unmatched u _ _ => u.foldl catChar s
  | .matched m _ _ => catTok s m

/-- `catify(s)`, that is `tokenizer_re(s)` (shunting_yard_postfix.py:205-246). -/
def tokenizerRe (C : ReClasses) (s : List Char) : List (List Char) :=
  ((tokenize s (spans C s 0 0)).foldl catEvent {}).expression

/-- `MAP_OPERATORS_RE` (shunting_yard_postfix.py:136-144). -/
def reTable : OpTable (List Char) where
  lpar := ['(']
  rpar := [')']
  ops := [(['*'], ⟨1, 4, .left⟩), (['+'], ⟨1, 4, .left⟩), (['?'], ⟨1, 3, .left⟩), (['.'], ⟨2, 2, .left⟩),
    (['|'], ⟨2, 1, .left⟩)]

/-- `int` of a string of digits. The limit on the number of digits of recent versions of CPython is not modelled. -/
def toInt (C : ReClasses) (ds : List Char) : Nat := ds.foldl (fun n d => 10 * n + C.val d) 0

/-- `parse_repetition` (thompson_compile_nfa.py:370-403). The two patterns are matched from the left, as for
`repContent`. -/
def parseRepetition (C : ReClasses) (s : List Char) : Except PyErr (Nat × Option Nat) :=
  match s with
  | '{' :: s =>
    let s := s.dropWhile C.space
    let d := s.takeWhile C.digit
    let s := (s.dropWhile C.digit).dropWhile C.space
    match s with
    | '}' :: _ => if d.isEmpty then .error .runtimeError else .ok (toInt C d, some (toInt C d))
    | ',' :: s =>
      let s := s.dropWhile C.space
      let d' := s.takeWhile C.digit
      match (s.dropWhile C.digit).dropWhile C.space with
      | '}' :: _ =>
        let m := if d.isEmpty then 0 else toInt C d
        if d'.isEmpty then .ok (m, none)
        else if toInt C d' < m then .error .valueError
        else .ok (m, some (toInt C d'))
      | _ => .error .runtimeError
    | _ => .error .runtimeError
  | _ => .error .runtimeError

/-- `{chr(c) for c in range(m, n + 1)}` (thompson_compile_nfa.py:447-448), restricted to Unicode scalar values. -/
def charRange (a b : Char) : List Char :=
  (List.range' a.toNat (b.toNat + 1 - a.toNat)).filterMap fun n => if n.isValidChar then some (Char.ofNat n) else none

/-- The loop of `parse_bracket` (thompson_compile_nfa.py:438-460). The list is `s[i:]`, closing bracket included; `last` is
`last_non_hat`; `esc` stands for `parse_escaped`. -/
def bracketLoop (esc : List Char → Except PyErr (List Char)) :
    List Char → Option Char → List Char → Except PyErr (List Char)
  | a :: b :: tl, last, accepted =>
    if a = '-' ∧ last.isSome then
      let m := last.getD a
      if m.toNat > b.toNat then .error .valueError
      else bracketLoop esc tl (some a) ((charRange m b).foldl setAdd accepted)
    else if a = '\\' then
      match esc [a, b] with
      | .error e => .error e
      | .ok cs => bracketLoop esc tl (some a) (cs.foldl setAdd accepted)
    else bracketLoop esc (b :: tl) (some a) (setAdd accepted a)
  | _, _, accepted => .ok accepted

/-- `whole_alphabet` after `if not whole_alphabet: whole_alphabet = DEFAULT_ALPHABET`
(thompson_compile_nfa.py:427-428); the collection may be iterated several times. -/
def alphabetOr (wa : List Char) : List Char := if wa.isEmpty then defaultAlphabet else wa

/-- `parse_bracket` (thompson_compile_nfa.py:406-461). -/
def parseBracketWith (esc : List Char → Except PyErr (List Char)) (wa : List Char) (s : List Char) :
    Except PyErr (List Char) :=
  match s with
  | [] => .error .indexError
  | c :: body =>
    if ¬ (c = '[' ∧ s.getLast? = some ']') then .error .valueError
    else if s.length < 3 then .error .valueError
    else if body.head? = some '^' then do
      let accepted ← bracketLoop esc body.tail none []
      .ok (((alphabetOr wa).foldl setAdd []).filter (· ∉ accepted))
    else bracketLoop esc body none []

/-- `MAP_ESCAPED_BRACKET` (thompson_compile_nfa.py:464-472), by the character that follows the backslash. -/
def escapedBracket : Char → Option (List Char)
  | 'd' => some ['[', '0', '-', '9', ']']
  | 'D' => some ['[', '^', '0', '-', '9', ']']
  | 's' => some ['[', ' ', '\t', ']']
  | 'S' => some ['[', '^', ' ', '\t', ']']
  | 'w' => some ['[', '0', '-', '9', 'A', '-', 'Z', 'a', '-', 'z', ']']
  | 'W' => some ['[', '^', '0', '-', '9', 'A', '-', 'Z', 'a', '-', 'z', ']']
  | _ => none

/-- `MAP_ESCAPED_SPECIAL` (thompson_compile_nfa.py:475-483). -/
def escapedSpecial : Char → Option Char
  | 'a' => some '\x07'
  | 'b' => some '\x08'
  | 'f' => some '\x0c'
  | 'n' => some '\n'
  | 'r' => some '\r'
  | 't' => some '\t'
  | 'v' => some '\x0b'
  | _ => none

/-- The characters that an escape sequence stands for themselves (thompson_compile_nfa.py:499-502). -/
def escapedSelf : List Char := ['+', '*', '?', '.', '|', '[', ']', '(', ')', '{', '}']

/-- `parse_escaped` (thompson_compile_nfa.py:486-517), for a string that begins with a backslash. The strings of
`MAP_ESCAPED_BRACKET` hold no backslash, so that the inner `parse_bracket` does not call `parse_escaped`. -/
def parseEscaped (wa : List Char) (s : List Char) : Except PyErr (List Char) :=
  match s with
  | [_, c] =>
    if c ∈ escapedSelf then .ok [c]
    else if c ∈ ['A', 'B', 'Z'] then .error .valueError
    else
      match escapedSpecial c with
      | some a => .ok [a]
      | none =>
        match escapedBracket c with
        | some r => parseBracketWith (fun _ => .error .runtimeError) wa r
        | none => .error .valueError
  | _ :: _ :: _ => .error .valueError
  | _ => .error .indexError

/-- `parse_bracket(s, whole_alphabet)`: the calls to `parse_escaped` (thompson_compile_nfa.py:453) do not pass the alphabet
on, hence use the default one. -/
def parseBracket (wa : List Char) (s : List Char) : Except PyErr (List Char) :=
  parseBracketWith (parseEscaped []) wa s

/-- `ThompsonShuntingYardVisitor.on_push_output` (thompson_compile_nfa.py:555-587), on the text of a token. `order` gives the
order in which a set of characters is iterated; the token is not empty. -/
def onPushText (C : ReClasses) (order : List Char → List Char) (wa : List Char) (stack : List (Thompson.Frag Char))
    (a : List Char) : Except PyErr (List (Thompson.Frag Char)) :=
  if a = ['.'] then Thompson.onPushOutput 'ε' stack .cat
  else if a = ['|'] then Thompson.onPushOutput 'ε' stack .alt
  else if a = ['?'] then Thompson.onPushOutput 'ε' stack .opt
  else if a = ['*'] then Thompson.onPushOutput 'ε' stack .star
  else if a = ['+'] then Thompson.onPushOutput 'ε' stack .plus
  else
    match a with
    | [] => .error .indexError
    | c :: _ =>
      if c = '{' then
        match stack with
        | [] => .error .indexError
        | _ :: _ => do
          let (m, n) ← parseRepetition C a
          Thompson.onPushOutput 'ε' stack (.rep m n)
      else if c = '[' then do
        let chars ← parseBracket wa a
        Thompson.onPushOutput 'ε' stack (.chars (order chars))
      else if c = '\\' then do
        let chars ← parseEscaped wa a
        Thompson.onPushOutput 'ε' stack (.chars (order chars))
      else Thompson.onPushOutput 'ε' stack (.lit c)

/-- `thompson_compile_nfa(expression, whole_alphabet)` (thompson_compile_nfa.py:524-593). A literal is a token of one character: the
only other tokens are those found by `matchAt`. `regexp.compile_nfa` (regexp.py:13-27) returns the first component, for
the default alphabet. -/
def compileText (C : ReClasses) (order : List Char → List Char) (wa : List Char) (expression : List Char) :
    Except PyErr (Thompson.Frag Char) :=
  if expression.isEmpty then .ok ((Nfa.init 'ε' [] 1).setFinal 0, 0, 0)
  else do
    let nfas ← ShuntingYard.run reTable (onPushText C order wa) (tokenizerRe C expression) []
    match nfas with
    | [x] => .ok x
    | _ => .error .assertionError

end RegexText
end PyBGL
