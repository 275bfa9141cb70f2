import Verif.Model.Graphviz
import Verif.Model.Misc

/-!
# `html_color_to_graphviz`
-/

namespace PyBGL
namespace Graphviz

/-- The digits read by `int(s)`, after the sign: `acc` is the value so far, `_` is allowed between two digits. The digits of other scripts,
which `int` also reads, are not modelled. -/
def intDigits : Nat → Text → Option Nat
  | acc, [] => some acc
  | acc, c :: t =>
    if isDig c then intDigits (10 * acc + (c.toNat - 48)) t
    else if c = '_' then
      match t with
      | [] => none
      | d :: t => if isDig d then intDigits (10 * acc + (d.toNat - 48)) t else none
    else none

/-- A nonempty sequence of digits. -/
def intNat : Text → Option Nat
  | [] => none
  | c :: t => if isDig c then intDigits (c.toNat - 48) t else none

/-- Python's `int(s)` on a string: white space around, an optional sign, decimal digits; otherwise `ValueError`. -/
def pyInt (s : Text) : Except PyErr Int :=
  match strip s with
  | '-' :: t => match intNat t with
    | some n => .ok (-n)
    | none => .error .valueError
  | '+' :: t => match intNat t with
    | some n => .ok n
    | none => .error .valueError
  | t => match intNat t with
    | some n => .ok n
    | none => .error .valueError

/-- `s.split(c)` for one character; `cur` is the current piece, reversed. -/
def splitOn (c : Char) : Text → Text → List Text
  | cur, [] => [cur.reverse]
  | cur, d :: t => if d = c then cur.reverse :: splitOn c [] t else splitOn c (d :: cur) t

/-- `s[s.find("(") + 1: s.rfind(")")]`, color.py:87-91: if there is no `(`, `find` returns `-1` and the slice starts at 0; if there is no `)`, the
slice stops before the last character. -/
def betweenParens (s : Text) : Text :=
  let start := match s.findIdx? (· = '(') with
    | some j => j + 1
    | none => 0
  let stop := match s.reverse.findIdx? (· = ')') with
    | some k => s.length - 1 - k
    | none => s.length - 1
  (s.take stop).drop start

section
variable {K : Type} [Field K] [LinearOrder K]

/-- `normalize_color_tuple`, color.py:59-71. -/
def normalizeColorTuple (hue saturation x : Int) : K × K × K :=
  ((hue : K) / 360, (saturation : K) / 100, (x : K) / 100)

/-- `html_color_to_graphviz`, color.py:74-101. `str` is Python's `str` on floats, which are elements of an ordered field: rounding is not
modelled. Unpacking a list which does not have three items raises `ValueError`. -/
def htmlColorToGraphviz (str : K → Text) (color : Text) : Except PyErr Text :=
  if ['h', 's', 'l'].isPrefixOf color then do
    let l ← (splitOn ',' [] (betweenParens color)).mapM fun x => pyInt (x.filter (· ≠ '%'))
    match l with
    | [hue, saturation, lightness] =>
      let n : K × K × K := normalizeColorTuple hue saturation lightness
      let r := hslToHsv n.1 n.2.1 n.2.2
      .ok (join [',', ' '] [str r.1, str r.2.1, str r.2.2])
    | _ => .error .valueError
  else .ok color

end
end Graphviz
end PyBGL
