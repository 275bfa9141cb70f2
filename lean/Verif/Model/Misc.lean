import Verif.Model.Search
import Verif.Model.ShuntingYard
import Mathlib.Algebra.Order.Field.Basic

/-!
# Colours, Graphviz escapes, property maps, aggregated visitors
-/

namespace PyBGL

/-! ## `color.py` -/

section Colour
variable {K : Type} [Field K] [LinearOrder K]

/-- `hsv_to_hsl`, color.py:15-34. Floats are replaced by the elements of an ordered field: rounding is not modelled. -/
def hsvToHsl (h s v : K) : K × K × K :=
  let l := v * (1 - s / 2)
  let s' := if l = 0 ∨ l = 1 then 0 else (v - l) / min l (1 - l)
  (h, s', l)

/-- `hsl_to_hsv`, color.py:37-56. -/
def hslToHsv (h s l : K) : K × K × K :=
  let v := l + s * min l (1 - l)
  let s' := if v = 0 then 0 else 2 * (1 - l / v)
  (h, s', v)

end Colour

/-! ## `graphviz_impl.py` -/

/-- `GRAPHVIZ_MAP_CHAR_ESCAPED`, graphviz_impl.py:141-152. -/
def graphvizMapCharEscaped : Dict Char (List Char) :=
  [('&', "&#38;".toList), ('<', "&#60;".toList), ('>', "&#62;".toList), ('\n', "\\n".toList), ('\t', "\\t".toList),
   ('\r', "\\r".toList), ('[', "&#91;".toList), (']', "&#93;".toList), ('{', "&#123;".toList), ('}', "&#125;".toList)]

/-- `"%02x" % n` for `n < 256`: two hexadecimal digits. -/
def hex2 (n : Nat) : List Char := [(n / 16).digitChar, (n % 16).digitChar]

/-- `graphviz_escape_char`, graphviz_impl.py:155-168. -/
def graphvizEscapeChar (a : Char) : List Char :=
  match graphvizMapCharEscaped.get? a with
  | some e => e
  | none => if a.toNat < 32 then '\\' :: 'x' :: hex2 a.toNat ++ [';'] else [a]

/-- `EscapeHtmlTokenizeVisitor`, graphviz_impl.py:171-183: the text appended to `out` by a notification. -/
def escapeChunk : TokenizeEvent Char → List Char
  | .unmatched c _ _ => c.flatMap graphvizEscapeChar
  | .matched c _ _ => c

/-- `graphviz_escape_html`, graphviz_impl.py:186-198; `spans` are the matches of `GRAPHVIZ_HTML_TOKENIZER` in `s`, found by
the module `re`. -/
def graphvizEscapeHtml (s : List Char) (spans : List (Nat × Nat)) : List Char := (tokenize s spans).flatMap escapeChunk

/-! ## `property_map.py` -/

/-- `AssocPropertyMap`, property_map.py:249-273, on a `defaultdict`: its items and the value made by its `default_factory`,
`none` for `defaultdict()`, which has none. The factory makes an immutable value (`int`, `str`...) -/
structure AssocMap (K W : Type) where
  d : Dict K W
  factory : Option W

namespace AssocMap
variable {K W : Type} [DecidableEq K]

/-- `AssocPropertyMap.__getitem__`, property_map.py:267-269, that is `defaultdict.__getitem__`: a missing key is inserted. -/
def getItem (m : AssocMap K W) (k : K) : Except PyErr (W × AssocMap K W) :=
  match m.d.get? k with
  | some x => .ok (x, m)
  | none =>
    match m.factory with
    | none => .error .keyError
    | some x => .ok (x, { m with d := m.d.set k x })

/-- `AssocPropertyMap.__setitem__`, property_map.py:271-273. -/
def setItem (m : AssocMap K W) (k : K) (x : W) : AssocMap K W := { m with d := m.d.set k x }

/-- The operations on a property map. -/
inductive Op (K W : Type) where
  | get (k : K)
  | put (k : K) (x : W)

/-- One operation; a read that raises leaves the map as it is. -/
def exec (m : AssocMap K W) : Op K W → AssocMap K W
  | .get k => match m.getItem k with
    | .ok (_, m) => m
    | .error _ => m
  | .put k x => m.setItem k x

end AssocMap

/-! ## `aggregated_visitor.py` -/

/-- `AggregatedVisitor.__getattr__`, aggregated_visitor.py:21-33: each call is handed to the visitors one after the other. The state
is that of all the visitors together. Keyword arguments are dropped; the algorithms pass none. -/
def aggregate {Ev σ : Type} (vs : List (Visitor Ev σ)) : Visitor Ev σ := fun e s => vs.foldlM (fun s v => v e s) s

/-- A visitor which is one of `n` objects: it reads and writes its own attributes, and no other. -/
def ownState {Ev : Type} {n : Nat} {σ : Fin n → Type} (i : Fin n) (v : Visitor Ev (σ i)) : Visitor Ev ((j : Fin n) → σ j) :=
  fun e w => match v e (w i) with
    | .error err => .error err
    | .ok s => .ok (fun j => if h : i = j then h ▸ s else w j)

end PyBGL
