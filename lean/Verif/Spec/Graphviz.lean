/-!
# Specification: lists of attributes of the DOT language
-/

namespace PyBGL

/-- A value of the DOT language: a quoted string or an HTML string. -/
inductive DotValue where
  | quoted (v : List Char)
  | html (v : List Char)
  deriving DecidableEq

/-- `k="v"` or `k=<v>`. The key contains no `=`, and a quoted string no quote: there is only one way to read the text. -/
inductive DotAttr : List Char → DotValue → List Char → Prop
  | quoted {k v : List Char} : '=' ∉ k → '"' ∉ v → DotAttr k (.quoted v) (k ++ '=' :: '"' :: (v ++ ['"']))
  | html {k v : List Char} : '=' ∉ k → '<' ∉ v → '>' ∉ v → DotAttr k (.html v) (k ++ '=' :: '<' :: (v ++ ['>']))

/-- Attributes separated by semicolons. -/
inductive DotAttrs : List (List Char × DotValue) → List Char → Prop
  | nil : DotAttrs [] []
  | one {k : List Char} {v : DotValue} {t : List Char} : DotAttr k v t → DotAttrs [(k, v)] t
  | cons {k : List Char} {v : DotValue} {t : List Char} {l : List (List Char × DotValue)} {t' : List Char} :
    DotAttr k v t → l ≠ [] → DotAttrs l t' → DotAttrs ((k, v) :: l) (t ++ ';' :: ' ' :: t')

/-- A statement `kw [attributes]` setting default attributes; nothing is written when there is none. -/
def DotStmt (kw : List Char) (d : List (List Char × List Char)) (t : List Char) : Prop :=
  (d = [] ∧ t = []) ∨
    (d ≠ [] ∧ ∃ a, DotAttrs (d.map fun p => (p.1, DotValue.quoted p.2)) a ∧ t = kw ++ ' ' :: '[' :: (a ++ [']']))

/-- `\s*(\[(.*)\])?\s*;` matches a prefix of `t`, and its first group is `opts`. The predicate `sp` tells the white space. -/
def DotTail (sp : Char → Bool) (opts : Option (List Char)) (t : List Char) : Prop :=
  ∃ s s' rest, (∀ c ∈ s, sp c = true) ∧ (∀ c ∈ s', sp c = true) ∧
    match opts with
    | none => t = s ++ s' ++ ';' :: rest
    | some o => ∃ p, o = '[' :: (p ++ [']']) ∧ '\n' ∉ p ∧ t = s ++ o ++ s' ++ ';' :: rest

/-- `[0-9]+`. -/
def DotId (u : List Char) : Prop := u ≠ [] ∧ ∀ c ∈ u, '0' ≤ c ∧ c ≤ '9'

/-- The line starts with a statement describing the vertex `u`. -/
def DotVertexLine (sp : Char → Bool) (u : List Char) (opts : Option (List Char)) (t : List Char) : Prop :=
  DotId u ∧ ∃ t', t = u ++ t' ∧ DotTail sp opts t'

/-- The line starts with a statement describing an edge from `u` to `v`. -/
def DotEdgeLine (sp : Char → Bool) (u v : List Char) (opts : Option (List Char)) (t : List Char) : Prop :=
  DotId u ∧ DotId v ∧ ∃ s s' t', (∀ c ∈ s, sp c = true) ∧ (∀ c ∈ s', sp c = true) ∧
    t = u ++ s ++ '-' :: '>' :: (s' ++ v ++ t') ∧ DotTail sp opts t'

/-- The code points of the white space of Unicode, as `str.isspace` knows them. -/
def whiteCodes : List Nat :=
  [9, 10, 11, 12, 13, 28, 29, 30, 31, 32, 133, 160, 5760, 8192, 8193, 8194, 8195, 8196, 8197, 8198, 8199, 8200, 8201, 8202, 8232, 8233,
    8239, 8287, 12288]

/-- White space. -/
def White (c : Char) : Bool := whiteCodes.contains c.toNat

end PyBGL
