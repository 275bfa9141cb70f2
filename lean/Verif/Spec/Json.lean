/-!
# JSON texts (specification)

The grammar of RFC 8259, restricted to the natural numbers and to the strings written without escape sequence.
-/

namespace PyBGL

/-- JSON values. -/
inductive JVal where
  | num (n : Nat)
  | str (s : List Char)
  | arr (l : List JVal)
  | obj (l : List (List Char × JVal))

namespace Json

/-- White space of RFC 8259. -/
def isWs (c : Char) : Bool := c = ' ' || c = '\n' || c = '\t' || c = '\r'

/-- A sequence of white spaces. -/
def Ws (w : List Char) : Prop := ∀ c ∈ w, isWs c = true

/-- The characters that a string may contain without escape sequence: neither the quotation mark, nor the backslash, nor a control character. -/
def isPlain (c : Char) : Bool := c != '"' && c != '\\' && decide (32 ≤ c.toNat)

/-- A string without escape sequence. -/
def Plain (s : List Char) : Prop := ∀ c ∈ s, isPlain c = true

/-- The text of a string. -/
def quote (s : List Char) : List Char := '"' :: (s ++ ['"'])

/-- What a piece of text denotes: a value, the elements of an array or the members of an object. -/
inductive Kind where
  | value (v : JVal)
  | items (l : List JVal)
  | members (l : List (List Char × JVal))

/-- The grammar: `Gram k t` when the text `t` denotes `k`. -/
inductive Gram : Kind → List Char → Prop
  | num (n : Nat) : Gram (.value (.num n)) (Nat.toDigits 10 n)
  | str {s : List Char} (h : Plain s) : Gram (.value (.str s)) (quote s)
  | arrNil {w : List Char} (h : Ws w) : Gram (.value (.arr [])) ('[' :: (w ++ [']']))
  | arr {l : List JVal} {t : List Char} (h : Gram (.items l) t) : Gram (.value (.arr l)) ('[' :: (t ++ [']']))
  | objNil {w : List Char} (h : Ws w) : Gram (.value (.obj [])) ('{' :: (w ++ ['}']))
  | obj {l : List (List Char × JVal)} {t : List Char} (h : Gram (.members l) t) : Gram (.value (.obj l)) ('{' :: (t ++ ['}']))
  | item {v : JVal} {w t w' : List Char} (h : Ws w) (hv : Gram (.value v) t) (h' : Ws w') : Gram (.items [v]) (w ++ (t ++ w'))
  | items {v : JVal} {l : List JVal} {w t w' t' : List Char} (h : Ws w) (hv : Gram (.value v) t) (h' : Ws w') (hl : Gram (.items l) t') :
      Gram (.items (v :: l)) (w ++ (t ++ (w' ++ ',' :: t')))
  | member {k : List Char} {v : JVal} {w w1 w2 t w' : List Char} (h : Ws w) (hk : Plain k) (h1 : Ws w1) (h2 : Ws w2)
      (hv : Gram (.value v) t) (h' : Ws w') : Gram (.members [(k, v)]) (w ++ (quote k ++ (w1 ++ ':' :: (w2 ++ (t ++ w')))))
  | members {k : List Char} {v : JVal} {l : List (List Char × JVal)} {w w1 w2 t w' t' : List Char} (h : Ws w) (hk : Plain k) (h1 : Ws w1)
      (h2 : Ws w2) (hv : Gram (.value v) t) (h' : Ws w') (hl : Gram (.members l) t') :
      Gram (.members ((k, v) :: l)) (w ++ (quote k ++ (w1 ++ ':' :: (w2 ++ (t ++ (w' ++ ',' :: t'))))))

/-- A JSON document. -/
def Doc (v : JVal) (t : List Char) : Prop := ∃ w t' w', Ws w ∧ Gram (.value v) t' ∧ Ws w' ∧ t = w ++ (t' ++ w')

end Json
end PyBGL
