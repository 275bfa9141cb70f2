/-!
# Python runtime vocabulary

Exceptions, dictionaries, sets and `while` loops, as used by every model file.
-/

namespace PyBGL

/-- The Python exceptions that the modelled code can raise. -/
inductive PyErr where
  | keyError
  | indexError
  | typeError
  | valueError
  | attributeError
  | runtimeError
  | unboundLocalError
  | notImplementedError
  | assertionError
  deriving DecidableEq, Repr

/-! ## Dictionaries -/

/-- A Python `dict`: association list in insertion order. Uniqueness of the keys is an invariant of
the operations below (`Dict.NodupKeys`). -/
abbrev Dict (K V : Type) := List (K × V)

namespace Dict
variable {K V : Type} [DecidableEq K]

/-- `d.get(k)`: `none` when the key is missing. -/
def get? : Dict K V → K → Option V
  | [], _ => none
  | (k, v) :: d, x => if k = x then some v else get? d x

/-- `d[k]`: raises `KeyError` when the key is missing. -/
def getE (d : Dict K V) (k : K) : Except PyErr V :=
  match get? d k with
  | some v => .ok v
  | none => .error .keyError

/-- `d.get(k, default)`, also `d[k]` for a `defaultdict` (ignoring the insertion of the default,
which is not observable through lookups). -/
def getD (d : Dict K V) (k : K) (dflt : V) : V := (get? d k).getD dflt

/-- `k in d`. -/
def contains (d : Dict K V) (k : K) : Bool := (get? d k).isSome

/-- `d[k] = v`: replaces in place when the key exists, appends otherwise. -/
def set : Dict K V → K → V → Dict K V
  | [], x, y => [(x, y)]
  | (k, v) :: d, x, y => if k = x then (k, y) :: d else (k, v) :: set d x y

/-- Removal of a key, if present. -/
def erase : Dict K V → K → Dict K V
  | [], _ => []
  | (k, v) :: d, x => if k = x then d else (k, v) :: erase d x

/-- `del d[k]`: raises `KeyError` when the key is missing. -/
def delE (d : Dict K V) (k : K) : Except PyErr (Dict K V) :=
  if contains d k then .ok (erase d k) else .error .keyError

/-- `d.keys()`. -/
def keys (d : Dict K V) : List K := d.map Prod.fst

/-- `d.values()`. -/
def values (d : Dict K V) : List V := d.map Prod.snd

/-- Representation invariant: a key occurs at most once. -/
def NodupKeys (d : Dict K V) : Prop := (d.map Prod.fst).Nodup

end Dict

/-! ## Sets -/

/-- `s.add(x)` on a Python `set` represented by a duplicate-free list. -/
def setAdd {α : Type} [DecidableEq α] (s : List α) (x : α) : List α :=
  if x ∈ s then s else s ++ [x]

/-- `s.discard(x)`. -/
def setDiscard {α : Type} [DecidableEq α] (s : List α) (x : α) : List α := s.filter (· ≠ x)

/-- `s.remove(x)`: raises `KeyError` when the element is missing. -/
def setRemoveE {α : Type} [DecidableEq α] (s : List α) (x : α) : Except PyErr (List α) :=
  if x ∈ s then .ok (setDiscard s x) else .error .keyError

/-- `s | t`. -/
def setUnion {α : Type} [DecidableEq α] (s t : List α) : List α := t.foldl setAdd s

/-- `set(iterable)`. -/
def mkSet {α : Type} [DecidableEq α] (l : List α) : List α := l.foldl setAdd []

/-! ## While loops -/

/-- Outcome of one iteration of a `while` loop: go on, leave the loop, or raise. -/
inductive Step (S R : Type) where
  | next (s : S)
  | done (r : R)
  | fail (e : PyErr)

/-- A `while` loop whose body is `step`, run for at most `fuel` iterations; `none` means that the fuel
ran out, i.e. that the loop did not terminate within `fuel` iterations. The number `t` of iterations
performed so far is handed to the body so that it can consult time-dependent oracles (order of
iteration over Python sets). -/
def loop {S R : Type} (step : Nat → S → Step S R) : (fuel t : Nat) → S → Option (Except PyErr R)
  | 0, _, _ => none
  | fuel + 1, t, s =>
    match step t s with
    | .next s' => loop step fuel (t + 1) s'
    | .done r => some (.ok r)
    | .fail e => some (.error e)

/-- `Returns run r`: the fuelled computation `run` terminates with the outcome `r`: every large enough
amount of fuel yields `r`. -/
def Returns {R : Type} (run : Nat → Option R) (r : R) : Prop := ∃ N, ∀ fuel, N ≤ fuel → run fuel = some r

/-- `Diverges run`: no amount of fuel suffices. -/
def Diverges {R : Type} (run : Nat → Option R) : Prop := ∀ fuel, run fuel = none

end PyBGL
