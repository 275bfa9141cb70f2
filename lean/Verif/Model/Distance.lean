import Verif.Prelude.Py

/-!
# Model of `levenshtein_distance.py`, `lcs_distance.py` and `damerau_levenshtein_distance.py`

Words are lists of symbols. Each `compute` threads the dictionary `self.memoize`; the recursion is the one
of the code (no fuel: it terminates because `i` and `j` grow up to the lengths of the words). The class
is only used through `compute(0, 0)`.
-/

namespace PyBGL
variable {A : Type} [DecidableEq A]

/-- The dictionary `self.memoize`. -/
abbrev Memo := Dict (Nat × Nat) Nat

/-- `LevenshteinDistance.compute`, levenshtein_distance.py:53-79. -/
def levCompute (x y : List A) (i j : Nat) (m : Memo) : Nat × Memo :=
  match m.get? (i, j) with
  | some r => (r, m)
  | none =>
    if hj : ¬ j < y.length then
      let r := x.length - i
      (r, m.set (i, j) r)
    else if hi : ¬ i < x.length then
      let r := y.length - j
      (r, m.set (i, j) r)
    else if x[i]'(Decidable.not_not.1 hi) = y[j]'(Decidable.not_not.1 hj) then
      let (r, m) := levCompute x y (i + 1) (j + 1) m
      (r, m.set (i, j) r)
    else
      let (r1, m) := levCompute x y (i + 1) j m
      let (r2, m) := levCompute x y i (j + 1) m
      let (r3, m) := levCompute x y (i + 1) (j + 1) m
      let r := 1 + min (min r1 r2) r3
      (r, m.set (i, j) r)
termination_by (x.length - i) + (y.length - j)

/-- `levenshtein_distance`, levenshtein_distance.py:82-96. -/
def levenshteinDistance (x y : List A) : Nat := (levCompute x y 0 0 []).1

/-- `levenshtein_distance_naive`, levenshtein_distance.py:7-33 (its recursive calls go to the memoized
version). -/
def levenshteinDistanceNaive (x y : List A) : Nat :=
  match x, y with
  | x, [] => x.length
  | [], y => y.length
  | a :: x₁, b :: y₁ =>
    if a = b then levenshteinDistance x₁ y₁
    else 1 + min (min (levenshteinDistance x₁ (b :: y₁)) (levenshteinDistance (a :: x₁) y₁))
      (levenshteinDistance x₁ y₁)

/-- `LcsDistance.compute`, lcs_distance.py:52-77. -/
def lcsCompute (x y : List A) (i j : Nat) (m : Memo) : Nat × Memo :=
  match m.get? (i, j) with
  | some r => (r, m)
  | none =>
    if hj : ¬ j < y.length then
      let r := x.length - i
      (r, m.set (i, j) r)
    else if hi : ¬ i < x.length then
      let r := y.length - j
      (r, m.set (i, j) r)
    else if x[i]'(Decidable.not_not.1 hi) = y[j]'(Decidable.not_not.1 hj) then
      let (r, m) := lcsCompute x y (i + 1) (j + 1) m
      (r, m.set (i, j) r)
    else
      let (r1, m) := lcsCompute x y (i + 1) j m
      let (r2, m) := lcsCompute x y i (j + 1) m
      let r := 1 + min r1 r2
      (r, m.set (i, j) r)
termination_by (x.length - i) + (y.length - j)

/-- `lcs_distance`, lcs_distance.py:80-94. -/
def lcsDistance (x y : List A) : Nat := (lcsCompute x y 0 0 []).1

/-- `lcs_distance_naive`, lcs_distance.py:7-32 (its recursive calls go to the memoized version). -/
def lcsDistanceNaive (x y : List A) : Nat :=
  match x, y with
  | x, [] => x.length
  | [], y => y.length
  | a :: x₁, b :: y₁ =>
    if a = b then lcsDistance x₁ y₁
    else 1 + min (lcsDistance x₁ (b :: y₁)) (lcsDistance (a :: x₁) y₁)

/-- The test of damerau_levenshtein_distance.py:91-93 (`i + 1` and `j + 1` are in range, and the two
pairs of symbols are swapped). -/
def swapped (x y : List A) (i j : Nat) : Bool :=
  match x[i]?, x[i + 1]?, y[j]?, y[j + 1]? with
  | some a, some b, some c, some d => decide (a = d ∧ b = c)
  | _, _, _, _ => false

/-- `DamerauLevenshteinDistance.compute`, damerau_levenshtein_distance.py:63-98. -/
def dlCompute (x y : List A) (i j : Nat) (m : Memo) : Nat × Memo :=
  match m.get? (i, j) with
  | some r => (r, m)
  | none =>
    if hj : ¬ j < y.length then
      let r := x.length - i
      (r, m.set (i, j) r)
    else if hi : ¬ i < x.length then
      let r := y.length - j
      (r, m.set (i, j) r)
    else if x[i]'(Decidable.not_not.1 hi) = y[j]'(Decidable.not_not.1 hj) then
      let (r, m) := dlCompute x y (i + 1) (j + 1) m
      (r, m.set (i, j) r)
    else
      let (r1, m) := dlCompute x y (i + 1) j m
      let (r2, m) := dlCompute x y i (j + 1) m
      let (r3, m) := dlCompute x y (i + 1) (j + 1) m
      if swapped x y i j then
        let (r4, m) := dlCompute x y (i + 2) (j + 2) m
        let r := 1 + min (min (min r1 r2) r3) r4
        (r, m.set (i, j) r)
      else
        let r := 1 + min (min r1 r2) r3
        (r, m.set (i, j) r)
termination_by (x.length - i) + (y.length - j)

/-- `damerau_levenshtein_distance`, damerau_levenshtein_distance.py:101-115. -/
def damerauLevenshteinDistance (x y : List A) : Nat := (dlCompute x y 0 0 []).1

/-- `damerau_levenshtein_distance_naive`, damerau_levenshtein_distance.py:7-42. -/
def damerauLevenshteinDistanceNaive : List A → List A → Nat
  | x, [] => x.length
  | [], y => y.length
  | a :: x₁, b :: y₁ =>
    if a = b then damerauLevenshteinDistanceNaive x₁ y₁
    else
      let r := min (min (damerauLevenshteinDistanceNaive x₁ (b :: y₁))
        (damerauLevenshteinDistanceNaive (a :: x₁) y₁)) (damerauLevenshteinDistanceNaive x₁ y₁)
      match x₁, y₁ with
      | a' :: x₂, b' :: y₂ =>
        if a = b' ∧ a' = b then 1 + min r (damerauLevenshteinDistanceNaive x₂ y₂) else 1 + r
      | _, _ => 1 + r
termination_by x y => x.length + y.length

end PyBGL
