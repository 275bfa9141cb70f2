import Verif.Model.Distance

/-!
# The edit distances and the limit of recursion of Python

CPython raises `RecursionError`, a `RuntimeError`, when too many calls are nested. This model of the three methods `compute` has a limit on the number of nested
calls to `compute`, keeps `self.memoize` when the exception is raised, and counts the calls to `compute`.
-/

namespace PyBGL
variable {A : Type} [DecidableEq A]

/-- `self.memoize` and the number of calls to `compute` made so far (the code has no such counter: it serves to state how many calls are made). -/
structure MemoState where
  memo : Memo
  calls : Nat
  deriving DecidableEq, Repr

/-- What `compute(i, j)` does when `(i, j)` is not in `self.memoize`: give a value, the result of a call, or one more than the least result of several calls. -/
inductive EditPlan where
  | value (r : Nat)
  | same (i j : Nat)
  | oneMore (calls : List (Nat × Nat))
  deriving DecidableEq, Repr

/-- The expression of levenshtein_distance.py:69-78. -/
def levPlan (x y : List A) (i j : Nat) : EditPlan :=
  if ¬ j < y.length then .value (x.length - i)
  else if ¬ i < x.length then .value (y.length - j)
  else if x[i]? = y[j]? then .same (i + 1) (j + 1)
  else .oneMore [(i + 1, j), (i, j + 1), (i + 1, j + 1)]

/-- The expression of lcs_distance.py:68-76. -/
def lcsPlan (x y : List A) (i j : Nat) : EditPlan :=
  if ¬ j < y.length then .value (x.length - i)
  else if ¬ i < x.length then .value (y.length - j)
  else if x[i]? = y[j]? then .same (i + 1) (j + 1)
  else .oneMore [(i + 1, j), (i, j + 1)]

/-- The expression of damerau_levenshtein_distance.py:80-97. -/
def dlPlan (x y : List A) (i j : Nat) : EditPlan :=
  if ¬ j < y.length then .value (x.length - i)
  else if ¬ i < x.length then .value (y.length - j)
  else if x[i]? = y[j]? then .same (i + 1) (j + 1)
  else .oneMore ([(i + 1, j), (i, j + 1), (i + 1, j + 1)] ++ if swapped x y i j then [(i + 2, j + 2)] else [])

/-- Python's `min` of a list that is not empty. -/
def minOf : List Nat → Nat
  | [] => 0
  | [a] => a
  | a :: l => min a (minOf l)

/-- The arguments of `min`, evaluated from left to right. -/
def computeAll (f : Nat → Nat → MemoState → Except (PyErr × MemoState) (Nat × MemoState)) :
    List (Nat × Nat) → MemoState → Except (PyErr × MemoState) (List Nat × MemoState)
  | [], m => .ok ([], m)
  | (i, j) :: cs, m =>
    match f i j m with
    | .error r => .error r
    | .ok (r, m) =>
      match computeAll f cs m with
      | .error r => .error r
      | .ok (rs, m) => .ok (r :: rs, m)

/-- `compute(i, j)` when `L` more nested calls are allowed: levenshtein_distance.py:67-79, lcs_distance.py:66-77, damerau_levenshtein_distance.py:78-98. The
entry of `self.memoize` is written once the value is known. -/
def computeR (plan : Nat → Nat → EditPlan) : Nat → Nat → Nat → MemoState → Except (PyErr × MemoState) (Nat × MemoState)
  | 0, _, _, m => .error (.runtimeError, m)
  | L + 1, i, j, m =>
    let m : MemoState := ⟨m.memo, m.calls + 1⟩
    match m.memo.get? (i, j) with
    | some r => .ok (r, m)
    | none =>
      match plan i j with
      | .value r => .ok (r, ⟨m.memo.set (i, j) r, m.calls⟩)
      | .same i' j' =>
        match computeR plan L i' j' m with
        | .error r => .error r
        | .ok (r, m) => .ok (r, ⟨m.memo.set (i, j) r, m.calls⟩)
      | .oneMore cs =>
        match computeAll (computeR plan L) cs m with
        | .error r => .error r
        | .ok (rs, m) => .ok (1 + minOf rs, ⟨m.memo.set (i, j) (1 + minOf rs), m.calls⟩)

/-- `levenshtein_distance(x, y)`, levenshtein_distance.py:82-96, when `L` nested calls to `compute` are allowed. -/
def levenshteinLimited (L : Nat) (x y : List A) : Except (PyErr × MemoState) (Nat × MemoState) := computeR (levPlan x y) L 0 0 ⟨[], 0⟩

/-- `lcs_distance(x, y)`, lcs_distance.py:80-94, when `L` nested calls to `compute` are allowed. -/
def lcsLimited (L : Nat) (x y : List A) : Except (PyErr × MemoState) (Nat × MemoState) := computeR (lcsPlan x y) L 0 0 ⟨[], 0⟩

/-- `damerau_levenshtein_distance(x, y)`, damerau_levenshtein_distance.py:101-115, when `L` nested calls to `compute` are allowed. -/
def damerauLevenshteinLimited (L : Nat) (x y : List A) : Except (PyErr × MemoState) (Nat × MemoState) := computeR (dlPlan x y) L 0 0 ⟨[], 0⟩

end PyBGL
