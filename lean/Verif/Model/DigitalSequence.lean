import Verif.Model.Graph

/-!
# Model of `digital_sequence.py`

A `DigitalSequence` is its word `w` (digital_sequence.py:21-29). States are non-negative integers.
-/

namespace PyBGL.DigitalSequence
variable {A : Type} [DecidableEq A]

/-- `self.w[q]`: raises `IndexError` beyond the end. -/
def charAt (w : List A) (q : Nat) : Except PyErr A :=
  match w[q]? with
  | some a => .ok a
  | none => .error .indexError

/-- `is_final`, digital_sequence.py:115-117. -/
def isFinal (w : List A) (q : Nat) : Bool := q = w.length

/-- `is_initial`, digital_sequence.py:107-109; `initial()` is 0 (digital_sequence.py:103-105). -/
def isInitial (q : Nat) : Bool := q = 0

/-- `initial`, digital_sequence.py:103-105. -/
def initial : Option Nat := some 0

/-- `delta`, digital_sequence.py:35-44. -/
def delta (w : List A) : Option Nat → A → Except PyErr (Option Nat)
  | none, _ => .ok none
  | some q, a =>
    if isFinal w q then .ok none
    else do
      let b ← charAt w q
      .ok (if b = a then some (q + 1) else none)

/-- `Automaton.delta_word` (inherited), automaton.py:328-346. -/
def deltaWord (w : List A) : Option Nat → List A → Except PyErr (Option Nat)
  | q, [] => .ok q
  | none, _ :: _ => .ok none
  | some q, a :: x => do
    let r ← delta w (some q) a
    deltaWord w r x

/-- `Automaton.accepts` (inherited), automaton.py:348-363. -/
def accepts (w x : List A) : Except PyErr Bool := do
  let q ← deltaWord w initial x
  match q with
  | none => .ok false
  | some q => .ok (isFinal w q)

/-- `vertices`, digital_sequence.py:87-89. -/
def vertices (w : List A) : List Nat := List.range (w.length + 1)

/-- `num_vertices`, digital_sequence.py:91-93. -/
def numVertices (w : List A) : Nat := w.length + 1

/-- `num_edges`, digital_sequence.py:95-97. -/
def numEdges (w : List A) : Nat := w.length

/-- `edges`, digital_sequence.py:80-85. -/
def edges (w : List A) : Except PyErr (List (EdgeDesc A)) :=
  (List.range w.length).mapM fun q => do
    let a ← charAt w q
    .ok ⟨q, q + 1, a⟩

/-- `out_edges`, digital_sequence.py:61-66. -/
def outEdges (w : List A) (q : Nat) : Except PyErr (List (EdgeDesc A)) :=
  if isFinal w q then .ok [] else do
    let a ← charAt w q
    .ok [⟨q, q + 1, a⟩]

/-- `in_edges`, digital_sequence.py:54-59. -/
def inEdges (w : List A) (q : Nat) : Except PyErr (List (EdgeDesc A)) :=
  if isInitial q then .ok [] else do
    let a ← charAt w (q - 1)
    .ok [⟨q - 1, q, a⟩]

/-- `sigma`, digital_sequence.py:76-78. -/
def sigma (w : List A) (q : Nat) : Except PyErr (List A) :=
  if isFinal w q then .ok [] else do
    let a ← charAt w q
    .ok [a]

/-- `alphabet`, digital_sequence.py:31-33. -/
def alphabet (w : List A) : List A := mkSet w

end PyBGL.DigitalSequence
