import Verif.Model.Nfa

/-!
# Model of `thompson_compile_nfa.py` (construction of the NFA) and `regexp.py`

The functions of the library mutate and return their first automaton; the automata they combine are distinct
objects (`copy.deepcopy` is called whenever the same automaton is used twice), so that the model passes
values. `eps` is the module constant `EPSILON`.
-/

namespace PyBGL
namespace Thompson
variable {A : Type} [DecidableEq A]

/-- An NFA with its initial and its final state: the triples handled by the module. -/
abbrev Frag (A : Type) := Nfa A × Nat × Nat

/-- `literal`, thompson_compile_nfa.py:44-61. -/
def literal (eps a : A) : Frag A :=
  ((((Nfa.init eps [] 2).addEdge 0 1 a).2).setFinal 1, 0, 1)

/-- `bracket`, thompson_compile_nfa.py:345-363; `chars` is the set of characters in its iteration order. -/
def bracket (eps : A) (chars : List A) : Frag A :=
  (chars.foldl (fun g a => (g.addEdge 0 1 a).2) ((Nfa.init eps [] 2).setFinal 1), 0, 1)

/-- One iteration of the first loop of `insert_automaton`, thompson_compile_nfa.py:82-88. -/
def insertVertex (g2 : Nfa A) (s : Nfa A × Dict Nat Nat) (q2 : Nat) : Nfa A × Dict Nat Nat :=
  if s.2.contains q2 then s
  else
    let (q1, g1) := s.1.addVertex
    (if g2.isFinal q2 then g1.setFinal q1 else g1, s.2.set q2 q1)

/-- One iteration of the second loop of `insert_automaton`, thompson_compile_nfa.py:89-95. -/
def insertEdge (map21 : Dict Nat Nat) (g1 : Nfa A) (e2 : EdgeDesc (A × List Nat)) : Except PyErr (Nfa A) := do
  let q1 ← map21.getE e2.source
  let r1 ← map21.getE e2.target
  .ok (g1.addEdge q1 r1 e2.distinguisher.1).2

/-- `insert_automaton`, thompson_compile_nfa.py:64-96, with the default `map21 = None`. -/
def insertAutomaton (g1 g2 : Nfa A) : Except PyErr (Nfa A × Dict Nat Nat) := do
  let s := g2.vertices.foldl (insertVertex g2) (g1, [])
  let g1 ← g2.edges.foldlM (insertEdge s.2) s.1
  .ok (g1, s.2)

/-- `concatenation`, thompson_compile_nfa.py:99-133. -/
def concatenation (x1 x2 : Frag A) : Except PyErr (Frag A) := do
  let (nfa1, q01, f1) := x1
  let (nfa2, q02, f2) := x2
  let (nfa1, map21) ← insertAutomaton nfa1 nfa2
  let r ← map21.getE q02
  let nfa1 := (nfa1.addEdge f1 r nfa1.eps).2
  let nfa1 := nfa1.setInitials [q01]
  let nfa1 := nfa1.setFinal f1 false
  let f ← map21.getE f2
  .ok (nfa1, q01, f)

/-- `alternation`, thompson_compile_nfa.py:136-176. -/
def alternation (x1 x2 : Frag A) : Except PyErr (Frag A) := do
  let (nfa1, q01, f1) := x1
  let (nfa2, q02, f2) := x2
  let eps1 := nfa1.eps
  let (nfa1, map21) ← insertAutomaton nfa1 nfa2
  let (q0, nfa1) := nfa1.addVertex
  let nfa1 := (nfa1.addEdge q0 q01 eps1).2
  let r ← map21.getE q02
  let nfa1 := (nfa1.addEdge q0 r eps1).2
  let nfa1 := nfa1.setInitials [q0]
  let (f, nfa1) := nfa1.addVertex
  let nfa1 := (nfa1.addEdge f1 f eps1).2
  let s ← map21.getE f2
  let nfa1 := (nfa1.addEdge s f eps1).2
  let nfa1 := nfa1.setFinal f1 false
  let nfa1 := nfa1.setFinal s false
  let nfa1 := nfa1.setFinal f true
  .ok (nfa1, q0, f)

/-- `zero_or_one`, thompson_compile_nfa.py:179-200. -/
def zeroOrOne (x : Frag A) : Frag A :=
  let (nfa, q0, f) := x
  ((nfa.addEdge q0 f nfa.eps).2, q0, f)

/-- `zero_or_more`, thompson_compile_nfa.py:203-230. -/
def zeroOrMore (x : Frag A) : Frag A :=
  let (nfa, q0, f) := x
  let eps := nfa.eps
  let (newQ0, nfa) := nfa.addVertex
  let (newF, nfa) := nfa.addVertex
  let nfa := (nfa.addEdge newQ0 q0 eps).2
  let nfa := (nfa.addEdge f newF eps).2
  let nfa := (nfa.addEdge newQ0 newF eps).2
  let nfa := (nfa.addEdge newF newQ0 eps).2
  let nfa := nfa.setInitials [newQ0]
  let nfa := nfa.setFinal f false
  let nfa := nfa.setFinal newF true
  (nfa, newQ0, newF)

/-- `one_or_more`, thompson_compile_nfa.py:233-259. -/
def oneOrMore (x : Frag A) : Frag A :=
  let (nfa, q0, f) := x
  let eps := nfa.eps
  let (newQ0, nfa) := nfa.addVertex
  let (newF, nfa) := nfa.addVertex
  let nfa := (nfa.addEdge newQ0 q0 eps).2
  let nfa := (nfa.addEdge f newF eps).2
  let nfa := (nfa.addEdge newF newQ0 eps).2
  let nfa := nfa.setInitials [newQ0]
  let nfa := nfa.setFinal f false
  let nfa := nfa.setFinal newF true
  (nfa, newQ0, newF)

/-- The loop of `repetition`, thompson_compile_nfa.py:290-292, run `k` times. -/
def repetitionLoop (ori : Frag A) : Nat → Frag A → Except PyErr (Frag A)
  | 0, x => .ok x
  | k + 1, (nfa, q0, f) => do
    let x ← concatenation (nfa.setFinal f false, q0, f) ori
    repetitionLoop ori k x

/-- `repetition`, thompson_compile_nfa.py:262-293 (`m` is a natural number, so that the assertion holds). The new
automaton built for `m = 0` uses the default `EPSILON`. -/
def repetition (eps : A) (x : Frag A) (m : Nat) : Except PyErr (Frag A) :=
  if m = 0 then .ok ((Nfa.init eps [] 1).setFinal 0, 0, 0)
  else if m > 1 then repetitionLoop x (m - 1) x
  else .ok x

/-- The first loop at the end of `repetition_range`, thompson_compile_nfa.py:335-337, run `k` times; `fs` is the set
`final_states`. -/
def rangeLoop (ori : Frag A) : Nat → Frag A → List Nat → Except PyErr (Frag A × List Nat)
  | 0, x, fs => .ok (x, fs)
  | k + 1, x, fs => do
    let x ← concatenation x ori
    rangeLoop ori k x (setAdd fs x.2.2)

/-- The last loop of `repetition_range`, thompson_compile_nfa.py:339-341 (the order in which the set is iterated
only affects the order in which edges are stored). -/
def rangeFinals (g : Nfa A) (f : Nat) (fs : List Nat) : Nfa A :=
  fs.foldl (fun g p => if p ≠ f then (g.addEdge p f g.eps).2 else g) g

/-- `repetition_range`, thompson_compile_nfa.py:296-342; `n = none` stands for `None`. Line 330 drops the
initial state returned by `repetition`. -/
def repetitionRange (eps : A) (x : Frag A) (m : Nat) (n : Option Nat) : Except PyErr (Frag A) :=
  match n with
  | none =>
    if m = 0 then .ok (zeroOrMore x)
    else if m = 1 then .ok (oneOrMore x)
    else do
      let x1 ← repetition eps x (m - 1)
      concatenation x1 (oneOrMore x)
  | some n =>
    if n < m then .error .assertionError
    else if m = 0 ∧ n = 1 then .ok (zeroOrOne x)
    else do
      let (nfa, _, f) ← repetition eps x m
      let ((nfa, q0, f), fs) ← rangeLoop x (n - m) (nfa, x.2.1, f) [f]
      .ok (rangeFinals nfa f fs, q0, f)

/-- Tokens handed to `on_push_output`, after parsing: an operator, a repetition `{m}`, `{m,}`, `{m,n}`, a literal, or a
set of characters (`[...]` or an escape sequence). -/
inductive Tok (A : Type) where
  | cat | alt | opt | star | plus
  | rep (m : Nat) (n : Option Nat)
  | lit (a : A)
  | chars (cs : List A)
  deriving Repr, DecidableEq

/-- `ThompsonShuntingYardVisitor.on_push_output`, thompson_compile_nfa.py:555-587; the stack has its top at the head.
`deque.pop` on an empty deque raises `IndexError`. -/
def onPushOutput (eps : A) (stack : List (Frag A)) : Tok A → Except PyErr (List (Frag A))
  | .cat =>
    match stack with
    | x2 :: x1 :: st => do .ok ((← concatenation x1 x2) :: st)
    | _ => .error .indexError
  | .alt =>
    match stack with
    | x2 :: x1 :: st => do .ok ((← alternation x1 x2) :: st)
    | _ => .error .indexError
  | .opt =>
    match stack with
    | x :: st => .ok (zeroOrOne x :: st)
    | _ => .error .indexError
  | .star =>
    match stack with
    | x :: st => .ok (zeroOrMore x :: st)
    | _ => .error .indexError
  | .plus =>
    match stack with
    | x :: st => .ok (oneOrMore x :: st)
    | _ => .error .indexError
  | .rep m n =>
    match stack with
    | x :: st => do .ok ((← repetitionRange eps x m n) :: st)
    | _ => .error .indexError
  | .lit a => .ok (literal eps a :: stack)
  | .chars cs => .ok (bracket eps cs :: stack)

/-- `thompson_compile_nfa`, thompson_compile_nfa.py:524-593, given the tokens pushed to the output by
`shunting_yard_postfix`; `regexp.compile_nfa` (regexp.py:13-27) returns the first component. -/
def compile (eps : A) (toks : List (Tok A)) : Except PyErr (Frag A) :=
  match toks with
  | [] => .ok ((Nfa.init eps [] 1).setFinal 0, 0, 0)
  | _ => do
    match ← toks.foldlM (onPushOutput eps) [] with
    | [x] => .ok x
    | _ => .error .assertionError

end Thompson
end PyBGL
