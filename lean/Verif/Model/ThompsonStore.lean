import Verif.Model.Thompson
import Verif.Model.LazyIter

/-!
# `thompson_compile_nfa.py` on `Nfa` objects

In Model/Thompson automata are values. Here they are objects: a store lists the `Nfa` objects that exist, functions get their positions in the store, and modify them in
place. Nothing is supposed about which objects are the same. The set `self.initials` of an `Nfa` belongs to it: the only constructor used is `Nfa(n)`, which makes a new set, and
so do `set_initials` with the sets written here, and `copy.deepcopy`.

Simplification: the loop over `g2.edges()` of `insert_automaton` compares the number of transitions of `g2` before each transition, instead of the size of each of the nested
containers.
-/

namespace PyBGL
namespace Thompson
variable {A : Type} [DecidableEq A]

/-- The `Nfa` objects, at their addresses. -/
abbrev Store (A : Type) := List (Nfa A)

/-- A triple `(nfa, q0, f)` handled by the module: the address of an automaton and two states. -/
abbrev FragRef := Nat × Nat × Nat

/-- A new object. -/
def alloc (g : Nfa A) : PyM (Store A) Nat := fun st => (.ok st.length, st ++ [g])

/-- The object at an address (`KeyError` stands for what cannot happen in Python: an address where there is no object). -/
def fetch (r : Nat) : PyM (Store A) (Nfa A) := fun st =>
  match st[r]? with
  | some g => (.ok g, st)
  | none => (.error .keyError, st)

/-- A method that modifies the object at an address. -/
def update (r : Nat) (f : Nfa A → Nfa A) : PyM (Store A) Unit := fun st =>
  match st[r]? with
  | some g => (.ok (), st.set r (f g))
  | none => (.error .keyError, st)

/-- `add_vertex` of the object at an address. -/
def newVertex (r : Nat) : PyM (Store A) Nat := fun st =>
  match st[r]? with
  | some g => (.ok g.addVertex.1, st.set r g.addVertex.2)
  | none => (.error .keyError, st)

/-- `literal`, thompson_compile_nfa.py:44-61. -/
def literalS (eps a : A) : PyM (Store A) FragRef := PyM.bind (alloc (literal eps a).1) fun r => PyM.pure (r, 0, 1)

/-- `bracket`, thompson_compile_nfa.py:345-363. -/
def bracketS (eps : A) (chars : List A) : PyM (Store A) FragRef := PyM.bind (alloc (bracket eps chars).1) fun r => PyM.pure (r, 0, 1)

/-- The body of the first loop of `insert_automaton`, thompson_compile_nfa.py:83-88: both automata are read and modified where they are. The state has the dictionary `map21` besides the
objects. -/
def insertVertexS (r1 r2 q2 : Nat) : PyM (Store A × Dict Nat Nat) Unit := fun s =>
  if s.2.contains q2 then (.ok (), s)
  else
    match s.1[r1]? with
    | none => (.error .keyError, s)
    | some g1 =>
      match (s.1.set r1 g1.addVertex.2)[r2]? with
      | none => (.error .keyError, s)
      | some g2 =>
        (.ok (), (if g2.isFinal q2 then s.1.set r1 (g1.addVertex.2.setFinal g1.addVertex.1) else s.1.set r1 g1.addVertex.2), s.2.set q2 g1.addVertex.1)

/-- The body of the second loop, thompson_compile_nfa.py:90-95. -/
def insertEdgeS (r1 : Nat) (e2 : EdgeDesc (A × List Nat)) : PyM (Store A × Dict Nat Nat) Unit := fun s =>
  match s.2.getE e2.source, s.2.getE e2.target with
  | .ok q, .ok r =>
    match update r1 (fun g => (g.addEdge q r e2.distinguisher.1).2) s.1 with
    | (o, st) => (o, st, s.2)
  | .error e, _ => (.error e, s)
  | _, .error e => (.error e, s)

/-- The vertices of the object at an address. -/
def verticesAt (r : Nat) (s : Store A × Dict Nat Nat) : List Nat := match s.1[r]? with
  | some g => g.vertices
  | none => []

/-- The transitions of the object at an address. -/
def edgesAt (r : Nat) (s : Store A × Dict Nat Nat) : List (EdgeDesc (A × List Nat)) := match s.1[r]? with
  | some g => g.edges
  | none => []

/-- `insert_automaton(g1, g2)`, thompson_compile_nfa.py:64-96: both loops are over views of containers of `g2`, which may be `g1`. -/
def insertAutomatonS (r1 r2 : Nat) : PyM (Store A) (Dict Nat Nat) := fun st =>
  match PyM.bind (pyFor (verticesAt r2) (insertVertexS r1 r2)) (fun _ => pyFor (edgesAt r2) (insertEdgeS r1)) (st, []) with
  | (.ok _, st, map21) => (.ok map21, st)
  | (.error e, st, _) => (.error e, st)

/-- `concatenation`, thompson_compile_nfa.py:99-133. -/
def concatenationS (x1 x2 : FragRef) : PyM (Store A) FragRef :=
  PyM.bind (insertAutomatonS x1.1 x2.1) fun map21 =>
  PyM.bind (PyM.lift (map21.getE x2.2.1)) fun r =>
  PyM.bind (update x1.1 fun g => ((g.addEdge x1.2.2 r g.eps).2.setInitials [x1.2.1]).setFinal x1.2.2 false) fun _ =>
  PyM.bind (PyM.lift (map21.getE x2.2.2)) fun f => PyM.pure (x1.1, x1.2.1, f)

/-- `alternation`, thompson_compile_nfa.py:136-176. -/
def alternationS (x1 x2 : FragRef) : PyM (Store A) FragRef :=
  PyM.bind (fetch x1.1) fun g =>
  PyM.bind (insertAutomatonS x1.1 x2.1) fun map21 =>
  PyM.bind (newVertex x1.1) fun q0 =>
  PyM.bind (update x1.1 fun g' => (g'.addEdge q0 x1.2.1 g.eps).2) fun _ =>
  PyM.bind (PyM.lift (map21.getE x2.2.1)) fun r =>
  PyM.bind (update x1.1 fun g' => (g'.addEdge q0 r g.eps).2.setInitials [q0]) fun _ =>
  PyM.bind (newVertex x1.1) fun f =>
  PyM.bind (update x1.1 fun g' => (g'.addEdge x1.2.2 f g.eps).2) fun _ =>
  PyM.bind (PyM.lift (map21.getE x2.2.2)) fun s =>
  PyM.bind (update x1.1 fun g' => (((g'.addEdge s f g.eps).2.setFinal x1.2.2 false).setFinal s false).setFinal f true) fun _ =>
  PyM.pure (x1.1, q0, f)

/-- A function that modifies its automaton in place and returns it with two states: `zero_or_one`, `zero_or_more`, `one_or_more`, thompson_compile_nfa.py:179-259. -/
def inPlace (op : Frag A → Frag A) (x : FragRef) : PyM (Store A) FragRef := fun st =>
  match st[x.1]? with
  | some g => (.ok (x.1, (op (g, x.2)).2), st.set x.1 (op (g, x.2)).1)
  | none => (.error .keyError, st)

/-- `copy.deepcopy(nfa)`. -/
def deepcopy (r : Nat) : PyM (Store A) Nat := PyM.bind (fetch r) alloc

/-- The loop of `repetition`, thompson_compile_nfa.py:290-292. -/
def repetitionLoopS (ori : FragRef) : Nat → FragRef → PyM (Store A) FragRef
  | 0, x => PyM.pure x
  | k + 1, x =>
    PyM.bind (update x.1 fun g => g.setFinal x.2.2 false) fun _ =>
    PyM.bind (concatenationS x ori) fun x => repetitionLoopS ori k x

/-- `repetition`, thompson_compile_nfa.py:262-293. -/
def repetitionS (eps : A) (x : FragRef) (m : Nat) : PyM (Store A) FragRef :=
  if m = 0 then PyM.bind (alloc ((Nfa.init eps [] 1).setFinal 0)) fun r => PyM.pure (r, 0, 0)
  else if m > 1 then PyM.bind (deepcopy x.1) fun ori => repetitionLoopS (ori, x.2) (m - 1) x
  else PyM.pure x

/-- The first loop at the end of `repetition_range`, thompson_compile_nfa.py:335-337. -/
def rangeLoopS (ori : FragRef) : Nat → FragRef → List Nat → PyM (Store A) (FragRef × List Nat)
  | 0, x, fs => PyM.pure (x, fs)
  | k + 1, x, fs => PyM.bind (concatenationS x ori) fun x => rangeLoopS ori k x (setAdd fs x.2.2)

/-- `repetition_range`, thompson_compile_nfa.py:296-342. -/
def repetitionRangeS (eps : A) (x : FragRef) (m : Nat) (n : Option Nat) : PyM (Store A) FragRef :=
  match n with
  | none =>
    if m = 0 then inPlace zeroOrMore x
    else if m = 1 then inPlace oneOrMore x
    else
      PyM.bind (deepcopy x.1) fun ori =>
      PyM.bind (repetitionS eps x (m - 1)) fun x1 =>
      PyM.bind (inPlace oneOrMore (ori, x.2)) fun x2 => concatenationS x1 x2
  | some n =>
    if n < m then PyM.lift (.error .assertionError)
    else if m = 0 ∧ n = 1 then inPlace zeroOrOne x
    else
      PyM.bind (deepcopy x.1) fun _ =>
      PyM.bind (deepcopy x.1) fun ori =>
      PyM.bind (repetitionS eps x m) fun y =>
      PyM.bind (rangeLoopS (ori, x.2) (n - m) (y.1, x.2.1, y.2.2) [y.2.2]) fun z =>
      PyM.bind (update z.1.1 fun g => rangeFinals g z.1.2.2 z.2) fun _ => PyM.pure z.1

/-- `on_push_output`, thompson_compile_nfa.py:555-587; the stack `self.nfas` has its top at the head. -/
def onPushOutputS (eps : A) (stack : List FragRef) : Tok A → PyM (Store A) (List FragRef)
  | .cat =>
    match stack with
    | x2 :: x1 :: st => PyM.bind (concatenationS x1 x2) fun x => PyM.pure (x :: st)
    | _ => PyM.lift (.error .indexError)
  | .alt =>
    match stack with
    | x2 :: x1 :: st => PyM.bind (alternationS x1 x2) fun x => PyM.pure (x :: st)
    | _ => PyM.lift (.error .indexError)
  | .opt =>
    match stack with
    | x :: st => PyM.bind (inPlace zeroOrOne x) fun x => PyM.pure (x :: st)
    | _ => PyM.lift (.error .indexError)
  | .star =>
    match stack with
    | x :: st => PyM.bind (inPlace zeroOrMore x) fun x => PyM.pure (x :: st)
    | _ => PyM.lift (.error .indexError)
  | .plus =>
    match stack with
    | x :: st => PyM.bind (inPlace oneOrMore x) fun x => PyM.pure (x :: st)
    | _ => PyM.lift (.error .indexError)
  | .rep m n =>
    match stack with
    | x :: st => PyM.bind (repetitionRangeS eps x m n) fun x => PyM.pure (x :: st)
    | _ => PyM.lift (.error .indexError)
  | .lit a => PyM.bind (literalS eps a) fun x => PyM.pure (x :: stack)
  | .chars cs => PyM.bind (bracketS eps cs) fun x => PyM.pure (x :: stack)

/-- The calls to `on_push_output`. -/
def pushAllS (eps : A) : List (Tok A) → List FragRef → PyM (Store A) (List FragRef)
  | [], stack => PyM.pure stack
  | t :: toks, stack => PyM.bind (onPushOutputS eps stack t) fun stack => pushAllS eps toks stack

/-- `thompson_compile_nfa`, thompson_compile_nfa.py:524-593, given the tokens pushed to the output by `shunting_yard_postfix`. -/
def compileS (eps : A) (toks : List (Tok A)) : PyM (Store A) FragRef :=
  match toks with
  | [] => PyM.bind (alloc ((Nfa.init eps [] 1).setFinal 0)) fun r => PyM.pure (r, 0, 0)
  | _ => PyM.bind (pushAllS eps toks []) fun stack =>
    match stack with
    | [x] => PyM.pure x
    | _ => PyM.lift (.error .assertionError)

end Thompson
end PyBGL
