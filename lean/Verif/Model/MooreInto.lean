import Verif.Model.Nfa
import Verif.Model.RegexText

/-!
# `moore_determination` with its parameter `dfa`, and `compile_dfa`
-/

namespace PyBGL

/-- The methods of the parameter `dfa` that `moore_determination` calls. -/
structure DfaOps (D A : Type) where
  addVertex : D → Nat × D
  setFinal : D → Nat → D
  addEdge : D → Nat → Nat → A → Except PyErr D

/-- `Automaton.add_vertex`, `set_final`, `add_edge` (graph.py:155-165, automaton.py:267-277, 73-95). -/
def Automaton.dfaOps {A : Type} [DecidableEq A] : DfaOps (Automaton A) A where
  addVertex := Automaton.addVertex
  setFinal g q := g.setFinal q
  addEdge g q r a := (g.addEdge q r a).map (·.2.2)

/-- `IncidenceAutomaton.add_vertex`, `set_final` (inherited), `add_edge` (incidence_automaton.py:29-45, automaton.py:267-277). -/
def IAutomaton.dfaOps {A : Type} [DecidableEq A] : DfaOps (IAutomaton A) A where
  addVertex := IAutomaton.addVertex
  setFinal g q := ⟨g.a.setFinal q, g.inAdj⟩
  addEdge g q r a := (g.addEdge q r a).map (·.2.2)

namespace MooreInto
variable {D A : Type} [DecidableEq A]

/-- The variables of `moore_determination` (moore_determination.py:41-53); `full_sigma` does not vary. -/
structure State (D : Type) where
  dfa : D
  map : Dict (List Nat) Nat
  todo : List (List Nat)

variable (o : DfaOps D A)

/-- `dfa_add_state`, moore_determination.py:35-39. -/
def addState (nfa : Nfa A) (dfa : D) (map : Dict (List Nat) Nat) (qs : List Nat) : Nat × D × Dict (List Nat) Nat :=
  let (q, dfa) := o.addVertex dfa
  (q, if qs.any nfa.isFinal then o.setFinal dfa q else dfa, map.set qs q)

/-- Body of the `for` loop, moore_determination.py:63-72. -/
def symbolStep (nfa : Nfa A) (qs : List Nat) (q : Nat) (s : State D) (a : A) : Except PyErr (State D) := do
  let rs := Moore.subsetStep nfa qs a
  match s.map.get? rs with
  | some r =>
    let dfa ← o.addEdge s.dfa q r a
    .ok { s with dfa }
  | none =>
    let (r, dfa, map) := addState o nfa s.dfa s.map rs
    let dfa ← o.addEdge dfa q r a
    .ok ⟨dfa, map, setAdd s.todo rs⟩

/-- Body of the `while` loop, moore_determination.py:55-72; see `Moore.step` for `pick` and `order`. -/
def step (nfa : Nfa A) (complete : Bool) (pick : Nat → Nat) (order : Nat → List A → List A) (t : Nat) (s : State D) : Step (State D) D :=
  match s.todo[pick t % s.todo.length]? with
  | none => .done s.dfa
  | some qs =>
    match s.map.getE qs with
    | .error e => .fail e
    | .ok q =>
      match (order t (Moore.subsetSigma nfa complete qs)).foldlM (symbolStep o nfa qs q) { s with todo := setDiscard s.todo qs } with
      | .error e => .fail e
      | .ok s' => .next s'

/-- State before the loop, moore_determination.py:46-53. -/
def start (nfa : Nfa A) (dfa : D) : State D :=
  let q0s := frozenset (nfa.deltaEpsilon nfa.initials)
  let (_, dfa, map) := addState o nfa dfa [] q0s
  ⟨dfa, map, [q0s]⟩

/-- `moore_determination(nfa, dfa, complete)`, moore_determination.py:11-73. The object `dfa` is modified, and returned. -/
def run (nfa : Nfa A) (dfa : D) (complete : Bool) (pick : Nat → Nat) (order : Nat → List A → List A) (fuel : Nat) : Option (Except PyErr D) :=
  loop (step o nfa complete pick order) fuel 0 (start o nfa dfa)

end MooreInto

/-- `compile_dfa(regexp, complete)`, regexp.py:30-45: `thompson_compile_nfa`, then `moore_determination`. -/
def compileDfa (C : RegexText.ReClasses) (sets : List Char → List Char) (complete : Bool) (pick : Nat → Nat) (order : Nat → List Char → List Char)
    (regexp : List Char) (fuel : Nat) : Option (Except PyErr (Automaton Char)) :=
  match RegexText.compileText C sets [] regexp with
  | .error e => some (.error e)
  | .ok x => Moore.run x.1 complete pick order fuel

end PyBGL
