import Verif.Model.Automaton

/-!
# `automaton_insert_string` on an `IncidenceAutomaton`

The method is inherited from `Automaton`, automaton.py:425-441; `add_vertex` and `add_edge` are those of incidence_automaton.py:29-45, which
also maintain `in_adjacencies`. `delta_best_effort` (automaton.py:402-423) and `set_final` are inherited unchanged.
-/

namespace PyBGL.IAutomaton
variable {A : Type} [DecidableEq A]

/-- Loop of `automaton_insert_string`, automaton.py:437-440. `add_edge` asserts that `q` is not `None` (automaton.py:90). -/
def insertChain (g : IAutomaton A) : Option Nat → List A → Except PyErr (Option Nat × IAutomaton A)
  | q, [] => .ok (q, g)
  | none, _ :: _ => .error .assertionError
  | some q, a :: w => do
    let (r, g) := g.addVertex
    let (_, _, g) ← g.addEdge q r a
    insertChain g (some r) w

/-- `Automaton.automaton_insert_string`, automaton.py:425-441. (With `q = None`, `set_final(None)` sets a key that `accepts` never reads: the
model leaves the automaton unchanged.) -/
def insertString (g : IAutomaton A) (w : List A) : Except PyErr (IAutomaton A) := do
  let (q, i) := g.a.deltaBestEffort w
  let (q, g) ← insertChain g q (w.drop i)
  match q with
  | none => .ok g
  | some q => .ok ⟨g.a.setFinal q, g.inAdj⟩

end PyBGL.IAutomaton
