import Verif.Model.FailureAutomaton
import Verif.Model.LazyAutomaton

/-!
# Loops over `out_edges(q)` of an incidence automaton whose body changes the automaton

The iterator holds the dictionary `adjacencies[q]` it was created with. `IncidenceAutomaton.remove_vertex(q)` (incidence_automaton.py:60-67) deletes the
entry `q` of `adjacencies` without emptying this dictionary, which no method can reach from then on: the iterator goes on with it.
-/

namespace PyBGL
variable {A : Type} [DecidableEq A]

/-- The automaton, and the contents of the dictionary held by the iterator, once it is no longer `adjacencies[q]`. -/
structure Held (A : Type) where
  g : IAutomaton A
  frozen : Option (Dict A Nat) := none

namespace Held

/-- The contents of the dictionary held by an iterator created by `out_edges(q)`, automaton.py:149-152 (inherited). -/
def contents (q : Nat) (s : Held A) : Dict A Nat :=
  match s.frozen with
  | some d => d
  | none => s.g.a.adj.getD q []

/-- A method of the automaton that does not delete `adjacencies[q]`. -/
def onObj {R : Type} (m : PyM (IAutomaton A) R) : PyM (Held A) R := PyM.on Held.g (fun s g => ⟨g, s.frozen⟩) m

/-- Second half of `remove_vertex`, incidence_automaton.py:60-67: the dictionary deleted at line 67 is left as it is. -/
def removeOutM (q u : Nat) : PyM (Held A) Unit := do
  let s ← PyM.get
  onObj (IAutomaton.removeOutM u)
  if u = q ∧ s.g.a.adj.contains u = true then do
    let s' ← PyM.get
    PyM.put ⟨s'.g, some (contents q s)⟩
  else pure ()

/-- `IncidenceAutomaton.remove_vertex(u)`, incidence_automaton.py:47-67. -/
def removeVertexM (q u : Nat) : PyM (Held A) Unit := do
  onObj (IAutomaton.removeInM u)
  removeOutM q u

/-- `Graph.clear` (inherited), graph.py:199-206. -/
def clearM (q : Nat) : PyM (Held A) Unit := do
  let s ← PyM.get
  PyM.put ⟨⟨{ s.g.a with lastVertexId := 0 }, s.g.inAdj⟩, s.frozen⟩
  PyM.each (removeVertexM q) s.g.a.vertices

/-- The calls on the automaton while an iterator created by `out_edges(q)` is in use. -/
def execM (q : Nat) : AOp A → PyM (Held A) Unit
  | .removeVertex u => removeVertexM q u
  | .clear => clearM q
  | op => onObj (IAutomaton.execM op)

/-- `for e in g.out_edges(q): body(e)`, automaton.py:138-152 (inherited). -/
def forOutEdges {S : Type} (held : S → Held A) (q : Nat) (body : EdgeDesc A → PyM S Unit) : PyM S Unit :=
  pyFor (fun s => (contents q (held s)).keys) fun a s =>
    match (contents q (held s)).get? a with
    | some r => body ⟨q, r, a⟩ s
    | none => (.error .keyError, s)

end Held
end PyBGL
