import Verif.Prelude.PyM
import Verif.Model.LazyIter
import Verif.Spec.NfaLanguage

/-!
# The mutators of `Nfa`, statement by statement, and the loops over its states and transitions

`Nfa.add_edge` (nfa.py:135-163) and `Nfa.remove_edge` (nfa.py:165-179) never raise.
-/

namespace PyBGL
namespace Nfa
variable {A : Type} [DecidableEq A]

/-- `Nfa.remove_edge`, nfa.py:165-179. -/
def removeEdgeM {N : Type} (e : EdgeDesc (A × N)) : PyM (Nfa A) Unit := fun g => (.ok (), g.removeEdge e)

/-- `Graph.remove_vertex` (inherited), graph.py:177-197: `del self.adjacencies[u]` is the last statement. -/
def removeVertexM (u : Nat) : PyM (Nfa A) Unit := do
  let g ← PyM.get
  PyM.each removeEdgeM (g.edges.filter fun e => u = e.target)
  let g ← PyM.get
  PyM.each removeEdgeM (g.outEdges u)
  let g ← PyM.get
  let adj ← PyM.lift (g.adj.delE u)
  PyM.put { g with adj }

/-- `Graph.clear` (inherited), graph.py:199-206. -/
def clearM : PyM (Nfa A) Unit := do
  let g ← PyM.get
  PyM.put { g with lastVertexId := 0 }
  PyM.each removeVertexM g.vertices

/-- The calls on an `Nfa`: graph.py:155-165 and 177-206, nfa.py:135-179, 228-241, 266-273 and 290-301. -/
def execM : NfaOp A → PyM (Nfa A) Unit
  | .addVertex => fun g => (.ok (), g.addVertex.2)
  | .addEdge q r a => fun g => (.ok (), (g.addEdge q r a).2)
  | .removeEdge e => removeEdgeM e
  | .removeVertex u => removeVertexM u
  | .setInitial q b => fun g => (.ok (), g.setInitial q b)
  | .setInitials qs => fun g => (.ok (), g.setInitials qs)
  | .setFinal q b => fun g => (.ok (), g.setFinal q b)
  | .clear => clearM

variable {S : Type}

/-- `for q in nfa.vertices(): body(q)`, graph.py:208-216 (inherited). -/
def forVertices (nfa : S → Nfa A) (body : Nat → PyM S Unit) : PyM S Unit := pyFor (fun s => (nfa s).adj.keys) body

/-- `for e in nfa.out_edges(q): body(e)`, nfa.py:181-196: two nested loops over dictionaries. Simplification: the descriptor is represented by its
source, its target and its label; the set of numbers it also carries is the one held by the automaton, not a copy. -/
def forOutEdges (nfa : S → Nfa A) (q : Nat) (body : EdgeDesc A → PyM S Unit) : PyM S Unit :=
  pyFor (fun s => ((nfa s).adj.getD q []).keys) fun a =>
    pyFor (fun s => Dict.keys (((nfa s).adj.getD q []).getD a [])) fun r => body ⟨q, r, a⟩

/-- `for e in nfa.edges(): body(e)`, nfa.py:198-211. -/
def forEdges (nfa : S → Nfa A) (body : EdgeDesc A → PyM S Unit) : PyM S Unit :=
  pyFor (fun s => (nfa s).adj.keys) (forOutEdges nfa · body)

end Nfa
end PyBGL
