import Verif.Model.Automaton
import Verif.Model.LazyIter

/-!
# Loops over `vertices()`, `edges()` and `out_edges()` of an automaton whose body changes the automaton

As in `Verif.Model.LazyIter`, nothing is copied. The innermost container is the dictionary `adjacencies[q]`, iterated by `items()`: a request delivers
the next label with the target it has at that time.
-/

namespace PyBGL
namespace Automaton
variable {A S : Type} [DecidableEq A]

/-- `for q in g.vertices(): body(q)`, graph.py:208-216 (inherited): `adjacencies.keys()` is a view. -/
def forVertices (graph : S → Automaton A) (body : Nat → PyM S Unit) : PyM S Unit := pyFor (fun s => (graph s).adj.keys) body

/-- `for e in g.out_edges(q): body(e)`, automaton.py:138-152. The label delivered is in the dictionary when it is delivered, so that the last case does
not occur. -/
def forOutEdges (graph : S → Automaton A) (q : Nat) (body : EdgeDesc A → PyM S Unit) : PyM S Unit :=
  pyFor (fun s => ((graph s).adj.getD q []).keys) fun a s =>
    match ((graph s).adj.getD q []).get? a with
    | some r => body ⟨q, r, a⟩ s
    | none => (.error .keyError, s)

/-- `for e in g.edges(): body(e)`, automaton.py:199-211. -/
def forEdges (graph : S → Automaton A) (body : EdgeDesc A → PyM S Unit) : PyM S Unit :=
  pyFor (fun s => (graph s).adj.keys) (forOutEdges graph · body)

end Automaton
end PyBGL
