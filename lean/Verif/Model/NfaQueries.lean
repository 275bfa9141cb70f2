import Verif.Model.Nfa

/-!
# The methods of `Nfa` that only read it (`nfa.py`, and `graph.py` for those it inherits)
-/

namespace PyBGL
namespace Nfa
variable {A : Type} [DecidableEq A]

/-- `Nfa.is_initial`, nfa.py:252-264. -/
def isInitial (g : Nfa A) (q : Nat) : Bool := decide (q ∈ g.initials)

/-- `Nfa.label`, nfa.py:275-288. -/
def label {N : Type} (_ : Nfa A) (e : EdgeDesc (A × N)) : A := e.distinguisher.1

/-- `Nfa.is_epsilon_transition`, nfa.py:389-401. -/
def isEpsilonTransition {N : Type} (g : Nfa A) (e : EdgeDesc (A × N)) : Bool := decide (g.label e = g.eps)

/-- `list(Nfa.finals())`, nfa.py:380-387. -/
def finals (g : Nfa A) : List Nat := g.vertices.filter g.isFinal

/-- `Graph.num_vertices` (inherited), graph.py:167-175. -/
def numVertices (g : Nfa A) : Nat := g.vertices.length

/-- `Graph.num_edges` (inherited), graph.py:264-271: the number of descriptors yielded by `edges()`. -/
def numEdges (g : Nfa A) : Nat := g.edges.length

/-- `Graph.out_degree` (inherited), graph.py:290-301. -/
def outDegree (g : Nfa A) (q : Nat) : Nat := (g.outEdges q).length

/-- `Graph.edge` (inherited), graph.py:353-374: the descriptors from `q` to `r` are put in a set, which calls `__hash__`
(graph.py:77-84) on them; the distinguisher of each descriptor yielded by `Nfa.out_edges` holds a Python `set`, which is not
hashable. -/
def edge (g : Nfa A) (q r : Nat) : Except PyErr (Option (EdgeDesc (A × List Nat)) × Bool) :=
  if (g.outEdges q).any fun e => decide (e.target = r) then .error .typeError
  else .ok (none, false)

end Nfa
end PyBGL
