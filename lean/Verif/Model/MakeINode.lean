import Verif.Model.NodeAutomaton

/-!
# `make_incidence_node_automaton`, incidence_node_automaton.py:75-128
-/

namespace PyBGL

/-- Body of the loop over the names, node_automaton.py:324-328, with `Constructor=IncidenceNodeAutomaton`. -/
def makeINode {A N : Type} [DecidableEq A] (ofInt : Nat → N) (vlabel : N → Option A) (vfinal : N → Bool)
    (g : INodeAutomaton A) (n : N) : INodeAutomaton A :=
  let (u, g) := g.addVertex (vlabel n)
  if vfinal (ofInt u) then ⟨⟨g.n.a.setFinal u, g.n.symbols⟩, g.pred⟩ else g

/-- Body of the loop over the transitions, node_automaton.py:329-332, with `Constructor=IncidenceNodeAutomaton`. -/
def makeINodeEdge {A N : Type} [DecidableEq A] [DecidableEq N] (names : List N) (g : INodeAutomaton A) (t : N × N) :
    Except PyErr (INodeAutomaton A) := do
  let q ← nameIndex names t.1
  let r ← nameIndex names t.2
  let (_, _, g) ← g.addEdge q r
  .ok g

/-- `make_incidence_node_automaton`, incidence_node_automaton.py:75-128: `make_node_automaton`, node_automaton.py:262-336, with
`Constructor=IncidenceNodeAutomaton`. -/
def makeINodeAutomaton {A N : Type} [DecidableEq A] [DecidableEq N] (le : N → N → Bool) (ofInt : Nat → N)
    (ts : List (N × N)) (vlabel : Option (N → Option A)) (q0n : N) (vfinal : N → Bool) :
    Except PyErr (INodeAutomaton A) := do
  let names := nodeNames le ts
  let g ← match vlabel with
    | none => if names = [] then .ok INodeAutomaton.empty else .error .typeError
    | some vlabel => .ok (names.foldl (makeINode ofInt vlabel vfinal) INodeAutomaton.empty)
  let g ← ts.foldlM (makeINodeEdge names) g
  if g.n.vertices = [] then .ok g else do
    let q0 ← nameIndex names q0n
    .ok ⟨⟨g.n.a.setInitial q0, g.n.symbols⟩, g.pred⟩

end PyBGL
