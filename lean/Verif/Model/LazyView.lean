import Verif.Model.LazyIter

/-!
# Loops over a `GraphView` whose body changes the graph

The methods of a view return generator expressions over those of the graph: a `for` statement over a view is a loop over the graph, the body of which starts with the test of the
expression. The graph may change during the loop; the relevance maps do not.
-/

namespace PyBGL
variable {S : Type}

/-- `if keep(x): body(x)`. -/
def onlyIf {X : Type} (keep : X → Bool) (body : X → PyM S Unit) (x : X) : PyM S Unit := if keep x then body x else PyM.pure ()

/-- The test of graph_view.py:147-151, 165-169 and 200-204; `source` and `target` read the descriptor. -/
def edgeShown (vrel : Nat → Bool) (erel : EdgeDesc Nat → Bool) (e : EdgeDesc Nat) : Bool := erel e && vrel e.source && vrel e.target

/-- `for u in gv.vertices(): body(u)`, graph_view.py:126-137; `loop` is the loop over `g.vertices()`. -/
def viewVertices (vrel : Nat → Bool) (loop : (Nat → PyM S Unit) → PyM S Unit) (body : Nat → PyM S Unit) : PyM S Unit := loop (onlyIf vrel body)

/-- `for e in gv.edges(): body(e)`, and the same for `out_edges(u)` and `in_edges(u)`, graph_view.py:139-152, 154-170, 185-205; `loop` is the loop over the edges of the graph. -/
def viewEdges (vrel : Nat → Bool) (erel : EdgeDesc Nat → Bool) (loop : (EdgeDesc Nat → PyM S Unit) → PyM S Unit) (body : EdgeDesc Nat → PyM S Unit) : PyM S Unit :=
  loop (onlyIf (edgeShown vrel erel) body)

end PyBGL
