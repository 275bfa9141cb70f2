import Verif.Model.Reversed
import Verif.Spec.GraphHistory

/-!
# Histories that mix the mutators of an `IncidenceGraph` and `reverse_graph`
-/

namespace PyBGL

/-- The calls: a method of the graph, or `reverse_graph`. -/
inductive ROp where
  | call (op : GOp)
  | reverse
  deriving DecidableEq, Repr

/-- The calls on an `IncidenceGraph`. -/
def RIGraph.exec (g : Rev IGraph) : ROp → Except PyErr (GOut × Rev IGraph)
  | .call .addVertex => let (u, g') := RIGraph.addVertex g; .ok (.vertex u, g')
  | .call (.addEdge u v) => (RIGraph.addEdge g u v).map fun p => (.edge p.1, p.2)
  | .call (.removeEdge e) => (RIGraph.removeEdge g e).map fun g' => (.unit, g')
  | .call (.removeVertex u) => (RIGraph.removeVertex g u).map fun g' => (.unit, g')
  | .call .clear => (RIGraph.clear g).map fun g' => (.unit, g')
  | .reverse => .ok (.unit, g.reverse)

/-- `RHistory g l`: the successful calls logged in `l` (most recent first), made on an empty `IncidenceGraph`, lead to `g`. -/
inductive RHistory : Rev IGraph → List (ROp × GOut) → Prop
  | start : RHistory ⟨.empty, false⟩ []
  | call {g g' : Rev IGraph} {l : List (ROp × GOut)} {op : ROp} {out : GOut} : RHistory g l → RIGraph.exec g op = .ok (out, g') → RHistory g' ((op, out) :: l)

/-- The calls of methods, without the calls of `reverse_graph`. -/
def methodCalls : List (ROp × GOut) → GLog
  | [] => []
  | (.call op, out) :: l => (op, out) :: methodCalls l
  | (.reverse, _) :: l => methodCalls l

/-- Whether `reverse_graph` was called an odd number of times. -/
def oddReversals : List (ROp × GOut) → Bool
  | [] => false
  | (.call _, _) :: l => oddReversals l
  | (.reverse, _) :: l => !oddReversals l

end PyBGL
