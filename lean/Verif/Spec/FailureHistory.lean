import Verif.Spec.GraphHistory
import Verif.Model.Failure

/-!
# Histories in which exceptions are caught

The caller may catch the exception raised by a call and go on using the graph: the log records what each call returned or raised.
-/

namespace PyBGL

/-- A log of calls with what they returned or raised, most recent first. -/
abbrev CLog := List (GOp × Except PyErr GOut)

/-- `Caught exec s0 s l`: starting from `s0`, the calls logged in `l` lead to `s`; each of them may have raised. -/
inductive Caught {S : Type} (exec : GOp → PyM S GOut) (s0 : S) : S → CLog → Prop
  | start : Caught exec s0 s0 []
  | call {s : S} {l : CLog} (op : GOp) : Caught exec s0 s l → Caught exec s0 (exec op s).2 ((op, (exec op s).1) :: l)

/-- The calls that returned. -/
def successes : CLog → GLog
  | [] => []
  | (op, .ok out) :: l => (op, out) :: successes l
  | (_, .error _) :: l => successes l

/-- The calls that returned, and the calls to `remove_vertex` that raised, as if they had returned. -/
def effects : CLog → GLog
  | [] => []
  | (op, .ok out) :: l => (op, out) :: effects l
  | (.removeVertex u, .error _) :: l => (.removeVertex u, .unit) :: effects l
  | (_, .error _) :: l => effects l

/-- In no call to `add_edge` that raised did the end looked up first (the smallest one) exist. -/
def NoHalfUEdge : CLog → Prop
  | [] => True
  | (.addEdge u v, .error _) :: l => min u v ∉ liveVertices (successes l) ∧ NoHalfUEdge l
  | _ :: l => NoHalfUEdge l

/-- In no call to `add_edge` that raised did the end looked up first (the source) exist. -/
def NoHalfEdge : CLog → Prop
  | [] => True
  | (.addEdge u _, .error _) :: l => u ∉ liveVertices (successes l) ∧ NoHalfEdge l
  | _ :: l => NoHalfEdge l

/-- The calls on a `DirectedGraph`. -/
def Graph.execM : GOp → PyM Graph GOut
  | .addVertex => fun g => (.ok (.vertex g.addVertex.1), g.addVertex.2)
  | .addEdge u v => do .edge <$> Graph.addEdgeM u v
  | .removeEdge e => do Graph.removeEdgeM e; pure .unit
  | .removeVertex u => do Graph.removeVertexM u; pure .unit
  | .clear => do Graph.clearM; pure .unit

/-- The calls on an `UndirectedGraph`. -/
def UGraph.execM : GOp → PyM Graph GOut
  | .addVertex => fun g => (.ok (.vertex g.addVertex.1), g.addVertex.2)
  | .addEdge u v => do .edge <$> UGraph.addEdgeM u v
  | .removeEdge e => do UGraph.removeEdgeM e; pure .unit
  | .removeVertex u => do UGraph.removeVertexM u; pure .unit
  | .clear => do UGraph.clearM; pure .unit

/-- The calls on an `IncidenceGraph`. -/
def IGraph.execM : GOp → PyM IGraph GOut
  | .addVertex => fun g => (.ok (.vertex g.addVertex.1), g.addVertex.2)
  | .addEdge u v => do .edge <$> IGraph.addEdgeM u v
  | .removeEdge e => do IGraph.removeEdgeM e; pure .unit
  | .removeVertex u => do IGraph.removeVertexM u; pure .unit
  | .clear => do IGraph.clearM; pure .unit

end PyBGL
