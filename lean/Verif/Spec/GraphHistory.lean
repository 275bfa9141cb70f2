import Verif.Model.Graph

/-!
# Specification vocabulary for graph containers

A *history* is the list of the calls made on a graph together with what they returned, most recent
first. What a graph must contain is defined from that log alone.
-/

namespace PyBGL

/-- The mutating calls of the graph API. -/
inductive GOp where
  | addVertex
  | addEdge (u v : Nat)
  | removeEdge (e : EdgeDesc Nat)
  | removeVertex (u : Nat)
  | clear
  deriving DecidableEq, Repr

/-- What a call returns. -/
inductive GOut where
  | vertex (u : Nat)
  | edge (e : EdgeDesc Nat)
  | unit
  deriving DecidableEq, Repr

/-- A log of calls with their results, most recent first. -/
abbrev GLog := List (GOp × GOut)

/-- The vertices returned by `add_vertex` since the last `clear` (since the creation otherwise). -/
def issuedVertices : GLog → List Nat
  | [] => []
  | (.addVertex, .vertex u) :: l => u :: issuedVertices l
  | (.clear, _) :: _ => []
  | _ :: l => issuedVertices l

/-- The vertices added and not removed since. -/
def liveVertices : GLog → List Nat
  | [] => []
  | (.addVertex, .vertex u) :: l => u :: liveVertices l
  | (.removeVertex u, _) :: l => (liveVertices l).filter (· ≠ u)
  | (.clear, _) :: _ => []
  | _ :: l => liveVertices l

/-- The descriptors returned by `add_edge`, not removed since by `remove_edge` and whose endpoints
were not removed since. -/
def liveEdges : GLog → List (EdgeDesc Nat)
  | [] => []
  | (.addEdge _ _, .edge e) :: l => e :: liveEdges l
  | (.removeEdge e, _) :: l => (liveEdges l).filter (· ≠ e)
  | (.removeVertex u, _) :: l => (liveEdges l).filter fun e => e.source ≠ u ∧ e.target ≠ u
  | (.clear, _) :: _ => []
  | _ :: l => liveEdges l

/-- Same for an undirected graph: an edge can be removed through the descriptor seen from either
endpoint. -/
def liveUEdges : GLog → List (EdgeDesc Nat)
  | [] => []
  | (.addEdge _ _, .edge e) :: l => e :: liveUEdges l
  | (.removeEdge e, _) :: l => (liveUEdges l).filter fun x => x ≠ e ∧ x ≠ ⟨e.target, e.source, e.distinguisher⟩
  | (.removeVertex u, _) :: l => (liveUEdges l).filter fun e => e.source ≠ u ∧ e.target ≠ u
  | (.clear, _) :: _ => []
  | _ :: l => liveUEdges l

/-- `History exec s0 s l`: starting from `s0`, the successful calls logged in `l` lead to `s`. -/
inductive History {S : Type} (exec : S → GOp → Except PyErr (GOut × S)) (s0 : S) : S → GLog → Prop
  | start : History exec s0 s0 []
  | call {s s' : S} {l : GLog} {op : GOp} {out : GOut} :
      History exec s0 s l → exec s op = .ok (out, s') → History exec s0 s' ((op, out) :: l)

/-- The calls on a `DirectedGraph`. -/
def Graph.exec (g : Graph) : GOp → Except PyErr (GOut × Graph)
  | .addVertex => let (u, g') := g.addVertex; .ok (.vertex u, g')
  | .addEdge u v => (g.addEdge u v).map fun p => (.edge p.1, p.2)
  | .removeEdge e => (g.removeEdge e).map fun g' => (.unit, g')
  | .removeVertex u => (g.removeVertex u).map fun g' => (.unit, g')
  | .clear => g.clear.map fun g' => (.unit, g')

/-- The calls on an `UndirectedGraph`. -/
def UGraph.exec (g : Graph) : GOp → Except PyErr (GOut × Graph)
  | .addVertex => let (u, g') := g.addVertex; .ok (.vertex u, g')
  | .addEdge u v => (UGraph.addEdge g u v).map fun p => (.edge p.1, p.2)
  | .removeEdge e => (UGraph.removeEdge g e).map fun g' => (.unit, g')
  | .removeVertex u => (UGraph.removeVertex g u).map fun g' => (.unit, g')
  | .clear => (UGraph.clear g).map fun g' => (.unit, g')

/-- The calls on an `IncidenceGraph`. -/
def IGraph.exec (g : IGraph) : GOp → Except PyErr (GOut × IGraph)
  | .addVertex => let (u, g') := g.addVertex; .ok (.vertex u, g')
  | .addEdge u v => (g.addEdge u v).map fun p => (.edge p.1, p.2)
  | .removeEdge e => (g.removeEdge e).map fun g' => (.unit, g')
  | .removeVertex u => (g.removeVertex u).map fun g' => (.unit, g')
  | .clear => g.clear.map fun g' => (.unit, g')

end PyBGL
