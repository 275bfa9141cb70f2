import Verif.Prelude.PyM
import Verif.Model.Graph
import Verif.Model.NodeAutomaton

/-!
# The mutators of the containers, statement by statement

The other model files describe what a method does when it returns. Here the state left behind by an exception is described too.
-/

namespace PyBGL

/-! ## `graph.py` -/

namespace Graph

/-- `Graph.add_edge`, graph.py:218-241: `self.adjacencies[u]` is the only expression that may raise, and comes first. -/
def addEdgeM (u v : Nat) : PyM Graph (EdgeDesc Nat) := PyM.atomic fun g => g.addEdge u v

/-- `Graph.remove_edge`, graph.py:243-258: nothing raises after `adjs_u[v]`. -/
def removeEdgeM (e : EdgeDesc Nat) : PyM Graph Unit := PyM.atomic fun g => (g.removeEdge e).map fun g' => ((), g')

/-- `Graph.remove_vertex`, graph.py:177-197; the methods called are those of the class. -/
def removeVertexWithM (edges : Graph → List (EdgeDesc Nat)) (outEdges : Graph → Nat → List (EdgeDesc Nat)) (removeEdge : EdgeDesc Nat → PyM Graph Unit)
    (u : Nat) : PyM Graph Unit := do
  let g ← PyM.get
  PyM.each removeEdge ((edges g).filter fun e => u = e.target)
  let g ← PyM.get
  PyM.each removeEdge (outEdges g u)
  let g ← PyM.get
  let adj ← PyM.lift (g.adj.delE u)
  PyM.put { g with adj }

/-- `DirectedGraph.remove_vertex` (inherited), graph.py:177-197. -/
def removeVertexM : Nat → PyM Graph Unit := removeVertexWithM edges outEdges removeEdgeM

/-- `Graph.clear`, graph.py:199-206. -/
def clearWithM (removeVertex : Nat → PyM Graph Unit) : PyM Graph Unit := do
  let g ← PyM.get
  PyM.put { g with lastVertexId := 0 }
  PyM.each removeVertex g.vertices

/-- `DirectedGraph.clear` (inherited), graph.py:199-206. -/
def clearM : PyM Graph Unit := clearWithM removeVertexM

end Graph

namespace UGraph
open Graph

/-- `UndirectedGraph.add_edge`, graph.py:518-539: the edge is added to `adjacencies[u]` before `adjacencies[v]` is looked up. -/
def addEdgeM (u v : Nat) : PyM Graph (EdgeDesc Nat) := do
  let (u, v) := (min u v, max u v)
  let e ← Graph.addEdgeM u v
  let n := e.distinguisher
  let g ← PyM.get
  let adjV ← PyM.lift (g.adj.getE v)
  let adjV := if adjV.contains u then adjV else adjV.set u []
  let s ← PyM.lift (adjV.getE u)
  PyM.put { g with adj := g.adj.set v (adjV.set u (setAdd s n)) }
  pure e

/-- `UndirectedGraph.remove_edge`, graph.py:560-573. -/
def removeEdgeM (e : EdgeDesc Nat) : PyM Graph Unit := do
  Graph.removeEdgeM e
  let u := e.source
  let v := e.target
  if u ≠ v then
    let g ← PyM.get
    let adjV ← PyM.lift (g.adj.getE v)
    let s ← PyM.lift (adjV.getE u)
    let s' ← PyM.lift (setRemoveE s e.distinguisher)
    PyM.put { g with adj := g.adj.set v (adjV.set u s') }
  else pure ()

/-- `UndirectedGraph.remove_vertex` (inherited), graph.py:177-197. -/
def removeVertexM : Nat → PyM Graph Unit := removeVertexWithM edges outEdges removeEdgeM

/-- `UndirectedGraph.clear` (inherited), graph.py:199-206. -/
def clearM : PyM Graph Unit := clearWithM removeVertexM

end UGraph

/-! ## `incidence_graph.py` -/

namespace IGraph

/-- A method of `Graph` called through `super()`. -/
def super {R : Type} (m : PyM Graph R) : PyM IGraph R := PyM.on IGraph.g (fun s g => ⟨g, s.inAdj⟩) m

/-- `IncidenceGraph.add_edge`, incidence_graph.py:34-45: the edge is added before `in_adjacencies[v]` is looked up. -/
def addEdgeM (u v : Nat) : PyM IGraph (EdgeDesc Nat) := do
  let e ← super (Graph.addEdgeM u v)
  let g ← PyM.get
  let vInAdjs ← PyM.lift (g.inAdj.getE v)
  let n := e.distinguisher
  match vInAdjs.get? u with
  | none => PyM.put ⟨g.g, g.inAdj.set v (vInAdjs.set u [n])⟩
  | some s => PyM.put ⟨g.g, g.inAdj.set v (vInAdjs.set u (setAdd s n))⟩
  pure e

/-- `IncidenceGraph.remove_edge`, incidence_graph.py:56-67. -/
def removeEdgeM (e : EdgeDesc Nat) : PyM IGraph Unit := do
  super (Graph.removeEdgeM e)
  let g ← PyM.get
  let inAdjsV ← PyM.lift (g.inAdj.getE e.target)
  let s ← PyM.lift (inAdjsV.getE e.source)
  if e.distinguisher ∈ s then
    let s' := setDiscard s e.distinguisher
    if s' = [] then PyM.put ⟨g.g, g.inAdj.set e.target (inAdjsV.erase e.source)⟩
    else PyM.put ⟨g.g, g.inAdj.set e.target (inAdjsV.set e.source s')⟩
  else pure ()

/-- `IncidenceGraph.remove_vertex`, incidence_graph.py:47-54. -/
def removeVertexM (u : Nat) : PyM IGraph Unit := do
  let g ← PyM.get
  PyM.each removeEdgeM (g.inEdges u)
  let g ← PyM.get
  PyM.each removeEdgeM (g.outEdges u)
  let g ← PyM.get
  let adj ← PyM.lift (g.g.adj.delE u)
  PyM.put ⟨{ g.g with adj }, g.inAdj⟩
  let inAdj ← PyM.lift (g.inAdj.delE u)
  PyM.put ⟨{ g.g with adj }, inAdj⟩

/-- `Graph.clear` (inherited), graph.py:199-206. -/
def clearM : PyM IGraph Unit := do
  let g ← PyM.get
  PyM.put ⟨{ g.g with lastVertexId := 0 }, g.inAdj⟩
  PyM.each removeVertexM g.vertices

end IGraph

end PyBGL
