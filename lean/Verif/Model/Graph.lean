import Verif.Prelude.Py

/-!
# Model of `src/pybgl/graph.py` and `src/pybgl/incidence_graph.py`
-/

namespace PyBGL

/-- `EdgeDescriptor`, graph.py:38-127. Equality and hashing compare the three fields
(graph.py:77-103), i.e. structural equality. `L` is `Nat` for graphs and the alphabet for automata. -/
structure EdgeDesc (L : Type) where
  source : Nat
  target : Nat
  distinguisher : L
  deriving DecidableEq, Repr

/-- State of a `Graph` (graph.py:134-153): the identifier counter and
`adjacencies[u][v] = {n, ...}`. The `directed` flag is static (one model per class). -/
structure Graph where
  lastVertexId : Nat
  adj : Dict Nat (Dict Nat (List Nat))
  deriving Repr

namespace Graph

/-- The graph without vertices, graph.py:150-151. -/
def empty : Graph := ⟨0, []⟩

/-- `Graph.add_vertex`, graph.py:155-165. -/
def addVertex (g : Graph) : Nat × Graph :=
  let u := g.lastVertexId
  (u, { lastVertexId := u + 1, adj := g.adj.set u [] })

/-- `Graph.__init__`, graph.py:139-153. -/
def init : Nat → Graph
  | 0 => empty
  | n + 1 => (addVertex (init n)).2

/-- `Graph.vertices`, graph.py:208-216. -/
def vertices (g : Graph) : List Nat := g.adj.keys

/-- `Graph.num_vertices`, graph.py:167-175. -/
def numVertices (g : Graph) : Nat := g.vertices.length

/-- `n = 0 if len(s) == 0 else max(s) + 1`, graph.py:239. -/
def nextDistinguisher (s : List Nat) : Nat :=
  if s.length = 0 then 0 else s.foldl max 0 + 1

/-- `Graph.add_edge`, graph.py:218-241. The returned flag is always `True`. -/
def addEdge (g : Graph) (u v : Nat) : Except PyErr (EdgeDesc Nat × Graph) := do
  let uAdjs ← g.adj.getE u
  match uAdjs.get? v with
  | none => .ok (⟨u, v, 0⟩, { g with adj := g.adj.set u (uAdjs.set v [0]) })
  | some s =>
    let n := nextDistinguisher s
    .ok (⟨u, v, n⟩, { g with adj := g.adj.set u (uAdjs.set v (setAdd s n)) })

/-- `Graph.remove_edge`, graph.py:243-258. -/
def removeEdge (g : Graph) (e : EdgeDesc Nat) : Except PyErr Graph := do
  let adjsU ← g.adj.getE e.source
  let s ← adjsU.getE e.target
  if e.distinguisher ∈ s then
    let s' := setDiscard s e.distinguisher
    if s' = [] then .ok { g with adj := g.adj.set e.source (adjsU.erase e.target) }
    else .ok { g with adj := g.adj.set e.source (adjsU.set e.target s') }
  else .ok g

/-- `Graph.out_edges`, graph.py:273-288. -/
def outEdges (g : Graph) (u : Nat) : List (EdgeDesc Nat) :=
  (g.adj.getD u []).flatMap fun p => p.2.map fun n => ⟨u, p.1, n⟩

/-- `Graph.out_degree`, graph.py:290-301. -/
def outDegree (g : Graph) (u : Nat) : Nat := (g.outEdges u).length

/-- `Graph.edges`, graph.py:338-351. -/
def edges (g : Graph) : List (EdgeDesc Nat) :=
  g.adj.flatMap fun p => p.2.flatMap fun q => q.2.map fun n => ⟨p.1, q.1, n⟩

/-- `Graph.num_edges`, graph.py:264-271. -/
def numEdges (g : Graph) : Nat := g.edges.length

/-- `Graph.remove_vertex`, graph.py:177-197; `self.edges`, `self.out_edges` and `self.remove_edge`
are dynamically dispatched, hence the parameters. -/
def removeVertexWith (edges : Graph → List (EdgeDesc Nat)) (outEdges : Graph → Nat → List (EdgeDesc Nat))
    (removeEdge : Graph → EdgeDesc Nat → Except PyErr Graph) (g : Graph) (u : Nat) :
    Except PyErr Graph := do
  let g ← ((edges g).filter fun e => u = e.target).foldlM removeEdge g
  let g ← (outEdges g u).foldlM removeEdge g
  let adj ← g.adj.delE u
  .ok { g with adj }

/-- `DirectedGraph.remove_vertex` (inherited), graph.py:177-197. -/
def removeVertex : Graph → Nat → Except PyErr Graph :=
  removeVertexWith edges outEdges removeEdge

/-- `Graph.clear`, graph.py:199-206. -/
def clearWith (removeVertex : Graph → Nat → Except PyErr Graph) (g : Graph) : Except PyErr Graph :=
  let g := { g with lastVertexId := 0 }
  g.vertices.foldlM removeVertex g

/-- `DirectedGraph.clear` (inherited), graph.py:199-206. -/
def clear : Graph → Except PyErr Graph := clearWith removeVertex

/-- `Graph.edge`, graph.py:353-373. The candidates form a Python set; `pop` is only called on a
singleton so its order is irrelevant. -/
def edge (g : Graph) (u v : Nat) : Option (EdgeDesc Nat) × Bool :=
  match mkSet ((g.outEdges u).filter fun e => e.target = v) with
  | [e] => (some e, true)
  | _ => (none, false)

/-- `Graph.has_vertex`, graph.py:385-395. -/
def hasVertex (g : Graph) : Bool := match g.vertices with | [] => false | _ :: _ => true

/-- `Graph.has_edge`, graph.py:397-407. -/
def hasEdge (g : Graph) : Bool := match g.edges with | [] => false | _ :: _ => true

end Graph

/-! ## `UndirectedGraph`, graph.py:501-601 -/

namespace UGraph
open Graph

/-- `UndirectedGraph.add_edge`, graph.py:518-539. -/
def addEdge (g : Graph) (u v : Nat) : Except PyErr (EdgeDesc Nat × Graph) := do
  let (u, v) := (min u v, max u v)
  let (e, g) ← g.addEdge u v
  let n := e.distinguisher
  let adjV ← g.adj.getE v
  let adjV := if adjV.contains u then adjV else adjV.set u []
  let s ← adjV.getE u
  .ok (e, { g with adj := g.adj.set v (adjV.set u (setAdd s n)) })

/-- `UndirectedGraph.remove_edge`, graph.py:560-573. -/
def removeEdge (g : Graph) (e : EdgeDesc Nat) : Except PyErr Graph := do
  let g ← g.removeEdge e
  let u := e.source
  let v := e.target
  if u ≠ v then
    let adjV ← g.adj.getE v
    let s ← adjV.getE u
    let s' ← setRemoveE s e.distinguisher
    .ok { g with adj := g.adj.set v (adjV.set u s') }
  else .ok g

/-- `UndirectedGraph.out_edges`, graph.py:541-558. -/
def outEdges (g : Graph) (u : Nat) : List (EdgeDesc Nat) := g.outEdges u

/-- `UndirectedGraph.in_edges`, graph.py:575-586. -/
def inEdges (g : Graph) (u : Nat) : List (EdgeDesc Nat) := outEdges g u

/-- `UndirectedGraph.edges`, graph.py:588-601. -/
def edges (g : Graph) : List (EdgeDesc Nat) :=
  g.adj.flatMap fun p => p.2.flatMap fun q => if p.1 ≤ q.1 then q.2.map fun n => ⟨p.1, q.1, n⟩ else []

/-- `UndirectedGraph.remove_vertex` (inherited), graph.py:177-197. -/
def removeVertex : Graph → Nat → Except PyErr Graph :=
  removeVertexWith edges outEdges removeEdge

/-- `UndirectedGraph.clear` (inherited), graph.py:199-206. -/
def clear : Graph → Except PyErr Graph := clearWith removeVertex

end UGraph

/-! ## `IncidenceGraph`, incidence_graph.py:11-77 -/

/-- State of an `IncidenceGraph`: a directed graph plus `in_adjacencies[v][u] = {n, ...}`. -/
structure IGraph where
  g : Graph
  inAdj : Dict Nat (Dict Nat (List Nat))
  deriving Repr

namespace IGraph

/-- incidence_graph.py:25-26. -/
def empty : IGraph := ⟨.empty, []⟩

/-- `IncidenceGraph.add_vertex`, incidence_graph.py:28-32. -/
def addVertex (g : IGraph) : Nat × IGraph :=
  let (u, g') := g.g.addVertex
  (u, ⟨g', g.inAdj.set u []⟩)

/-- `IncidenceGraph.__init__`, incidence_graph.py:18-26. -/
def init : Nat → IGraph
  | 0 => empty
  | n + 1 => (addVertex (init n)).2

/-- `IncidenceGraph.add_edge`, incidence_graph.py:34-45. -/
def addEdge (g : IGraph) (u v : Nat) : Except PyErr (EdgeDesc Nat × IGraph) := do
  let (e, g') ← g.g.addEdge u v
  let vInAdjs ← g.inAdj.getE v
  let n := e.distinguisher
  match vInAdjs.get? u with
  | none => .ok (e, ⟨g', g.inAdj.set v (vInAdjs.set u [n])⟩)
  | some s => .ok (e, ⟨g', g.inAdj.set v (vInAdjs.set u (setAdd s n))⟩)

/-- `IncidenceGraph.remove_edge`, incidence_graph.py:56-67. -/
def removeEdge (g : IGraph) (e : EdgeDesc Nat) : Except PyErr IGraph := do
  let g' ← g.g.removeEdge e
  let inAdjsV ← g.inAdj.getE e.target
  let s ← inAdjsV.getE e.source
  if e.distinguisher ∈ s then
    let s' := setDiscard s e.distinguisher
    if s' = [] then .ok ⟨g', g.inAdj.set e.target (inAdjsV.erase e.source)⟩
    else .ok ⟨g', g.inAdj.set e.target (inAdjsV.set e.source s')⟩
  else .ok ⟨g', g.inAdj⟩

/-- `IncidenceGraph.in_edges`, incidence_graph.py:71-77. -/
def inEdges (g : IGraph) (v : Nat) : List (EdgeDesc Nat) :=
  (g.inAdj.getD v []).flatMap fun p => p.2.map fun n => ⟨p.1, v, n⟩

/-- `Graph.in_degree`, graph.py:325-336. -/
def inDegree (g : IGraph) (v : Nat) : Nat := (g.inEdges v).length

/-- Inherited from `Graph`. -/
def vertices (g : IGraph) : List Nat := g.g.vertices

/-- Inherited from `Graph`. -/
def edges (g : IGraph) : List (EdgeDesc Nat) := g.g.edges

/-- Inherited from `Graph`. -/
def outEdges (g : IGraph) (u : Nat) : List (EdgeDesc Nat) := g.g.outEdges u

/-- `IncidenceGraph.remove_vertex`, incidence_graph.py:47-54. -/
def removeVertex (g : IGraph) (u : Nat) : Except PyErr IGraph := do
  let g ← (g.inEdges u).foldlM removeEdge g
  let g ← (g.outEdges u).foldlM removeEdge g
  let adj ← g.g.adj.delE u
  let inAdj ← g.inAdj.delE u
  .ok ⟨{ g.g with adj }, inAdj⟩

/-- `Graph.clear` (inherited), graph.py:199-206. -/
def clear (g : IGraph) : Except PyErr IGraph :=
  let g : IGraph := ⟨{ g.g with lastVertexId := 0 }, g.inAdj⟩
  g.vertices.foldlM removeVertex g

end IGraph

end PyBGL
