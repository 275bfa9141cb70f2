import Verif.Model.Graph

/-!
# The graph interface used by the algorithms, `reverse_graph` and `GraphView`
-/

namespace PyBGL

/-- The methods through which the algorithms observe a graph: `vertices()`, `edges()`, `out_edges(u)`,
`in_edges(u)`, `source(e)`, `target(e)` (graph.py:208-447). Algorithms are modelled over an arbitrary
value of this record, so that no iteration order is fixed. -/
structure GraphI (V E : Type) where
  vertices : List V
  edges : List E
  outEdges : V → List E
  inEdges : V → List E
  source : E → V
  target : E → V

namespace GraphI
variable {V E : Type}

/-- The three listings of edges agree. -/
structure Consistent (g : GraphI V E) : Prop where
  out : ∀ u e, e ∈ g.outEdges u ↔ e ∈ g.edges ∧ g.source e = u
  inn : ∀ u e, e ∈ g.inEdges u ↔ e ∈ g.edges ∧ g.target e = u

end GraphI

/-- A `DirectedGraph` seen through the interface. `in_edges` is not available (graph.py:303-323): the
record is given an empty listing and no theorem about directed graphs uses it. -/
def Graph.toI (g : Graph) : GraphI Nat (EdgeDesc Nat) where
  vertices := g.vertices
  edges := g.edges
  outEdges := g.outEdges
  inEdges := fun _ => []
  source := EdgeDesc.source
  target := EdgeDesc.target

/-- An `UndirectedGraph` seen through the interface. -/
def UGraph.toI (g : Graph) : GraphI Nat (EdgeDesc Nat) where
  vertices := g.vertices
  edges := UGraph.edges g
  outEdges := UGraph.outEdges g
  inEdges := UGraph.inEdges g
  source := EdgeDesc.source
  target := EdgeDesc.target

/-- An `IncidenceGraph` seen through the interface. -/
def IGraph.toI (g : IGraph) : GraphI Nat (EdgeDesc Nat) where
  vertices := g.vertices
  edges := g.edges
  outEdges := g.outEdges
  inEdges := g.inEdges
  source := EdgeDesc.source
  target := EdgeDesc.target

/-- `swap(g, a, b)` of reverse.py:20-23 for `source`/`target`. -/
def swapEnds {V E : Type} (g : GraphI V E) : GraphI V E :=
  { g with source := g.target, target := g.source }

/-- `swap(g, a, b)` of reverse.py:20-23 for `in_edges`/`out_edges`. -/
def swapIncidence {V E : Type} (g : GraphI V E) : GraphI V E :=
  { g with inEdges := g.outEdges, outEdges := g.inEdges }

/-- `reverse_graph`, reverse.py:10-27. -/
def reverseGraph {V E : Type} (g : GraphI V E) : GraphI V E :=
  swapIncidence (swapEnds g)

/-! ## `GraphView`, graph_view.py -/

/-- A `GraphView` (graph_view.py:12-47): a graph and two relevance predicates. -/
structure GraphView (V E : Type) where
  g : GraphI V E
  vrelevant : V → Bool
  erelevant : E → Bool

namespace GraphView
variable {V E : Type}

/-- The filter shared by graph_view.py:139-152, 154-170 and 185-205. -/
def shows (gv : GraphView V E) (e : E) : Bool :=
  gv.erelevant e && gv.vrelevant (gv.g.source e) && gv.vrelevant (gv.g.target e)

/-- `GraphView.vertices`, graph_view.py:126-137. -/
def vertices (gv : GraphView V E) : List V := gv.g.vertices.filter gv.vrelevant

/-- `GraphView.edges`, graph_view.py:139-152. -/
def edges (gv : GraphView V E) : List E := gv.g.edges.filter gv.shows

/-- `GraphView.out_edges`, graph_view.py:154-170. -/
def outEdges (gv : GraphView V E) (u : V) : List E := (gv.g.outEdges u).filter gv.shows

/-- `GraphView.in_edges`, graph_view.py:185-205. -/
def inEdges (gv : GraphView V E) (u : V) : List E := (gv.g.inEdges u).filter gv.shows

/-- `GraphView.num_edges`, graph_view.py:234-242. -/
def numEdges (gv : GraphView V E) : Nat := gv.edges.length

/-- `GraphView.num_vertices`, graph_view.py:224-232. -/
def numVertices (gv : GraphView V E) : Nat := gv.vertices.length

/-- `GraphView.out_degree`, graph_view.py:172-183. -/
def outDegree (gv : GraphView V E) (u : V) : Nat := (gv.outEdges u).length

/-- `GraphView.in_degree`, graph_view.py:207-222. -/
def inDegree (gv : GraphView V E) (u : V) : Nat := (gv.inEdges u).length

/-- A view is itself a graph for the algorithms (`__getattr__` forwards the rest, graph_view.py:49-56). -/
def toI (gv : GraphView V E) : GraphI V E where
  vertices := gv.vertices
  edges := gv.edges
  outEdges := gv.outEdges
  inEdges := gv.inEdges
  source := gv.g.source
  target := gv.g.target

/-- `GraphView.__or__`, graph_view.py:58-76. -/
def or (a b : GraphView V E) : GraphView V E where
  g := a.g
  vrelevant v := a.vrelevant v || b.vrelevant v
  erelevant e := a.erelevant e || b.erelevant e

/-- `GraphView.__and__`, graph_view.py:78-97. -/
def and (a b : GraphView V E) : GraphView V E where
  g := a.g
  vrelevant v := a.vrelevant v && b.vrelevant v
  erelevant e := a.erelevant e && b.erelevant e

/-- `GraphView.__sub__`, graph_view.py:99-124. Python's `and` binds tighter than `or`:
`x and not y or (z)` is `(x and not y) or z`. -/
def sub (a b : GraphView V E) : GraphView V E where
  g := a.g
  vrelevant v := a.vrelevant v && !b.vrelevant v
  erelevant e :=
    (a.erelevant e && !b.erelevant e) || (!b.vrelevant (a.g.source e) && !b.vrelevant (a.g.target e))

end GraphView

end PyBGL
