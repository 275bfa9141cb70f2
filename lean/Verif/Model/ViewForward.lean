import Verif.Model.Interface

/-!
# Model of the methods that a `GraphView` forwards, and of nested views

`GraphView.__getattr__` (graph_view.py:49-56) hands every method the class does not define over to the graph `self.g`, which runs it with its own `vertices`, `edges`
and `out_edges`. The graph viewed is here a graph, not a view (for nested views see `nested`).
-/

namespace PyBGL
namespace GraphView
variable {V E : Type}

/-- `gv.has_vertex()`, graph_view.py:49-56 and graph.py:385-395. -/
def hasVertex (gv : GraphView V E) : Bool := match gv.g.vertices with | [] => false | _ :: _ => true

/-- `gv.has_edge()`, graph_view.py:49-56 and graph.py:397-407. -/
def hasEdge (gv : GraphView V E) : Bool := match gv.g.edges with | [] => false | _ :: _ => true

/-- `gv.edge(u, v)`, graph_view.py:49-56 and graph.py:353-373. -/
def edge [DecidableEq V] [DecidableEq E] (gv : GraphView V E) (u v : V) : Option E × Bool :=
  match mkSet ((gv.g.outEdges u).filter fun e => gv.g.target e = v) with
  | [e] => (some e, true)
  | _ => (none, false)

/-- `GraphView(gv, pmap_vrelevant, pmap_erelevant)`, graph_view.py:21-47, where `gv` is itself a view. -/
def nested (gv : GraphView V E) (vrelevant : V → Bool) (erelevant : E → Bool) : GraphView V E where
  g := gv.toI
  vrelevant := vrelevant
  erelevant := erelevant

end GraphView
end PyBGL
