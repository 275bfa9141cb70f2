import Verif.Model.Graph
import Verif.Prelude.PyM

/-!
# Loops over `vertices()`, `edges()`, `out_edges()` and `in_edges()` whose body changes the graph

These methods return a view of a dictionary (`vertices`) or a generator expression over nested dictionaries and sets: nothing is copied, so the
graph may change between two items. A `for` statement over a generator expression runs the `for` clauses of the expression and the body of the
statement in turn, i.e. as nested loops.

An iterator over a dictionary or a set of CPython remembers the size of the container and how many items it has delivered. Each request for an item
compares the sizes first, and raises `RuntimeError` if the container has grown or shrunk, even if no item is left.

Simplification: the items are listed in their order of insertion. A container from which items were removed and to which as many were added
between two requests is not detected by CPython either, but the items then delivered depend on its memory layout: the theorems only concern loops
that add items or that remove items. A set or dictionary removed from the graph while it is iterated is read as an empty one: `remove_edge` and
`remove_vertex` have removed the current edge from its set before, which is noticed first.
-/

namespace PyBGL

variable {S : Type}

/-- Requests to an iterator of a container that had `size` items, `size - k` of which were delivered, and the body of the loop in turn. -/
def forFrom {X : Type} (items : S → List X) (body : X → PyM S Unit) (size : Nat) : Nat → PyM S Unit
  | 0 => fun s => if (items s).length = size then (.ok (), s) else (.error .runtimeError, s)
  | k + 1 => fun s =>
    if (items s).length = size then
      match (items s)[size - (k + 1)]? with
      | some x => (PyM.bind (body x) fun _ => forFrom items body size k) s
      | none => (.ok (), s)
    else (.error .runtimeError, s)

/-- `for x in c: body(x)` where `c` is a dictionary or a set of which `items` reads the current contents. -/
def pyFor {X : Type} (items : S → List X) (body : X → PyM S Unit) : PyM S Unit := fun s =>
  forFrom items body (items s).length (items s).length s

/-- The clauses `for (v, s) in adj.get(u, dict()).items() for n in s if keep(u, v)` followed by the body, graph.py:284-288, 553-557, 596-601 and
incidence_graph.py:73-77. -/
def forAdj {E : Type} (adj : S → Dict Nat (Dict Nat (List Nat))) (keep : Nat → Nat → Bool) (mk : Nat → Nat → Nat → E) (body : E → PyM S Unit) (u : Nat) :
    PyM S Unit :=
  pyFor (fun s => ((adj s).getD u []).keys) fun v =>
    pyFor (fun s => ((adj s).getD u []).getD v []) fun n =>
      if keep u v then body (mk u v n) else PyM.pure ()

/-- `for u in g.vertices(): body(u)`, graph.py:208-216: `adjacencies.keys()` is a view. -/
def Graph.forVertices (graph : S → Graph) (body : Nat → PyM S Unit) : PyM S Unit := pyFor (fun s => (graph s).adj.keys) body

/-- `for e in g.out_edges(u): body(e)` for a directed or undirected graph, graph.py:273-288, 541-558. -/
def Graph.forOutEdges (graph : S → Graph) (u : Nat) (body : EdgeDesc Nat → PyM S Unit) : PyM S Unit :=
  forAdj (fun s => (graph s).adj) (fun _ _ => true) (fun u v n => ⟨u, v, n⟩) body u

/-- `for e in g.edges(): body(e)` for a directed graph, graph.py:338-351. -/
def Graph.forEdges (graph : S → Graph) (body : EdgeDesc Nat → PyM S Unit) : PyM S Unit :=
  pyFor (fun s => (graph s).adj.keys) (Graph.forOutEdges graph · body)

/-- `for e in g.edges(): body(e)` for an undirected graph, graph.py:588-601. -/
def UGraph.forEdges (graph : S → Graph) (body : EdgeDesc Nat → PyM S Unit) : PyM S Unit :=
  pyFor (fun s => (graph s).adj.keys) (forAdj (fun s => (graph s).adj) (fun u v => decide (u ≤ v)) (fun u v n => ⟨u, v, n⟩) body)

/-- `for e in g.in_edges(v): body(e)` for an incidence graph, incidence_graph.py:71-77. -/
def IGraph.forInEdges (graph : S → IGraph) (v : Nat) (body : EdgeDesc Nat → PyM S Unit) : PyM S Unit :=
  forAdj (fun s => (graph s).inAdj) (fun _ _ => true) (fun v u n => ⟨u, v, n⟩) body v

end PyBGL
