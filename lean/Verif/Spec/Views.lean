import Verif.Model.Interface

/-!
# Specification: when two views show the same graph
-/

namespace PyBGL

/-- The two views list the same vertices, edges, out-edges and in-edges, in the same order. -/
structure SameView {V E : Type} (a b : GraphView V E) : Prop where
  vertices : a.vertices = b.vertices
  edges : a.edges = b.edges
  out : ∀ u, a.outEdges u = b.outEdges u
  inn : ∀ u, a.inEdges u = b.inEdges u

end PyBGL
