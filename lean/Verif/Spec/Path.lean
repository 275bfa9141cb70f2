import Verif.Model.Interface

/-!
# Paths in a graph (specification)
-/

namespace PyBGL

/-- `IsPath g u es v`: the list of edges `es` leads from `u` to `v`, each edge being one of the
out-edges of the vertex reached so far. -/
inductive IsPath {V E : Type} (g : GraphI V E) : V → List E → V → Prop
  | nil (u : V) : IsPath g u [] u
  | cons {u v : V} {e : E} {es : List E} :
      e ∈ g.outEdges u → IsPath g (g.target e) es v → IsPath g u (e :: es) v

/-- Reachability: some path exists. -/
def Reach {V E : Type} (g : GraphI V E) (u v : V) : Prop := ∃ es, IsPath g u es v

/-- Some vertex lies on a closed path with at least one edge. -/
def HasCycle {V E : Type} (g : GraphI V E) : Prop := ∃ u ∈ g.vertices, ∃ es, es ≠ [] ∧ IsPath g u es u

/-- Every edge leads to a vertex of the graph. -/
def GraphI.Closed {V E : Type} (g : GraphI V E) : Prop := ∀ u ∈ g.vertices, ∀ e ∈ g.outEdges u, g.target e ∈ g.vertices

end PyBGL
