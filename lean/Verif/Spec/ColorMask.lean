import Verif.Spec.Traversal
import Verif.Model.Dijkstra
import Verif.Model.Search

/-!
# Specification of the searches that share a map of colours: the calls that are not about an edge towards a masked vertex
-/

namespace PyBGL
variable {V E : Type}

/-- The vertices that the map of colours hides from a search starting at `us`: those that are not white, the starting vertices excepted. -/
def hidden [DecidableEq V] (us : List V) (c : Dict V Color) (v : V) : Bool := decide (v ∉ us) && decide (colorOf c v ≠ .white)

/-- The edges satisfying `p` whose target is not hidden. -/
def visibly [DecidableEq V] (g : GraphI V E) (us : List V) (c : Dict V Color) (p : E → Bool) (e : E) : Bool := p e && !hidden us c (g.target e)

/-- The call does not report an edge towards a vertex of the mask (calls to `if_push` are kept). -/
def dfsUnmasked (g : GraphI V E) (m : V → Bool) : DfsEvent V E → Bool
  | .examineEdge e => !m (g.target e)
  | .treeEdge e => !m (g.target e)
  | .backEdge e => !m (g.target e)
  | .forwardOrCrossEdge e => !m (g.target e)
  | _ => true

/-- Same for the visitors of `breadth_first_search`. -/
def bfsUnmasked (g : GraphI V E) (m : V → Bool) : BfsEvent V E → Bool
  | .examineEdge e => !m (g.target e)
  | .treeEdge e => !m (g.target e)
  | .nonTreeEdge e => !m (g.target e)
  | .grayTarget e => !m (g.target e)
  | .blackTarget e => !m (g.target e)
  | _ => true

/-- Same for the visitors of `dijkstra_shortest_paths`. -/
def dijkstraUnmasked (g : GraphI V E) (m : V → Bool) : DijkstraEvent V E → Bool
  | .examineEdge e => !m (g.target e)
  | .edgeRelaxed e => !m (g.target e)
  | .edgeNotRelaxed e => !m (g.target e)
  | _ => true

/-- `Searches g p us c`: depth-first searches (from one vertex) and breadth-first searches (from several vertices) that all returned normally, whatever their
visitors, have been run in sequence with the same map of colours, new at first; `us` lists the vertices they started from, `c` is the map after the last one. -/
inductive Searches [DecidableEq V] (g : GraphI V E) (p : E → Bool) : List V → Dict V Color → Prop
  | new : Searches g p [] []
  | dfs {us : List V} {c c' : Dict V Color} {σ : Type} {vis : Visitor (DfsEvent V E) σ} {st st' : σ} {s : V} (h : Searches g p us c)
      (hr : Returns (dfs g p vis s c st) (.ok (c', st'))) : Searches g p (us ++ [s]) c'
  | bfs {us vs : List V} {c c' : Dict V Color} {σ : Type} {vis : Visitor (BfsEvent V E) σ} {st st' : σ} (h : Searches g p us c) (hvs : vs.Nodup)
      (hr : Returns (bfsGraph g vs p vis c st) (.ok (c', st'))) : Searches g p (us ++ vs) c'

end PyBGL
