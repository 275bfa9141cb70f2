import Verif.Model.Dijkstra
import Verif.Spec.ShortestPath

/-!
# What a `DijkstraVisitor` is told (specification)

A notebook is kept by someone who knows the graph, the weights and the order in which the vertices are examined, and has no heap. It holds the distances, the
predecessor arcs and the vertices not yet met. The calls are those that this person would make.
-/

namespace PyBGL

/-- The notebook: the current distances, the predecessor arcs, and the vertices not yet met. -/
structure Notebook (V E D : Type) where
  dist : V → D
  preds : V → E → Prop
  fresh : V → Prop

namespace Notebook
variable {V E D : Type} [DecidableEq V] [DecidableEq D]

/-- `Crosses compare combine weight g d n e evs n'`: the arc `e` is followed from a vertex examined at the distance `d`, which leads to `evs` and to the notebook `n'`.
Either the arc improves the distance of its target, which is discovered if it has not been met; or it gives the same distance; or neither. -/
inductive Crosses (compare : D → D → Bool) (combine : D → D → D) (weight : E → D) (g : GraphI V E) (d : D) (n : Notebook V E D) (e : E) :
    List (DijkstraEvent V E) → Notebook V E D → Prop
  | discover (h : compare (combine d (weight e)) (n.dist (g.target e)) = true) (hf : n.fresh (g.target e)) :
      Crosses compare combine weight g d n e [.examineEdge e, .discoverVertex (g.target e), .edgeRelaxed e]
        ⟨fun v => if v = g.target e then combine d (weight e) else n.dist v, fun v x => if v = g.target e then x = e else n.preds v x,
          fun v => v ≠ g.target e ∧ n.fresh v⟩
  | improve (h : compare (combine d (weight e)) (n.dist (g.target e)) = true) (hf : ¬ n.fresh (g.target e)) :
      Crosses compare combine weight g d n e [.examineEdge e, .edgeRelaxed e]
        ⟨fun v => if v = g.target e then combine d (weight e) else n.dist v, fun v x => if v = g.target e then x = e else n.preds v x, n.fresh⟩
  | equal (h : compare (combine d (weight e)) (n.dist (g.target e)) = false) (he : combine d (weight e) = n.dist (g.target e)) :
      Crosses compare combine weight g d n e [.examineEdge e, .edgeRelaxed e]
        ⟨n.dist, fun v x => n.preds v x ∨ (v = g.target e ∧ x = e), n.fresh⟩
  | worse (h : compare (combine d (weight e)) (n.dist (g.target e)) = false) (he : combine d (weight e) ≠ n.dist (g.target e)) :
      Crosses compare combine weight g d n e [.examineEdge e, .edgeNotRelaxed e] n

/-- The arcs of a list are followed one after the other from a vertex examined at the distance `d`. -/
inductive CrossesAll (compare : D → D → Bool) (combine : D → D → D) (weight : E → D) (g : GraphI V E) (d : D) :
    Notebook V E D → List E → List (DijkstraEvent V E) → Notebook V E D → Prop
  | nil (n : Notebook V E D) : CrossesAll compare combine weight g d n [] [] n
  | cons {n n' n'' : Notebook V E D} {e : E} {es : List E} {evs evs' : List (DijkstraEvent V E)} (h : Crosses compare combine weight g d n e evs n')
      (hs : CrossesAll compare combine weight g d n' es evs' n'') : CrossesAll compare combine weight g d n (e :: es) (evs ++ evs') n''

/-- The vertices of a list are examined one after the other: all the arcs that leave each of them are followed, then it is finished. -/
inductive Examines (compare : D → D → Bool) (combine : D → D → D) (weight : E → D) (g : GraphI V E) :
    Notebook V E D → List V → List (DijkstraEvent V E) → Notebook V E D → Prop
  | nil (n : Notebook V E D) : Examines compare combine weight g n [] [] n
  | cons {n n' n'' : Notebook V E D} {u : V} {us : List V} {evs evs' : List (DijkstraEvent V E)}
      (h : CrossesAll compare combine weight g (n.dist u) n (g.outEdges u) evs n')
      (hs : Examines compare combine weight g ⟨n'.dist, n'.preds, fun v => v ≠ u ∧ n'.fresh v⟩ us evs' n'') :
      Examines compare combine weight g n (u :: us) ((.examineVertex u :: evs ++ [.finishVertex u]) ++ evs') n''

end Notebook

end PyBGL
