import Verif.Spec.ShortestPath
import Verif.Model.DijkstraVisitor

/-!
# What a visitor of `dijkstra_shortest_paths` sees, and what it leaves behind when it raises (specification)
-/

namespace PyBGL
variable {V E D σ : Type}

/-- The calls `calls`, each with the contents of the maps at that time, are made one after the other; the first exception ends everything, and the maps remain as
they are at that time. If there is none, the maps are `fin` in the end. -/
def tell (vis : DijkstraReader V E D σ) (fin : DijkstraState V E D) : List (DijkstraEvent V E × DijkstraState V E D) → σ →
    Except (PyErr × DijkstraState V E D) (DijkstraState V E D × σ)
  | [], x => .ok (fin, x)
  | (ev, st) :: calls, x =>
    match vis ev st x with
    | .ok x' => tell vis fin calls x'
    | .error err => .error (err, st)

/-- What one can rely on while the search runs: `dist` and `preds` are the contents of the maps, `examined` the vertices for which `examine_vertex` has been
called, and `finished` those for which `finish_vertex` has been called.
-/
structure Trustworthy (compare : D → D → Bool) (combine : D → D → D) (zero infty : D) (weight : E → D) (g : GraphI V E) (s : V)
    (dist : V → D) (preds : V → List E) (examined finished : List V) : Prop where
  /-- The source is at distance `zero`. -/
  source : dist s = zero
  /-- Every distance is `infty` or the weight of a path that exists. -/
  witness : ∀ v ∈ g.vertices, dist v = infty ∨ compare (dist v) infty = true ∧ ∃ p, IsPath g s p v ∧ pathWeight combine zero weight p = dist v
  /-- The distances of the examined vertices are final: they are the best ones. -/
  exact : ∀ u ∈ examined, u ∈ g.vertices ∧ compare (dist u) infty = true ∧
    IsBest compare infty (fun d => ∃ p, IsPath g s p u ∧ pathWeight combine zero weight p = d) (dist u)
  /-- The arcs that leave the finished vertices have been taken into account. -/
  relaxed : ∀ u ∈ finished, ∀ e ∈ g.outEdges u, compare (combine (dist u) (weight e)) (dist (g.target e)) = false ∧
    (combine (dist u) (weight e) = dist (g.target e) → e ∈ preds (g.target e))
  /-- Every predecessor of `v` ends a path of weight `dist v`, and leaves an examined vertex. -/
  pred : ∀ v, ∀ e ∈ preds v, ∃ u ∈ examined, e ∈ g.outEdges u ∧ g.target e = v ∧ combine (dist u) (weight e) = dist v ∧
    ∃ p, IsPath g s (p ++ [e]) v ∧ pathWeight combine zero weight (p ++ [e]) = dist v
  /-- Every vertex reached so far, other than the source, has a predecessor. -/
  reached : ∀ v ∈ g.vertices, v ≠ s → compare (dist v) infty = true → preds v ≠ []

end PyBGL
