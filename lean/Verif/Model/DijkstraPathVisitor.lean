import Verif.Model.DijkstraVisitor

/-!
# Model of `dijkstra_shortest_path` called with a visitor

`stopExc` is the exception class `DijkstraStopException` (dijkstra_shortest_paths.py:373-374): any member of `PyErr` may stand for it.
-/

namespace PyBGL
variable {V E D σ : Type} [DecidableEq V] [DecidableEq E] [DecidableEq D]

/-- The visitor given to `dijkstra_shortest_paths` by `dijkstra_shortest_path`, dijkstra_shortest_paths.py:450-451: each call reaches `vis` first, if there is one, and then a
`DijkstraTowardsVisitor(t)` (dijkstra_shortest_paths.py:377-401). -/
def towards (stopExc : PyErr) (t : V) (vis : Option (DijkstraReader V E D σ)) : DijkstraReader V E D σ := fun ev st x =>
  match (match vis with | some vis => vis ev st x | none => .ok x) with
  | .error err => .error err
  | .ok x => if ev = .examineVertex t then .error stopExc else .ok x

/-- `dijkstra_shortest_path(g, s, t, ..., vis=vis)`, dijkstra_shortest_paths.py:404-461: what is returned or raised, and the contents of the maps when the search ended. -/
def dijkstraShortestPathV (stopExc : PyErr) (ord : SetOracle E) (a : DijkstraArgs E D) (g : GraphI V E) (s t : V) (vis : Option (DijkstraReader V E D σ)) (x : σ) (dist : Dict V D)
    (preds : Dict V (List E)) (fuel : Nat) : Option (Except PyErr (Except PyErr (Option (List E)) × DijkstraState V E D)) :=
  match dijkstraV a g s (towards stopExc t vis) x dist preds fuel with
  | none => none
  | some (.error e) => some (.error e)
  | some (.ok (.ok (st, _))) => some (.ok (.ok none, st))
  | some (.ok (.error (err, st))) =>
    if err = stopExc then
      match makeShortestPath ord g s t st.preds fuel with
      | none => none
      | some r => some (.ok (r.map some, st))
    else some (.ok (.error err, st))

end PyBGL
