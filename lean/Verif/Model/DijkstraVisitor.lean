import Verif.Model.Dijkstra

/-!
# Model of `dijkstra_shortest_paths` with an arbitrary visitor

A portion of the code ends by an exception, which leaves the maps in some state, or normally: its outcome is an
`Except (PyErr × DijkstraState V E D) (DijkstraState V E D × σ)`. The visitor may read the property maps each time it is called, keep a state of its own, and raise an exception in any of its methods; it does not modify the
graph nor the maps. An exception of the visitor crosses `dijkstra_shortest_paths`, which catches nothing: the outcome is then the exception, and the contents of
the maps at that time.
-/

namespace PyBGL
variable {V E D σ : Type} [DecidableEq V] [DecidableEq E] [DecidableEq D]

/-- A `DijkstraVisitor` (dijkstra_shortest_paths.py:21-110) which reads the maps. -/
abbrev DijkstraReader (V E D σ : Type) := DijkstraEvent V E → DijkstraState V E D → σ → Except PyErr σ

/-- A call to a method of the visitor. -/
def dijkstraCall (vis : DijkstraReader V E D σ) (ev : DijkstraEvent V E) (p : DijkstraState V E D × σ) : Except (PyErr × DijkstraState V E D) (DijkstraState V E D × σ) :=
  match vis ev (p.1.emit ev) p.2 with
  | .ok x => .ok (p.1.emit ev, x)
  | .error err => .error (err, p.1.emit ev)

/-- dijkstra_shortest_paths.py:169-174: `v` has just received a new distance. -/
def dijkstraQueueV (a : DijkstraArgs E D) (vis : DijkstraReader V E D σ) (p : DijkstraState V E D × σ) (v : V) : Except (PyErr × DijkstraState V E D) (DijkstraState V E D × σ) :=
  match colorOf p.1.color v with
  | .white => dijkstraCall vis (.discoverVertex v)
      ({ p.1 with heap := p.1.heap.push a.ord (p.1.distOf a) v, color := p.1.color.set v .gray }, p.2)
  | .gray => .ok ({ p.1 with heap := p.1.heap.decreaseKey a.ord (p.1.distOf a) v }, p.2)
  | .black => .ok p

/-- The body of the loop over the out-edges, dijkstra_shortest_paths.py:161-182. -/
def dijkstraEdgeV (a : DijkstraArgs E D) (g : GraphI V E) (vis : DijkstraReader V E D σ) (w_su : D) (p : DijkstraState V E D × σ) (e : E) :
    Except (PyErr × DijkstraState V E D) (DijkstraState V E D × σ) := do
  let q ← dijkstraCall vis (.examineEdge e) p
  let v := g.target e
  let w := a.combine w_su (a.weight e)
  if a.compare w (q.1.distOf a v) then
    let r ← dijkstraQueueV a vis ({ q.1 with dist := q.1.dist.set v w, preds := q.1.preds.set v [e] }, q.2) v
    dijkstraCall vis (.edgeRelaxed e) r
  else if w = q.1.distOf a v then
    dijkstraCall vis (.edgeRelaxed e) ({ q.1 with preds := q.1.preds.set v (setAdd (q.1.predsOf v) e) }, q.2)
  else dijkstraCall vis (.edgeNotRelaxed e) q

/-- `dijkstra_shortest_paths_iteration`, dijkstra_shortest_paths.py:156-185, once `u` has been popped. -/
def dijkstraVertexV (a : DijkstraArgs E D) (g : GraphI V E) (vis : DijkstraReader V E D σ) (u : V) (p : DijkstraState V E D × σ) :
    Except (PyErr × DijkstraState V E D) (DijkstraState V E D × σ) := do
  let w_su := p.1.distOf a u
  let q ← dijkstraCall vis (.examineVertex u) p
  let r ← (g.outEdges u).foldlM (dijkstraEdgeV a g vis w_su) q
  dijkstraCall vis (.finishVertex u) ({ r.1 with color := r.1.color.set u .black }, r.2)

/-- The `while heap` of dijkstra_shortest_paths.py:277-283. -/
def dijkstraStepV (a : DijkstraArgs E D) (g : GraphI V E) (vis : DijkstraReader V E D σ) (_ : Nat) (p : DijkstraState V E D × σ) :
    Step (DijkstraState V E D × σ) (Except (PyErr × DijkstraState V E D) (DijkstraState V E D × σ)) :=
  if p.1.heap.nonempty then
    match p.1.heap.pop a.ord with
    | .error err => .done (.error (err, p.1))
    | .ok (u, heap) =>
      match dijkstraVertexV a g vis u ({ p.1 with heap := heap }, p.2) with
      | .error r => .done (.error r)
      | .ok q => .next q
  else .done (.ok p)

/-- `dijkstra_shortest_paths_initialization`, dijkstra_shortest_paths.py:127-129, for one vertex. -/
def dijkstraInitVertexV (a : DijkstraArgs E D) (s : V) (vis : DijkstraReader V E D σ) (p : DijkstraState V E D × σ) (u : V) : Except (PyErr × DijkstraState V E D) (DijkstraState V E D × σ) :=
  dijkstraCall vis (.initializeVertex u) ({ p.1 with dist := p.1.dist.set u (if u = s then a.zero else a.infty) }, p.2)

/-- `dijkstra_shortest_paths`, dijkstra_shortest_paths.py:191-283, with any visitor; `pmap_vcolor` is left to its default. -/
def dijkstraV (a : DijkstraArgs E D) (g : GraphI V E) (s : V) (vis : DijkstraReader V E D σ) (x : σ) (dist : Dict V D) (preds : Dict V (List E)) (fuel : Nat) :
    Option (Except PyErr (Except (PyErr × DijkstraState V E D) (DijkstraState V E D × σ))) :=
  match g.vertices.foldlM (dijkstraInitVertexV a s vis) (⟨dist, preds, Dict.set [] s .white, ⟨[], 0⟩, []⟩, x) with
  | .error r => some (.ok (.error r))
  | .ok (st, x) => loop (dijkstraStepV a g vis) fuel 0 ({ st with heap := Heap.make a.ord (st.distOf a) [s] }, x)

end PyBGL
