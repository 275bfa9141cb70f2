import Verif.Model.Heap
import Verif.Model.Search
import Verif.Model.Prune

/-!
# Model of `dijkstra_shortest_paths.py`

Distances have an arbitrary type `D`, so that the model covers every pair (`compare`, `combine`). A visitor that returns normally and does not modify the
property maps is represented by the sequence of the calls it receives, recorded in the state. The property maps are built by `make_assoc_property_map` and
hence rest on a `defaultdict`: `pmap_vdist` with some default distance, `pmap_vpreds` with the empty set, `pmap_vcolor` with `WHITE`.
-/

namespace PyBGL
variable {V E D : Type} [DecidableEq V] [DecidableEq E] [DecidableEq D]

/-- The methods of `DijkstraVisitor`, dijkstra_shortest_paths.py:21-110. -/
inductive DijkstraEvent (V E : Type) where
  | initializeVertex (u : V)
  | examineVertex (u : V)
  | examineEdge (e : E)
  | discoverVertex (u : V)
  | edgeRelaxed (e : E)
  | edgeNotRelaxed (e : E)
  | finishVertex (u : V)
  deriving DecidableEq, Repr

/-- The arguments of `dijkstra_shortest_paths` (dijkstra_shortest_paths.py:191-203); `ord` is the order of the keys of the heap, and `dflt` the default of
`pmap_vdist`. -/
structure DijkstraArgs (E D : Type) where
  weight : E → D
  compare : D → D → Bool
  combine : D → D → D
  zero : D
  infty : D
  ord : KeyOrd D
  dflt : D

/-- The variables of `dijkstra_shortest_paths`, and the calls received by the visitor. -/
structure DijkstraState (V E D : Type) where
  dist : Dict V D
  preds : Dict V (List E)
  color : Dict V Color
  heap : Heap D V
  trace : List (DijkstraEvent V E)

namespace DijkstraState

/-- `pmap_vdist[v]`. -/
def distOf (a : DijkstraArgs E D) (st : DijkstraState V E D) (v : V) : D := st.dist.getD v a.dflt

/-- `pmap_vpreds[v]`. -/
def predsOf (st : DijkstraState V E D) (v : V) : List E := st.preds.getD v []

/-- A call to the visitor. -/
def emit (st : DijkstraState V E D) (e : DijkstraEvent V E) : DijkstraState V E D := { st with trace := st.trace ++ [e] }

end DijkstraState

open DijkstraState

/-- dijkstra_shortest_paths.py:169-174: `v` has just received a new distance. -/
def dijkstraQueue (a : DijkstraArgs E D) (st : DijkstraState V E D) (v : V) : DijkstraState V E D :=
  match colorOf st.color v with
  | .white => ({ st with heap := st.heap.push a.ord (st.distOf a) v, color := st.color.set v .gray }).emit (.discoverVertex v)
  | .gray => { st with heap := st.heap.decreaseKey a.ord (st.distOf a) v }
  | .black => st

/-- The body of the loop over the out-edges, dijkstra_shortest_paths.py:161-182. -/
def dijkstraEdge (a : DijkstraArgs E D) (g : GraphI V E) (w_su : D) (st : DijkstraState V E D) (e : E) : DijkstraState V E D :=
  if a.compare (a.combine w_su (a.weight e)) (st.distOf a (g.target e)) then
    (dijkstraQueue a { st.emit (.examineEdge e) with
      dist := st.dist.set (g.target e) (a.combine w_su (a.weight e)), preds := st.preds.set (g.target e) [e] } (g.target e)).emit (.edgeRelaxed e)
  else if a.combine w_su (a.weight e) = st.distOf a (g.target e) then
    ({ st.emit (.examineEdge e) with preds := st.preds.set (g.target e) (setAdd (st.predsOf (g.target e)) e) }).emit (.edgeRelaxed e)
  else (st.emit (.examineEdge e)).emit (.edgeNotRelaxed e)

/-- `dijkstra_shortest_paths_iteration`, dijkstra_shortest_paths.py:155-185, and the `while heap` of lines 277-283. The visitor raises an exception in
`examine_vertex(u)` if `stop u` (`DijkstraTowardsVisitor`, lines 377-401); the result tells whether it did. -/
def dijkstraStep (a : DijkstraArgs E D) (g : GraphI V E) (stop : V → Bool) (_ : Nat) (st : DijkstraState V E D) :
    Step (DijkstraState V E D) (Bool × DijkstraState V E D) :=
  if st.heap.nonempty then
    match st.heap.pop a.ord with
    | .error e => .fail e
    | .ok (u, heap) =>
      if stop u then .done (true, ({ st with heap := heap }).emit (.examineVertex u))
      else
        let st' := (g.outEdges u).foldl (dijkstraEdge a g (st.distOf a u)) (({ st with heap := heap }).emit (.examineVertex u))
        .next (({ st' with color := st'.color.set u .black }).emit (.finishVertex u))
  else .done (false, st)

/-- `dijkstra_shortest_paths_initialization`, dijkstra_shortest_paths.py:113-129, for one vertex. -/
def dijkstraInitVertex (a : DijkstraArgs E D) (s : V) (st : DijkstraState V E D) (u : V) : DijkstraState V E D :=
  ({ st with dist := st.dist.set u (if u = s then a.zero else a.infty) }).emit (.initializeVertex u)

/-- `dijkstra_shortest_paths`, dijkstra_shortest_paths.py:254-275: the initialization and the heap; `pmap_vcolor` is left to its default. -/
def dijkstraInit (a : DijkstraArgs E D) (g : GraphI V E) (s : V) (dist : Dict V D) (preds : Dict V (List E)) : DijkstraState V E D :=
  let st := g.vertices.foldl (dijkstraInitVertex a s) ⟨dist, preds, Dict.set [] s .white, ⟨[], 0⟩, []⟩
  { st with heap := Heap.make a.ord (st.distOf a) [s] }

/-- `dijkstra_shortest_paths`, dijkstra_shortest_paths.py:191-283, with a visitor that raises an exception in `examine_vertex(u)` if `stop u`. -/
def dijkstra (a : DijkstraArgs E D) (g : GraphI V E) (s : V) (stop : V → Bool) (dist : Dict V D) (preds : Dict V (List E)) (fuel : Nat) :
    Option (Except PyErr (Bool × DijkstraState V E D)) :=
  loop (dijkstraStep a g stop) fuel 0 (dijkstraInit a g s dist preds)

/-- The loop of `make_shortest_path`, dijkstra_shortest_paths.py:362-365; `ord` is the enumeration of the sets. -/
def shortestPathStep (ord : SetOracle E) (g : GraphI V E) (s : V) (preds : Dict V (List E)) (t : Nat) (st : V × List E) :
    Step (V × List E) (List E) :=
  if st.1 = s then .done st.2
  else
    match ord t (preds.getD st.1 []) with
    | [] => .fail .indexError
    | e :: _ => .next (g.source e, e :: st.2)

/-- `make_shortest_path`, dijkstra_shortest_paths.py:335-366. -/
def makeShortestPath (ord : SetOracle E) (g : GraphI V E) (s t : V) (preds : Dict V (List E)) (fuel : Nat) : Option (Except PyErr (List E)) :=
  loop (shortestPathStep ord g s preds) fuel 0 (t, [])

/-- `dijkstra_shortest_path`, dijkstra_shortest_paths.py:404-461. -/
def dijkstraShortestPath (ord : SetOracle E) (a : DijkstraArgs E D) (g : GraphI V E) (s t : V) (dist : Dict V D) (preds : Dict V (List E)) (fuel : Nat) :
    Option (Except PyErr (Option (List E))) :=
  match dijkstra a g s (fun u => decide (u = t)) dist preds fuel with
  | none => none
  | some (.error e) => some (.error e)
  | some (.ok (false, _)) => some (.ok none)
  | some (.ok (true, st)) =>
    match makeShortestPath ord g s t st.preds fuel with
    | none => none
    | some (.error e) => some (.error e)
    | some (.ok p) => some (.ok (some p))

/-- The variable `es` of `make_shortest_paths_dag`, dijkstra_shortest_paths.py:325-327. -/
def dagEdges (ord : SetOracle E) (preds : Dict V (List E)) (single : Bool) (t : Nat) (toProcess : List V) : List E :=
  let es := mkSet (toProcess.flatMap fun u => preds.getD u [])
  if single then (ord t es).take 1 else es

/-- One iteration of `make_shortest_paths_dag`, dijkstra_shortest_paths.py:324-331; the state is `(kept_edges, to_process, done)`. The test `e not in done`
compares an edge with vertices and always succeeds. -/
def dagStep (ord : SetOracle E) (g : GraphI V E) (preds : Dict V (List E)) (single : Bool) (t : Nat) (st : List E × List V × List V) :
    Step (List E × List V × List V) (List E) :=
  if st.2.1 = [] then .done st.1
  else
    let es := dagEdges ord preds single t st.2.1
    let done := setUnion st.2.2 st.2.1
    .next (setUnion st.1 es, (mkSet (es.map g.source)).filter (· ∉ done), done)

/-- `make_shortest_paths_dag`, dijkstra_shortest_paths.py:291-332. -/
def makeShortestPathsDag (ord : SetOracle E) (g : GraphI V E) (t : V) (preds : Dict V (List E)) (single : Bool) (fuel : Nat) :
    Option (Except PyErr (List E)) :=
  loop (dagStep ord g preds single) fuel 0 ([], [t], [])

/-- `dijkstra_shortest_paths`, dijkstra_shortest_paths.py:254-275, when the caller gives `pmap_vcolor`, of contents `color`: only the colour of `s` is reset
(line 126). -/
def dijkstraInitFrom (a : DijkstraArgs E D) (g : GraphI V E) (s : V) (dist : Dict V D) (preds : Dict V (List E)) (color : Dict V Color) :
    DijkstraState V E D :=
  let st := g.vertices.foldl (dijkstraInitVertex a s) ⟨dist, preds, color.set s .white, ⟨[], 0⟩, []⟩
  { st with heap := Heap.make a.ord (st.distOf a) [s] }

/-- `dijkstra_shortest_paths`, dijkstra_shortest_paths.py:191-283, with all its arguments: `dist`, `preds` and `color` are the contents of the maps given by the
caller. -/
def dijkstraFrom (a : DijkstraArgs E D) (g : GraphI V E) (s : V) (stop : V → Bool) (dist : Dict V D) (preds : Dict V (List E)) (color : Dict V Color)
    (fuel : Nat) : Option (Except PyErr (Bool × DijkstraState V E D)) :=
  loop (dijkstraStep a g stop) fuel 0 (dijkstraInitFrom a g s dist preds color)

/-- `dijkstra_shortest_path`, dijkstra_shortest_paths.py:404-461, with all its arguments. -/
def dijkstraShortestPathFrom (ord : SetOracle E) (a : DijkstraArgs E D) (g : GraphI V E) (s t : V) (dist : Dict V D) (preds : Dict V (List E))
    (color : Dict V Color) (fuel : Nat) : Option (Except PyErr (Option (List E))) :=
  match dijkstraFrom a g s (fun u => decide (u = t)) dist preds color fuel with
  | none => none
  | some (.error e) => some (.error e)
  | some (.ok (false, _)) => some (.ok none)
  | some (.ok (true, st)) =>
    match makeShortestPath ord g s t st.preds fuel with
    | none => none
    | some (.error e) => some (.error e)
    | some (.ok p) => some (.ok (some p))

/-- Leaving `pmap_vcolor` to its default is giving a new map. -/
theorem dijkstra_eq_from (a : DijkstraArgs E D) (g : GraphI V E) (s : V) (stop : V → Bool) (dist : Dict V D) (preds : Dict V (List E)) :
    dijkstra a g s stop dist preds = dijkstraFrom a g s stop dist preds [] := rfl

/-- Same for `dijkstra_shortest_path`. -/
theorem dijkstraShortestPath_eq_from (ord : SetOracle E) (a : DijkstraArgs E D) (g : GraphI V E) (s t : V) (dist : Dict V D) (preds : Dict V (List E)) :
    dijkstraShortestPath ord a g s t dist preds = dijkstraShortestPathFrom ord a g s t dist preds [] := rfl

end PyBGL
