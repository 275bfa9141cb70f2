import Verif.Model.Search

/-!
# Applications of depth-first search
-/

namespace PyBGL
variable {V E : Type} [DecidableEq V]

/-- `TopologicalSortVisitor`, topological_sort.py:16-31; the state is the deque (left end at the head). -/
def topoVisitor : Visitor (DfsEvent V E) (List V)
  | .backEdge _, _ => .error .runtimeError
  | .finish u, stack => .ok (u :: stack)
  | _, stack => .ok stack

/-- `topological_sort`, topological_sort.py:34-59. An empty deque given as `stack` is falsy and is replaced by a fresh one,
which is returned. -/
def topologicalSort (g : GraphI V E) (stack : Option (List V)) (fuel : Nat) : Option (Except PyErr (List V)) :=
  (dfsGraph g [] (fun _ => true) topoVisitor [] (stack.getD []) fuel).map (·.map (·.2))

/-! ## Strongly connected components -/

/-- The attributes of `TarjanVisitor`, strong_components.py:20-51. In `comp`, `none` stands for `INFINITY`. -/
structure Tarjan (V : Type) where
  total : Nat
  comp : Dict V (Option Nat)
  root : Dict V V
  dtime : Dict V Nat
  time : Nat
  stack : List V

namespace Tarjan

/-- `pmap_component[v]`, for a map backed by a `defaultdict(int)`. -/
def compOf (s : Tarjan V) (v : V) : Option Nat := s.comp.getD v (some 0)

/-- `pmap_discover_time[v]`, backed by a `defaultdict(int)` (strong_components.py:132). -/
def dt (s : Tarjan V) (v : V) : Nat := s.dtime.getD v 0

/-- `pmap_root[v]`. The map is backed by a `defaultdict(int)` (strong_components.py:131) but is only read at vertices for which
`discover_vertex` has already stored an entry; the default value used here is irrelevant. -/
def rootOf (root : Dict V V) (v : V) : V := root.getD v v

/-- `discover_vertex`, strong_components.py:53-59. -/
def onDiscover (s : Tarjan V) (u : V) : Tarjan V :=
  { s with root := s.root.set u u, comp := s.comp.set u none, dtime := s.dtime.set u s.time, time := s.time + 1,
           stack := u :: s.stack }

/-- `discover_min`, strong_components.py:61-76. -/
def discoverMin (s : Tarjan V) (u v : V) : V := if s.dt u < s.dt v then u else v

/-- The loop over the out-edges of `finish_vertex`, strong_components.py:80-87: the new `pmap_root`. -/
def updateRoot (g : GraphI V E) (s : Tarjan V) (u : V) (root : Dict V V) (es : List E) : Dict V V :=
  es.foldl (fun root e =>
    if s.compOf (g.target e) = none then root.set u (s.discoverMin (rootOf root u) (rootOf root (g.target e))) else root) root

/-- The loop that pops the stack, strong_components.py:91-96 (`popleft` raises `IndexError` on an empty deque). -/
def popUntil (total : Nat) (u : V) : List V → Dict V (Option Nat) → Dict V V →
    Except PyErr (List V × Dict V (Option Nat) × Dict V V)
  | [], _, _ => .error .indexError
  | v :: st, comp, root =>
    if u = v then .ok (st, comp.set v (some total), root.set v u)
    else popUntil total u st (comp.set v (some total)) (root.set v u)

/-- `finish_vertex`, strong_components.py:78-97. -/
def onFinish (g : GraphI V E) (s : Tarjan V) (u : V) : Except PyErr (Tarjan V) :=
  let root := updateRoot g s u s.root (g.outEdges u)
  if rootOf root u = u then
    match popUntil s.total u s.stack s.comp root with
    | .error e => .error e
    | .ok (stack, comp, root) => .ok { s with stack := stack, comp := comp, root := root, total := s.total + 1 }
  else .ok { s with root := root }

end Tarjan

/-- `TarjanVisitor`. -/
def tarjanVisitor (g : GraphI V E) : Visitor (DfsEvent V E) (Tarjan V)
  | .discover u, s => .ok (s.onDiscover u)
  | .finish u, s => s.onFinish g u
  | _, s => .ok s

/-- `strong_components`, strong_components.py:100-147: the number of components and the final content of `pmap_component`, which
initially contains `comp`. -/
def strongComponents (g : GraphI V E) (comp : Dict V (Option Nat)) (fuel : Nat) : Option (Except PyErr (Nat × Dict V (Option Nat))) :=
  (dfsGraph g g.vertices (fun _ => true) (tarjanVisitor g) [] ⟨0, comp, [], [], 0, []⟩ fuel).map
    (·.map (fun r => (r.2.total, r.2.comp)))

/-! ## Cuts -/

/-- `LeavesVisitor` and the side effect of `IfPush`, cut.py:29-49; the state is `(leaves, cutting_edges)`. -/
def cutVisitor [DecidableEq E] (g : GraphI V E) (inCut : E → Bool) : Visitor (DfsEvent V E) (List V × List E)
  | .examineEdge e, s => .ok (setDiscard s.1 (g.source e), s.2)
  | .discover u, s => .ok (setAdd s.1 u, s.2)
  | .ifPush e, s => .ok (s.1, if inCut e then setAdd s.2 e else s.2)
  | _, s => .ok s

/-- `cut`, cut.py:16-68. In Python `-` binds tighter than `|`. -/
def cut [DecidableEq E] (s : V) (g : GraphI V E) (inCut : E → Bool) (fuel : Nat) : Option (Except PyErr (List V)) :=
  (dfs g (fun e => !inCut e) (cutVisitor g inCut) s [] ([], []) fuel).map (·.map (fun r =>
    mkSet (r.2.2.map g.target ++ r.2.1.filter (fun u => u ∉ r.2.2.map g.source))))

/-! ## Extraction of a subgraph -/

/-- `DepthFirstSearchExtractVisitor`, graph_extract.py:23-97; the callbacks are given as functions on a state, `none` when missing. -/
def extractVisitor {σ : Type} (g : GraphI V E) (vrel : V → Bool) (erel : E → Bool) (onVertex : Option (V → σ → Except PyErr σ))
    (onEdge : Option (E → σ → Except PyErr σ)) : Visitor (DfsEvent V E) σ
  | .discover u, s => match onVertex with | some f => f u s | none => .ok s
  | .examineEdge e, s =>
    if erel e && vrel (g.target e) then match onEdge with | some f => f e s | none => .ok s
    else .ok s
  | _, s => .ok s

/-- `graph_extract`, graph_extract.py:101-147: the final state of the callbacks. -/
def graphExtract {σ : Type} (s : V) (g : GraphI V E) (vrel : Option (V → Bool)) (erel : Option (E → Bool))
    (onVertex : Option (V → σ → Except PyErr σ)) (onEdge : Option (E → σ → Except PyErr σ)) (st : σ) (fuel : Nat) :
    Option (Except PyErr σ) :=
  let vrel := vrel.getD (fun _ => true)
  let erel := erel.getD (fun _ => true)
  (dfs g (fun e => erel e && vrel (g.target e)) (extractVisitor g vrel erel onVertex onEdge) s [] st fuel).map (·.map (·.2))

/-! ## Copy of a subgraph -/

/-- The attributes of `DepthFirstSearchCopyVisitor`, graph_copy.py:17-78. -/
structure CopyState (V E : Type) where
  dup : Graph
  vmap : Dict V Nat
  emap : Dict E (EdgeDesc Nat)
  done : List V

/-- `dup_vertex`, graph_copy.py:80-93 (without the callback). -/
def dupVertex (s : CopyState V E) (u : V) : Nat × CopyState V E :=
  let (x, dup) := s.dup.addVertex
  (x, { s with dup := dup, vmap := s.vmap.set u x, done := setAdd s.done u })

/-- `pmap_vertices[v] if v in self.dup_vertices else self.dup_vertex(v, g)`, graph_copy.py:104-107. -/
def dupTarget (s : CopyState V E) (v : V) : Except PyErr (Nat × CopyState V E) :=
  if v ∈ s.done then
    match s.vmap.getE v with
    | .error err => .error err
    | .ok x => .ok (x, s)
  else .ok (dupVertex s v)

/-- `examine_relevant_edge`, graph_copy.py:99-112 (without the callback); reading a missing key of the `defaultdict(None)` raises
`KeyError`. `add` is the method `add_edge` of the class of `g_dup`. -/
def dupEdge [DecidableEq E] (add : Graph → Nat → Nat → Except PyErr (EdgeDesc Nat × Graph)) (g : GraphI V E) (s : CopyState V E) (e : E) : Except PyErr (CopyState V E) :=
  match s.vmap.getE (g.source e) with
  | .error err => .error err
  | .ok x =>
    match dupTarget s (g.target e) with
    | .error err => .error err
    | .ok (y, s) =>
      match add s.dup x y with
      | .error err => .error err
      | .ok (e', dup) => .ok { s with dup := dup, emap := s.emap.set e e' }

/-- `DepthFirstSearchCopyVisitor`, graph_copy.py:17-112. -/
def copyVisitor [DecidableEq E] (add : Graph → Nat → Nat → Except PyErr (EdgeDesc Nat × Graph)) (g : GraphI V E) (vrel : V → Bool) (erel : E → Bool) :
    Visitor (DfsEvent V E) (CopyState V E)
  | .start u, s => .ok (dupVertex s u).2
  | .examineEdge e, s => if erel e && vrel (g.target e) then dupEdge add g s e else .ok s
  | _, s => .ok s

/-- `graph_copy`, graph_copy.py:115-178, without callbacks: the final content of `g_dup`, `pmap_vertices` and `pmap_edges`.
`add` is the method `add_edge` of the class of `g_dup`. -/
def graphCopyWith [DecidableEq E] (add : Graph → Nat → Nat → Except PyErr (EdgeDesc Nat × Graph)) (s : V) (g : GraphI V E) (dup : Graph) (vrel : Option (V → Bool)) (erel : Option (E → Bool)) (fuel : Nat) :
    Option (Except PyErr (Graph × Dict V Nat × Dict E (EdgeDesc Nat))) :=
  let vrel := vrel.getD (fun _ => true)
  let erel := erel.getD (fun _ => true)
  (dfs g (fun e => erel e && vrel (g.target e)) (copyVisitor add g vrel erel) s [] ⟨dup, [], [], []⟩ fuel).map
    (·.map (fun r => (r.2.dup, r.2.vmap, r.2.emap)))

/-- `graph_copy` into a `DirectedGraph`, graph_copy.py:115-178. -/
def graphCopy [DecidableEq E] (s : V) (g : GraphI V E) (dup : Graph) (vrel : Option (V → Bool)) (erel : Option (E → Bool)) :
    Nat → Option (Except PyErr (Graph × Dict V Nat × Dict E (EdgeDesc Nat))) :=
  graphCopyWith Graph.addEdge s g dup vrel erel

/-- `graph_copy` into an `UndirectedGraph`, graph_copy.py:115-178. -/
def UGraph.graphCopy (s : Nat) (g : GraphI Nat (EdgeDesc Nat)) (dup : Graph) :
    Nat → Option (Except PyErr (Graph × Dict Nat Nat × Dict (EdgeDesc Nat) (EdgeDesc Nat))) :=
  graphCopyWith UGraph.addEdge s g dup none none

end PyBGL
