import Verif.Model.Interface

/-!
# Graph traversals

Visitors are modelled by a state `σ` and a function receiving every call, which may raise. Visitors do not
mutate the graph or the colours. The Boolean returned by `if_push` is a function of the edge; its side effects, if
any, are modelled by a dedicated event handed to the visitor each time `if_push` is called.
-/

namespace PyBGL

/-- The colours `WHITE`, `GRAY`, `BLACK`, graph_traversal.py:13-15. `WHITE` is `0`, the default of the
`defaultdict(int)` used as colour map. -/
inductive Color where
  | white | gray | black
  deriving DecidableEq, Repr

/-- A visitor. -/
abbrev Visitor (Ev σ : Type) := Ev → σ → Except PyErr σ

/-- Successive calls to a visitor. -/
def emit {Ev σ : Type} (vis : Visitor Ev σ) (evs : List Ev) (s : σ) : Except PyErr σ :=
  evs.foldlM (fun s e => vis e s) s

/-- A visitor that records the calls. -/
def recorder {Ev : Type} : Visitor Ev (List Ev) := fun e s => .ok (s ++ [e])

/-- `pmap[u]` for a colour map backed by a `defaultdict(int)`. Reading inserts the default value; in the traversals
below, each vertex read as `WHITE` is overwritten at once, so that the insertion is not modelled. -/
def colorOf {V : Type} [DecidableEq V] (c : Dict V Color) (v : V) : Color := c.getD v .white

/-! ## Depth-first search -/

/-- Calls made by `depth_first_search` (depth_first_search.py:13-104); `ifPush e` stands for a call to `if_push(e, g)`. -/
inductive DfsEvent (V E : Type) where
  | start (s : V)
  | discover (u : V)
  | ifPush (e : E)
  | examineEdge (e : E)
  | treeEdge (e : E)
  | backEdge (e : E)
  | forwardOrCrossEdge (e : E)
  | finish (u : V)
  deriving DecidableEq, Repr

section Dfs
variable {V E σ : Type} [DecidableEq V]

/-- The state of `depth_first_search`, depth_first_search.py:146-189: the colours, the visitor, the stack (top at the head),
and, inside the inner loop, the variables `u`, `u_edges`, `i`, `n`. -/
structure DfsState (V E σ : Type) where
  color : Dict V Color
  st : σ
  stack : List (V × Nat × Nat)
  cur : Option (V × List E × Nat × Nat)

/-- `[e for e in g.out_edges(u) if if_push(e, g)]`, depth_first_search.py:149, 156, 177. -/
def pushed (g : GraphI V E) (ifPush : E → Bool) (u : V) : List E := (g.outEdges u).filter ifPush

/-- The calls to `if_push` made by this list comprehension. -/
def pushCalls (g : GraphI V E) (u : V) : List (DfsEvent V E) := (g.outEdges u).map .ifPush

/-- One iteration of the loops of depth_first_search.py:152-189 (the outer loop when `cur` is `none`). -/
def dfsStep (g : GraphI V E) (ifPush : E → Bool) (vis : Visitor (DfsEvent V E) σ) (_ : Nat) (s : DfsState V E σ) :
    Step (DfsState V E σ) (Dict V Color × σ) :=
  match s.cur with
  | none =>
    match s.stack with
    | [] => .done (s.color, s.st)
    | (u, i, n) :: rest =>
      match emit vis (pushCalls g u) s.st with
      | .error e => .fail e
      | .ok st => .next ⟨s.color, st, rest, some (u, pushed g ifPush u, i, n)⟩
  | some (u, es, i, n) =>
    if i = n then
      match vis (.finish u) s.st with
      | .error e => .fail e
      | .ok st => .next ⟨s.color.set u .black, st, s.stack, none⟩
    else
      match es[i]? with
      | none => .fail .indexError
      | some e =>
        match vis (.examineEdge e) s.st with
        | .error err => .fail err
        | .ok st =>
          match colorOf s.color (g.target e) with
          | .white =>
            match emit vis ([.treeEdge e, .discover (g.target e)] ++ pushCalls g (g.target e)) st with
            | .error err => .fail err
            | .ok st => .next ⟨s.color.set (g.target e) .gray, st, (u, i + 1, n) :: s.stack,
                some (g.target e, pushed g ifPush (g.target e), 0, (pushed g ifPush (g.target e)).length)⟩
          | .gray =>
            match vis (.backEdge e) st with
            | .error err => .fail err
            | .ok st => .next ⟨s.color, st, s.stack, some (u, es, i + 1, n)⟩
          | .black =>
            match vis (.forwardOrCrossEdge e) st with
            | .error err => .fail err
            | .ok st => .next ⟨s.color, st, s.stack, some (u, es, i + 1, n)⟩

/-- `depth_first_search`, depth_first_search.py:107-189; `(c, st)` are the colours and the visitor at the time of the
call, the final ones are returned. -/
def dfs (g : GraphI V E) (ifPush : E → Bool) (vis : Visitor (DfsEvent V E) σ) (s : V) (c : Dict V Color) (st : σ)
    (fuel : Nat) : Option (Except PyErr (Dict V Color × σ)) :=
  match emit vis ([.start s, .discover s] ++ pushCalls g s) st with
  | .error e => some (.error e)
  | .ok st =>
    loop (dfsStep g ifPush vis) fuel 0 ⟨c.set s .gray, st, [(s, 0, (pushed g ifPush s).length)], none⟩

/-- The loop of `depth_first_search_graph`, depth_first_search.py:226-228. -/
def dfsSources (g : GraphI V E) (ifPush : E → Bool) (vis : Visitor (DfsEvent V E) σ) (fuel : Nat) :
    List V → Dict V Color → σ → Option (Except PyErr (Dict V Color × σ))
  | [], c, st => some (.ok (c, st))
  | u :: us, c, st =>
    if colorOf c u = .white then
      match dfs g ifPush vis u c st fuel with
      | some (.ok (c, st)) => dfsSources g ifPush vis fuel us c st
      | r => r
    else dfsSources g ifPush vis fuel us c st

/-- `depth_first_search_graph`, depth_first_search.py:193-228: an empty (or missing) `sources` stands for all the
vertices (`sources if sources else g.vertices()`). -/
def dfsGraph (g : GraphI V E) (sources : List V) (ifPush : E → Bool) (vis : Visitor (DfsEvent V E) σ) (c : Dict V Color)
    (st : σ) (fuel : Nat) : Option (Except PyErr (Dict V Color × σ)) :=
  dfsSources g ifPush vis fuel (if sources.isEmpty then g.vertices else sources) c st

end Dfs

/-! ## Breadth-first search -/

/-- Calls made by `breadth_first_search` (breadth_first_search.py:13-127); `ifPush e` stands for a call to
`if_push(e, g)`. -/
inductive BfsEvent (V E : Type) where
  | initializeVertex (u : V)
  | discover (u : V)
  | examineVertex (u : V)
  | ifPush (e : E)
  | examineEdge (e : E)
  | treeEdge (e : E)
  | nonTreeEdge (e : E)
  | grayTarget (e : E)
  | blackTarget (e : E)
  | finish (u : V)
  deriving DecidableEq, Repr

section Bfs
variable {V E σ : Type} [DecidableEq V]

/-- The state of `breadth_first_search_graph`: the colours, the visitor and the deque. The head of the list is the right end
of the deque, where `pop` takes its element; `appendleft` adds at the end of the list. -/
structure BfsState (V σ : Type) where
  color : Dict V Color
  st : σ
  queue : List V

/-- The loop over the sources, breadth_first_search.py:171-174 (`append` adds at the right end of the deque). -/
def bfsInit (vis : Visitor (BfsEvent V E) σ) : List V → BfsState V σ → Except PyErr (BfsState V σ)
  | [], s => .ok s
  | u :: us, s =>
    match vis (.discover u) s.st with
    | .error e => .error e
    | .ok st => bfsInit vis us ⟨s.color.set u .gray, st, u :: s.queue⟩

/-- The loop over the out-edges, breadth_first_search.py:179-195. -/
def bfsEdges (g : GraphI V E) (ifPush : E → Bool) (vis : Visitor (BfsEvent V E) σ) :
    List E → BfsState V σ → Except PyErr (BfsState V σ)
  | [], s => .ok s
  | e :: es, s =>
    match vis (.ifPush e) s.st with
    | .error err => .error err
    | .ok st =>
      if ifPush e then
        match vis (.examineEdge e) st with
        | .error err => .error err
        | .ok st =>
          match colorOf s.color (g.target e) with
          | .white =>
            match emit vis [.treeEdge e, .discover (g.target e)] st with
            | .error err => .error err
            | .ok st => bfsEdges g ifPush vis es ⟨s.color.set (g.target e) .gray, st, s.queue ++ [g.target e]⟩
          | .gray =>
            match emit vis [.nonTreeEdge e, .grayTarget e] st with
            | .error err => .error err
            | .ok st => bfsEdges g ifPush vis es ⟨s.color, st, s.queue⟩
          | .black =>
            match emit vis [.nonTreeEdge e, .blackTarget e] st with
            | .error err => .error err
            | .ok st => bfsEdges g ifPush vis es ⟨s.color, st, s.queue⟩
      else bfsEdges g ifPush vis es ⟨s.color, st, s.queue⟩

/-- One iteration of the loop of breadth_first_search.py:176-197. -/
def bfsStep (g : GraphI V E) (ifPush : E → Bool) (vis : Visitor (BfsEvent V E) σ) (_ : Nat) (s : BfsState V σ) :
    Step (BfsState V σ) (Dict V Color × σ) :=
  match s.queue with
  | [] => .done (s.color, s.st)
  | u :: q =>
    match vis (.examineVertex u) s.st with
    | .error e => .fail e
    | .ok st =>
      match bfsEdges g ifPush vis (g.outEdges u) ⟨s.color, st, q⟩ with
      | .error e => .fail e
      | .ok s =>
        match vis (.finish u) s.st with
        | .error e => .fail e
        | .ok st => .next ⟨s.color.set u .black, st, s.queue⟩

/-- `breadth_first_search_graph`, breadth_first_search.py:130-197. -/
def bfsGraph (g : GraphI V E) (sources : List V) (ifPush : E → Bool) (vis : Visitor (BfsEvent V E) σ) (c : Dict V Color)
    (st : σ) (fuel : Nat) : Option (Except PyErr (Dict V Color × σ)) :=
  match bfsInit vis sources ⟨c, st, []⟩ with
  | .error e => some (.error e)
  | .ok s => loop (bfsStep g ifPush vis) fuel 0 s

/-- `breadth_first_search`, breadth_first_search.py:200-237. The default `vis=None` is not replaced by a visitor before
`vis.initialize_vertex` is called (breadth_first_search.py:234-235), which raises `AttributeError` as soon as the graph has a vertex; on a graph
without vertices `breadth_first_search_graph` replaces it by the default visitor, which does nothing. -/
def bfs (g : GraphI V E) (s : V) (ifPush : E → Bool) (vis : Option (Visitor (BfsEvent V E) σ)) (c : Dict V Color) (st : σ)
    (fuel : Nat) : Option (Except PyErr (Dict V Color × σ)) :=
  match vis with
  | none =>
    match g.vertices with
    | [] => bfsGraph g [s] ifPush (fun _ st => .ok st) c st fuel
    | _ => some (.error .attributeError)
  | some vis =>
    match emit vis (g.vertices.map .initializeVertex) st with
    | .error e => some (.error e)
    | .ok st => bfsGraph g [s] ifPush vis (g.vertices.foldl (fun c u => c.set u .white) c) st fuel

end Bfs

/-! ## Trees -/

/-- Calls made by `dfs_tree` and `bfs_tree`, graph_traversal.py:18-60. -/
inductive TreeEvent (V E : Type) where
  | start (s : V)
  | discover (u : V)
  | examineEdge (e : E)
  | finish (u : V)
  deriving DecidableEq, Repr

section Tree
variable {V E σ : Type}

/-- The calls made while treating a node, graph_traversal.py:83-88 and 111-116. -/
def treeCalls (g : GraphI V E) (u : V) : List (TreeEvent V E) :=
  [.discover u] ++ (g.outEdges u).map .examineEdge ++ [.finish u]

/-- One iteration of `dfs_tree`, graph_traversal.py:81-88; the stack has its top at the head. -/
def dfsTreeStep (g : GraphI V E) (vis : Visitor (TreeEvent V E) σ) (_ : Nat) (s : List V × σ) : Step (List V × σ) σ :=
  match s.1 with
  | [] => .done s.2
  | u :: st =>
    match emit vis (treeCalls g u) s.2 with
    | .error e => .fail e
    | .ok x => .next ((g.outEdges u).foldl (fun st e => g.target e :: st) st, x)

/-- `dfs_tree`, graph_traversal.py:63-88. -/
def dfsTree (g : GraphI V E) (vis : Visitor (TreeEvent V E) σ) (s : V) (st : σ) (fuel : Nat) : Option (Except PyErr σ) :=
  match vis (.start s) st with
  | .error e => some (.error e)
  | .ok st => loop (dfsTreeStep g vis) fuel 0 ([s], st)

/-- One iteration of `bfs_tree`, graph_traversal.py:109-116; the head of the list is the right end of the deque. -/
def bfsTreeStep (g : GraphI V E) (vis : Visitor (TreeEvent V E) σ) (_ : Nat) (s : List V × σ) : Step (List V × σ) σ :=
  match s.1 with
  | [] => .done s.2
  | u :: q =>
    match emit vis (treeCalls g u) s.2 with
    | .error e => .fail e
    | .ok x => .next ((g.outEdges u).foldl (fun q e => q ++ [g.target e]) q, x)

/-- `bfs_tree`, graph_traversal.py:91-116. -/
def bfsTree (g : GraphI V E) (vis : Visitor (TreeEvent V E) σ) (s : V) (st : σ) (fuel : Nat) : Option (Except PyErr σ) :=
  match vis (.start s) st with
  | .error e => some (.error e)
  | .ok st => loop (bfsTreeStep g vis) fuel 0 ([s], st)

end Tree
end PyBGL
