import Verif.Model.CopyInto
import Verif.Model.LazyIter

/-!
# Searches whose visitor modifies the graph

In Model/Search visitors do not change the graph. Here the graph is read in the state of the visitor, `graph : σ → GraphI V E`, each time the search reads it: the visitor may
add and remove vertices and edges between two readings. `if_push` does not modify the graph.

`depth_first_search` makes a list of the out-edges of a vertex each time it comes back to it (depth_first_search.py:149, 156, 177) and remembers a position in this list.
`breadth_first_search_graph` iterates on the generator `g.out_edges(u)` (breadth_first_search.py:179).

Simplification: the loop over `g.out_edges(u)` compares the number of out-edges of `u` before each request, instead of the size of each of the nested containers.
-/

namespace PyBGL

section Dfs
variable {V E σ : Type} [DecidableEq V]

/-- One iteration of the loops of depth_first_search.py:152-189 (the outer loop when `cur` is `none`). -/
def dfsStepD (graph : σ → GraphI V E) (ifPush : E → Bool) (vis : Visitor (DfsEvent V E) σ) (_ : Nat) (s : DfsState V E σ) :
    Step (DfsState V E σ) (Dict V Color × σ) :=
  match s.cur with
  | none =>
    match s.stack with
    | [] => .done (s.color, s.st)
    | (u, i, n) :: rest =>
      match emit vis (pushCalls (graph s.st) u) s.st with
      | .error e => .fail e
      | .ok st => .next ⟨s.color, st, rest, some (u, pushed (graph s.st) ifPush u, i, n)⟩
  | some (u, es, i, n) =>
    if i = n then
      match vis (.finish u) s.st with
      | .error e => .fail e
      | .ok st => .next ⟨s.color.set u .black, st, s.stack, none⟩
    else
      match es[i]? with
      | none => .fail .indexError
      | some e =>
        let v := (graph s.st).target e
        match vis (.examineEdge e) s.st with
        | .error err => .fail err
        | .ok st =>
          match colorOf s.color v with
          | .white =>
            match emit vis [.treeEdge e, .discover v] st with
            | .error err => .fail err
            | .ok st =>
              match emit vis (pushCalls (graph st) v) st with
              | .error err => .fail err
              | .ok st' => .next ⟨s.color.set v .gray, st', (u, i + 1, n) :: s.stack,
                  some (v, pushed (graph st) ifPush v, 0, (pushed (graph st) ifPush v).length)⟩
          | .gray =>
            match vis (.backEdge e) st with
            | .error err => .fail err
            | .ok st => .next ⟨s.color, st, s.stack, some (u, es, i + 1, n)⟩
          | .black =>
            match vis (.forwardOrCrossEdge e) st with
            | .error err => .fail err
            | .ok st => .next ⟨s.color, st, s.stack, some (u, es, i + 1, n)⟩

/-- `depth_first_search`, depth_first_search.py:107-189. -/
def dfsD (graph : σ → GraphI V E) (ifPush : E → Bool) (vis : Visitor (DfsEvent V E) σ) (s : V) (c : Dict V Color) (st : σ)
    (fuel : Nat) : Option (Except PyErr (Dict V Color × σ)) :=
  match emit vis [.start s, .discover s] st with
  | .error e => some (.error e)
  | .ok st =>
    match emit vis (pushCalls (graph st) s) st with
    | .error e => some (.error e)
    | .ok st' => loop (dfsStepD graph ifPush vis) fuel 0 ⟨c.set s .gray, st', [(s, 0, (pushed (graph st) ifPush s).length)], none⟩

end Dfs

section Bfs
variable {V E σ : Type} [DecidableEq V]

/-- The body of the loop over the out-edges, breadth_first_search.py:180-195. -/
def bfsEdgeD (graph : σ → GraphI V E) (ifPush : E → Bool) (vis : Visitor (BfsEvent V E) σ) (e : E) (s : BfsState V σ) : Except PyErr (BfsState V σ) :=
  match vis (.ifPush e) s.st with
  | .error err => .error err
  | .ok st =>
    if ifPush e then
      let v := (graph st).target e
      match vis (.examineEdge e) st with
      | .error err => .error err
      | .ok st =>
        match colorOf s.color v with
        | .white => (emit vis [.treeEdge e, .discover v] st).map fun st => ⟨s.color.set v .gray, st, s.queue ++ [v]⟩
        | .gray => (emit vis [.nonTreeEdge e, .grayTarget e] st).map fun st => ⟨s.color, st, s.queue⟩
        | .black => (emit vis [.nonTreeEdge e, .blackTarget e] st).map fun st => ⟨s.color, st, s.queue⟩
    else .ok ⟨s.color, st, s.queue⟩

/-- A statement that changes the variables of the search. -/
def stmt {S : Type} (f : S → Except PyErr S) : PyM S Unit := fun s =>
  match f s with
  | .ok s' => (.ok (), s')
  | .error e => (.error e, s)

/-- One iteration of the loop of breadth_first_search.py:176-197. -/
def bfsStepD (graph : σ → GraphI V E) (ifPush : E → Bool) (vis : Visitor (BfsEvent V E) σ) (_ : Nat) (s : BfsState V σ) :
    Step (BfsState V σ) (Dict V Color × σ) :=
  match s.queue with
  | [] => .done (s.color, s.st)
  | u :: q =>
    match vis (.examineVertex u) s.st with
    | .error e => .fail e
    | .ok st =>
      match pyFor (fun s => (graph s.st).outEdges u) (fun e => stmt (bfsEdgeD graph ifPush vis e)) ⟨s.color, st, q⟩ with
      | (.error e, _) => .fail e
      | (.ok _, s) =>
        match vis (.finish u) s.st with
        | .error e => .fail e
        | .ok st => .next ⟨s.color.set u .black, st, s.queue⟩

/-- `breadth_first_search_graph`, breadth_first_search.py:130-197. -/
def bfsGraphD (graph : σ → GraphI V E) (sources : List V) (ifPush : E → Bool) (vis : Visitor (BfsEvent V E) σ) (c : Dict V Color)
    (st : σ) (fuel : Nat) : Option (Except PyErr (Dict V Color × σ)) :=
  match bfsInit vis sources ⟨c, st, []⟩ with
  | .error e => some (.error e)
  | .ok s => loop (bfsStepD graph ifPush vis) fuel 0 s

/-- `breadth_first_search` with a visitor, breadth_first_search.py:200-237; the loop of lines 234-236 is over the view `g.vertices()`. -/
def bfsD (graph : σ → GraphI V E) (s : V) (ifPush : E → Bool) (vis : Visitor (BfsEvent V E) σ) (c : Dict V Color) (st : σ)
    (fuel : Nat) : Option (Except PyErr (Dict V Color × σ)) :=
  match pyFor (fun x : Dict V Color × σ => (graph x.2).vertices)
      (fun u => stmt fun x => (vis (.initializeVertex u) x.2).map fun st => (x.1.set u .white, st)) (c, st) with
  | (.error e, _) => some (.error e)
  | (.ok _, c, st) => bfsGraphD graph [s] ifPush vis c st fuel

end Bfs

/-- `graph_copy(s, g, g)` and `automaton_copy(s, g, g)`, graph_copy.py:115-178, automaton_copy.py:57-120: the graph that is copied is the one that receives the copy. -/
def copySelf {V E D F σ : Type} [DecidableEq V] [DecidableEq E] (T : CopyClass D F E) (toI : D → GraphI V E) (cb : Visitor (CopyCall V E D F) σ) (s : V)
    (g : D) (vrel : Option (V → Bool)) (erel : Option (E → Bool)) (vm : Dict V Nat) (em : Dict E F) (st : σ) (fuel : Nat) :
    Option (Except PyErr (D × Dict V Nat × Dict E F × σ)) :=
  let vrel := vrel.getD (fun _ => true)
  let erel := erel.getD (fun _ => true)
  (dfsD (fun x => toI x.dup) (fun e => erel e && vrel ((toI g).target e)) (fun ev x => CopyInto.visitor T cb (toI x.dup) vrel erel ev x) s []
    ⟨g, vm, em, [], st⟩ fuel).map (·.map (fun r => (r.2.dup, r.2.vmap, r.2.emap, r.2.st)))

end PyBGL
