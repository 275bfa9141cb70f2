import Verif.Model.DfsApps
import Verif.Prelude.PyM

/-!
# Depth-first search with visitors that are objects

A visitor is an object whose methods may raise. What it did before is kept: here the outcome of a search comes with the state of the visitor, even if an exception leaves the search.
-/

namespace PyBGL
variable {V E σ : Type} [DecidableEq V]

/-- One iteration of the loops of depth_first_search.py:152-189 (the outer loop when `cur` is `none`). -/
def dfsStepM (g : GraphI V E) (ifPush : E → Bool) (vis : DfsEvent V E → PyM σ Unit) (_ : Nat) (s : DfsState V E σ) :
    Step (DfsState V E σ) (Except PyErr (Dict V Color) × σ) :=
  match s.cur with
  | none =>
    match s.stack with
    | [] => .done (.ok s.color, s.st)
    | (u, i, n) :: rest =>
      match PyM.each vis (pushCalls g u) s.st with
      | (.error err, st) => .done (.error err, st)
      | (.ok _, st) => .next ⟨s.color, st, rest, some (u, pushed g ifPush u, i, n)⟩
  | some (u, es, i, n) =>
    if i = n then
      match vis (.finish u) s.st with
      | (.error err, st) => .done (.error err, st)
      | (.ok _, st) => .next ⟨s.color.set u .black, st, s.stack, none⟩
    else
      match es[i]? with
      | none => .done (.error .indexError, s.st)
      | some e =>
        match vis (.examineEdge e) s.st with
        | (.error err, st) => .done (.error err, st)
        | (.ok _, st) =>
          match colorOf s.color (g.target e) with
          | .white =>
            match PyM.each vis ([.treeEdge e, .discover (g.target e)] ++ pushCalls g (g.target e)) st with
            | (.error err, st) => .done (.error err, st)
            | (.ok _, st) => .next ⟨s.color.set (g.target e) .gray, st, (u, i + 1, n) :: s.stack,
                some (g.target e, pushed g ifPush (g.target e), 0, (pushed g ifPush (g.target e)).length)⟩
          | .gray =>
            match vis (.backEdge e) st with
            | (.error err, st) => .done (.error err, st)
            | (.ok _, st) => .next ⟨s.color, st, s.stack, some (u, es, i + 1, n)⟩
          | .black =>
            match vis (.forwardOrCrossEdge e) st with
            | (.error err, st) => .done (.error err, st)
            | (.ok _, st) => .next ⟨s.color, st, s.stack, some (u, es, i + 1, n)⟩

/-- `depth_first_search`, depth_first_search.py:107-189. -/
def dfsM (g : GraphI V E) (ifPush : E → Bool) (vis : DfsEvent V E → PyM σ Unit) (s : V) (c : Dict V Color) (st : σ) (fuel : Nat) :
    Option (Except PyErr (Except PyErr (Dict V Color) × σ)) :=
  match PyM.each vis ([.start s, .discover s] ++ pushCalls g s) st with
  | (.error err, st) => some (.ok (.error err, st))
  | (.ok _, st) => loop (dfsStepM g ifPush vis) fuel 0 ⟨c.set s .gray, st, [(s, 0, (pushed g ifPush s).length)], none⟩

/-- The loop of `depth_first_search_graph`, depth_first_search.py:226-228. -/
def dfsSourcesM (g : GraphI V E) (ifPush : E → Bool) (vis : DfsEvent V E → PyM σ Unit) (fuel : Nat) :
    List V → Dict V Color → σ → Option (Except PyErr (Except PyErr (Dict V Color) × σ))
  | [], c, st => some (.ok (.ok c, st))
  | u :: us, c, st =>
    if colorOf c u = .white then
      match dfsM g ifPush vis u c st fuel with
      | some (.ok (.ok c, st)) => dfsSourcesM g ifPush vis fuel us c st
      | r => r
    else dfsSourcesM g ifPush vis fuel us c st

/-- `depth_first_search_graph`, depth_first_search.py:193-228. -/
def dfsGraphM (g : GraphI V E) (sources : List V) (ifPush : E → Bool) (vis : DfsEvent V E → PyM σ Unit) (c : Dict V Color) (st : σ) (fuel : Nat) :
    Option (Except PyErr (Except PyErr (Dict V Color) × σ)) :=
  dfsSourcesM g ifPush vis fuel (if sources.isEmpty then g.vertices else sources) c st

/-- `TopologicalSortVisitor`, topological_sort.py:16-31; the state is the deque (left end at the head). -/
def topoListener : DfsEvent V E → PyM (List V) Unit
  | .backEdge _ => PyM.lift (.error .runtimeError)
  | .finish u => fun stack => (.ok (), u :: stack)
  | _ => PyM.pure ()

/-- What a call to `topological_sort` does: the contents of the deque returned, or the exception, and the contents of the deque handed over once the call has ended. -/
structure SortCall (V : Type) where
  result : Except PyErr (List V)
  given : Option (List V)

/-- `topological_sort(g, stack)`, topological_sort.py:34-59: line 53 takes `stack` itself if it is true, that is, neither `None` nor empty, and a new deque otherwise. -/
def topologicalSortM (g : GraphI V E) (stack : Option (List V)) (fuel : Nat) : Option (Except PyErr (SortCall V)) :=
  match stack with
  | some (x :: xs) =>
    (dfsGraphM g [] (fun _ => true) topoListener [] (x :: xs) fuel).map (·.map fun r => ⟨r.1.map (fun _ => r.2), some r.2⟩)
  | _ =>
    (dfsGraphM g [] (fun _ => true) topoListener [] [] fuel).map (·.map fun r => ⟨r.1.map (fun _ => r.2), stack⟩)

end PyBGL
