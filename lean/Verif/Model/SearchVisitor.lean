import Verif.Model.Search

/-!
# Model of the searches with visitors that read the map of colours

Each method of the visitor may read `pmap_vcolor`, keep a state of its own, and raise an exception; it does not modify the graph nor the colours. The searches
catch nothing: when a method raises an exception, the outcome is this exception, and the colours at that time. A portion of the code therefore ends in an
`Except (PyErr × Dict V Color) _`.
-/

namespace PyBGL
variable {V E σ Ev : Type} [DecidableEq V]

/-- A visitor that reads the colours. -/
abbrev ColorReader (Ev V σ : Type) := Ev → Dict V Color → σ → Except PyErr σ

/-- Successive calls to a visitor while the colours are `c`. -/
def emitC (vis : ColorReader Ev V σ) (c : Dict V Color) (evs : List Ev) (st : σ) : Except PyErr σ := emit (fun e s => vis e c s) evs st

/-! ## Depth-first search -/

/-- One iteration of the loops of depth_first_search.py:152-189 (the outer loop when `cur` is `none`). -/
def dfsStepV (g : GraphI V E) (ifPush : E → Bool) (vis : ColorReader (DfsEvent V E) V σ) (_ : Nat) (s : DfsState V E σ) :
    Step (DfsState V E σ) (Except (PyErr × Dict V Color) (Dict V Color × σ)) :=
  match s.cur with
  | none =>
    match s.stack with
    | [] => .done (.ok (s.color, s.st))
    | (u, i, n) :: rest =>
      match emitC vis s.color (pushCalls g u) s.st with
      | .error err => .done (.error (err, s.color))
      | .ok st => .next ⟨s.color, st, rest, some (u, pushed g ifPush u, i, n)⟩
  | some (u, es, i, n) =>
    if i = n then
      let c := s.color.set u .black
      match vis (.finish u) c s.st with
      | .error err => .done (.error (err, c))
      | .ok st => .next ⟨c, st, s.stack, none⟩
    else
      match es[i]? with
      | none => .done (.error (.indexError, s.color))
      | some e =>
        let v := g.target e
        match vis (.examineEdge e) s.color s.st with
        | .error err => .done (.error (err, s.color))
        | .ok st =>
          match colorOf s.color v with
          | .white =>
            match vis (.treeEdge e) s.color st with
            | .error err => .done (.error (err, s.color))
            | .ok st =>
              let c := s.color.set v .gray
              match vis (.discover v) c st with
              | .error err => .done (.error (err, c))
              | .ok st =>
                match emitC vis c (pushCalls g v) st with
                | .error err => .done (.error (err, c))
                | .ok st => .next ⟨c, st, (u, i + 1, n) :: s.stack, some (v, pushed g ifPush v, 0, (pushed g ifPush v).length)⟩
          | .gray =>
            match vis (.backEdge e) s.color st with
            | .error err => .done (.error (err, s.color))
            | .ok st => .next ⟨s.color, st, s.stack, some (u, es, i + 1, n)⟩
          | .black =>
            match vis (.forwardOrCrossEdge e) s.color st with
            | .error err => .done (.error (err, s.color))
            | .ok st => .next ⟨s.color, st, s.stack, some (u, es, i + 1, n)⟩

/-- `depth_first_search`, depth_first_search.py:107-189, the colours being `c` at the time of the call. -/
def dfsV (g : GraphI V E) (ifPush : E → Bool) (vis : ColorReader (DfsEvent V E) V σ) (s : V) (c : Dict V Color) (st : σ) (fuel : Nat) :
    Option (Except PyErr (Except (PyErr × Dict V Color) (Dict V Color × σ))) :=
  match vis (.start s) c st with
  | .error err => some (.ok (.error (err, c)))
  | .ok st =>
    match vis (.discover s) (c.set s .gray) st with
    | .error err => some (.ok (.error (err, c.set s .gray)))
    | .ok st =>
      match emitC vis (c.set s .gray) (pushCalls g s) st with
      | .error err => some (.ok (.error (err, c.set s .gray)))
      | .ok st => loop (dfsStepV g ifPush vis) fuel 0 ⟨c.set s .gray, st, [(s, 0, (pushed g ifPush s).length)], none⟩

/-! ## Breadth-first search -/

/-- The loop over the sources, breadth_first_search.py:171-174. -/
def bfsInitV (vis : ColorReader (BfsEvent V E) V σ) : List V → BfsState V σ → Except (PyErr × Dict V Color) (BfsState V σ)
  | [], s => .ok s
  | u :: us, s =>
    let c := s.color.set u .gray
    match vis (.discover u) c s.st with
    | .error err => .error (err, c)
    | .ok st => bfsInitV vis us ⟨c, st, u :: s.queue⟩

/-- The loop over the out-edges, breadth_first_search.py:179-195. -/
def bfsEdgesV (g : GraphI V E) (ifPush : E → Bool) (vis : ColorReader (BfsEvent V E) V σ) :
    List E → BfsState V σ → Except (PyErr × Dict V Color) (BfsState V σ)
  | [], s => .ok s
  | e :: es, s =>
    match vis (.ifPush e) s.color s.st with
    | .error err => .error (err, s.color)
    | .ok st =>
      if ifPush e then
        match vis (.examineEdge e) s.color st with
        | .error err => .error (err, s.color)
        | .ok st =>
          match colorOf s.color (g.target e) with
          | .white =>
            match vis (.treeEdge e) s.color st with
            | .error err => .error (err, s.color)
            | .ok st =>
              let c := s.color.set (g.target e) .gray
              match vis (.discover (g.target e)) c st with
              | .error err => .error (err, c)
              | .ok st => bfsEdgesV g ifPush vis es ⟨c, st, s.queue ++ [g.target e]⟩
          | .gray =>
            match emitC vis s.color [.nonTreeEdge e, .grayTarget e] st with
            | .error err => .error (err, s.color)
            | .ok st => bfsEdgesV g ifPush vis es ⟨s.color, st, s.queue⟩
          | .black =>
            match emitC vis s.color [.nonTreeEdge e, .blackTarget e] st with
            | .error err => .error (err, s.color)
            | .ok st => bfsEdgesV g ifPush vis es ⟨s.color, st, s.queue⟩
      else bfsEdgesV g ifPush vis es ⟨s.color, st, s.queue⟩

/-- One iteration of the loop of breadth_first_search.py:176-197. -/
def bfsStepV (g : GraphI V E) (ifPush : E → Bool) (vis : ColorReader (BfsEvent V E) V σ) (_ : Nat) (s : BfsState V σ) :
    Step (BfsState V σ) (Except (PyErr × Dict V Color) (Dict V Color × σ)) :=
  match s.queue with
  | [] => .done (.ok (s.color, s.st))
  | u :: q =>
    match vis (.examineVertex u) s.color s.st with
    | .error err => .done (.error (err, s.color))
    | .ok st =>
      match bfsEdgesV g ifPush vis (g.outEdges u) ⟨s.color, st, q⟩ with
      | .error r => .done (.error r)
      | .ok s =>
        let c := s.color.set u .black
        match vis (.finish u) c s.st with
        | .error err => .done (.error (err, c))
        | .ok st => .next ⟨c, st, s.queue⟩

/-- `breadth_first_search_graph`, breadth_first_search.py:130-197. -/
def bfsGraphV (g : GraphI V E) (sources : List V) (ifPush : E → Bool) (vis : ColorReader (BfsEvent V E) V σ) (c : Dict V Color) (st : σ) (fuel : Nat) :
    Option (Except PyErr (Except (PyErr × Dict V Color) (Dict V Color × σ))) :=
  match bfsInitV vis sources ⟨c, st, []⟩ with
  | .error r => some (.ok (.error r))
  | .ok s => loop (bfsStepV g ifPush vis) fuel 0 s

/-- The initialization of `breadth_first_search`, breadth_first_search.py:234-236: the vertex becomes `WHITE` after the call. -/
def bfsWhitenV (vis : ColorReader (BfsEvent V E) V σ) : List V → Dict V Color → σ → Except (PyErr × Dict V Color) (Dict V Color × σ)
  | [], c, st => .ok (c, st)
  | u :: us, c, st =>
    match vis (.initializeVertex u) c st with
    | .error err => .error (err, c)
    | .ok st => bfsWhitenV vis us (c.set u .white) st

/-- `breadth_first_search`, breadth_first_search.py:200-237, with a visitor. -/
def bfsV (g : GraphI V E) (s : V) (ifPush : E → Bool) (vis : ColorReader (BfsEvent V E) V σ) (c : Dict V Color) (st : σ) (fuel : Nat) :
    Option (Except PyErr (Except (PyErr × Dict V Color) (Dict V Color × σ))) :=
  match bfsWhitenV vis g.vertices c st with
  | .error r => some (.ok (.error r))
  | .ok (c, st) => bfsGraphV g [s] ifPush vis c st fuel

end PyBGL
