import Verif.Model.Search
import Verif.Prelude.PyM

/-!
# Breadth-first search with visitors that are objects

`Verif/Model/Search.lean` forgets the visitor when it raises. Here a call to the visitor is a method (`PyM σ Unit`), so that what the visitor holds once an exception
has left the search can be seen. An exception carries the visitor: `Except (PyErr × σ)`. As in `Search.lean`, `if_push` is one of the calls observed, and the other calls
to `vis` are its events.
-/

namespace PyBGL
variable {V E σ : Type} [DecidableEq V]

/-- A call to the visitor. -/
def askM (m : PyM σ Unit) (x : σ) : Except (PyErr × σ) σ :=
  match m x with
  | (.error err, x) => .error (err, x)
  | (.ok _, x) => .ok x

/-- The loop over the sources, breadth_first_search.py:171-174. -/
def bfsInitM (vis : BfsEvent V E → PyM σ Unit) : List V → BfsState V σ → Except (PyErr × σ) (BfsState V σ)
  | [], s => .ok s
  | u :: us, s =>
    match askM (vis (.discover u)) s.st with
    | .error e => .error e
    | .ok st => bfsInitM vis us ⟨s.color.set u .gray, st, u :: s.queue⟩

/-- The loop over the out-edges, breadth_first_search.py:179-195. -/
def bfsEdgesM (g : GraphI V E) (ifPush : E → Bool) (vis : BfsEvent V E → PyM σ Unit) :
    List E → BfsState V σ → Except (PyErr × σ) (BfsState V σ)
  | [], s => .ok s
  | e :: es, s =>
    match askM (vis (.ifPush e)) s.st with
    | .error err => .error err
    | .ok st =>
      if ifPush e then
        match askM (vis (.examineEdge e)) st with
        | .error err => .error err
        | .ok st =>
          match colorOf s.color (g.target e) with
          | .white =>
            match askM (PyM.each vis [.treeEdge e, .discover (g.target e)]) st with
            | .error err => .error err
            | .ok st => bfsEdgesM g ifPush vis es ⟨s.color.set (g.target e) .gray, st, s.queue ++ [g.target e]⟩
          | .gray =>
            match askM (PyM.each vis [.nonTreeEdge e, .grayTarget e]) st with
            | .error err => .error err
            | .ok st => bfsEdgesM g ifPush vis es ⟨s.color, st, s.queue⟩
          | .black =>
            match askM (PyM.each vis [.nonTreeEdge e, .blackTarget e]) st with
            | .error err => .error err
            | .ok st => bfsEdgesM g ifPush vis es ⟨s.color, st, s.queue⟩
      else bfsEdgesM g ifPush vis es ⟨s.color, st, s.queue⟩

/-- One iteration of the loop of breadth_first_search.py:176-197. -/
def bfsStepM (g : GraphI V E) (ifPush : E → Bool) (vis : BfsEvent V E → PyM σ Unit) (_ : Nat) (s : BfsState V σ) :
    Step (BfsState V σ) (Except PyErr (Dict V Color) × σ) :=
  match s.queue with
  | [] => .done (.ok s.color, s.st)
  | u :: q =>
    match askM (vis (.examineVertex u)) s.st with
    | .error (err, x) => .done (.error err, x)
    | .ok st =>
      match bfsEdgesM g ifPush vis (g.outEdges u) ⟨s.color, st, q⟩ with
      | .error (err, x) => .done (.error err, x)
      | .ok s =>
        match askM (vis (.finish u)) s.st with
        | .error (err, x) => .done (.error err, x)
        | .ok st => .next ⟨s.color.set u .black, st, s.queue⟩

/-- `breadth_first_search_graph`, breadth_first_search.py:130-197. The parameter `sources` is `None` unless it is given (breadth_first_search.py:132), and nothing replaces it:
line 171 then raises `TypeError`. -/
def bfsGraphM (g : GraphI V E) (sources : Option (List V)) (ifPush : E → Bool) (vis : BfsEvent V E → PyM σ Unit) (c : Dict V Color) (x : σ) (fuel : Nat) :
    Option (Except PyErr (Except PyErr (Dict V Color) × σ)) :=
  match sources with
  | none => some (.ok (.error .typeError, x))
  | some sources =>
    match bfsInitM vis sources ⟨c, x, []⟩ with
    | .error (err, x) => some (.ok (.error err, x))
    | .ok s => loop (bfsStepM g ifPush vis) fuel 0 s

/-- `breadth_first_search` with a visitor, breadth_first_search.py:200-237. -/
def bfsM (g : GraphI V E) (s : V) (ifPush : E → Bool) (vis : BfsEvent V E → PyM σ Unit) (c : Dict V Color) (x : σ) (fuel : Nat) :
    Option (Except PyErr (Except PyErr (Dict V Color) × σ)) :=
  match askM (PyM.each vis (g.vertices.map .initializeVertex)) x with
  | .error (err, x) => some (.ok (.error err, x))
  | .ok x => bfsGraphM g (some [s]) ifPush vis (g.vertices.foldl (fun c u => c.set u .white) c) x fuel

end PyBGL
