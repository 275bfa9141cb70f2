import Verif.Model.Product
import Verif.Prelude.PyM

/-!
# The parallel search with visitors that are objects and a colour map given by the caller

`Verif/Model/Product.lean` forgets the visitor and the colours when the visitor raises, and starts with an empty colour map. Here a call to the visitor is a method (`PyM σ Unit`) that may also read
the colour map, and an exception carries the colour map and the visitor as they are when it is raised. The automata are not modified by the visitor, and `if_push` does not raise.
-/

namespace PyBGL
variable {A σ : Type} [DecidableEq A]

/-- A visitor: each call is a method that may read the colour map given by the caller. -/
abbrev PObject (A σ : Type) := PEvent A → Dict StatePair Color → PyM σ Unit

/-- What the caller of the search sees at the end: the outcome, the colour map and the visitor. -/
abbrev PEnd (σ : Type) := Except PyErr Unit × Dict StatePair Color × σ

/-- A call to the visitor. -/
def askP (vis : PObject A σ) (ev : PEvent A) (c : Dict StatePair Color) (x : σ) : Except (PyErr × Dict StatePair Color × σ) σ :=
  match vis ev c x with
  | (.error err, x) => .error (err, c, x)
  | (.ok _, x) => .ok x

/-- The calls to `start_vertex`, parallel_breadth_first_search.py:250-258. -/
def pbfsStartM (vis : PObject A σ) (c : Dict StatePair Color) : List StatePair → σ → Except (PyErr × Dict StatePair Color × σ) σ
  | [], x => .ok x
  | p :: ps, x =>
    match askP vis (.start p.1 p.2) c x with
    | .error e => .error e
    | .ok x => pbfsStartM vis c ps x

/-- The classification of an edge, parallel_breadth_first_search.py:276-286. -/
def pbfsClassifyM (ifPush : Option (AEdge A) → Option (AEdge A) → Bool) (vis : PObject A σ) (e1 e2 : Option (AEdge A)) (a : A)
    (r1 r2 : Option Nat) (s : PbfsState σ) : Except (PyErr × Dict StatePair Color × σ) (PbfsState σ) :=
  match colorOf s.color (r1, r2) with
  | .white =>
    match askP vis (.treeEdge e1 e2 a) s.color s.st with
    | .error e => .error e
    | .ok x =>
      match askP vis (.discover r1 r2) (s.color.set (r1, r2) .gray) x with
      | .error e => .error e
      | .ok x => .ok ⟨s.color.set (r1, r2) .gray, x, if ifPush e1 e2 then s.queue ++ [(r1, r2)] else s.queue⟩
  | .gray =>
    match askP vis (.grayTarget e1 e2 a) s.color s.st with
    | .error e => .error e
    | .ok x => .ok ⟨s.color, x, s.queue⟩
  | .black =>
    match askP vis (.blackTarget e1 e2 a) s.color s.st with
    | .error e => .error e
    | .ok x => .ok ⟨s.color, x, s.queue⟩

/-- The loop over the symbols, parallel_breadth_first_search.py:270-286. -/
def pbfsSymbolsM (g1 g2 : Automaton A) (ifPush : Option (AEdge A) → Option (AEdge A) → Bool) (vis : PObject A σ) (q1 q2 : Option Nat) :
    List A → PbfsState σ → Except (PyErr × Dict StatePair Color × σ) (PbfsState σ)
  | [], s => .ok s
  | a :: as, s =>
    match askP vis (.examineSymbol q1 q2 a) s.color s.st with
    | .error e => .error e
    | .ok x =>
      match askP vis (.examineEdge (getEdge g1 q1 (g1.deltaO q1 a) a) (getEdge g2 q2 (g2.deltaO q2 a) a) a) s.color x with
      | .error e => .error e
      | .ok x =>
        match pbfsClassifyM ifPush vis (getEdge g1 q1 (g1.deltaO q1 a) a) (getEdge g2 q2 (g2.deltaO q2 a) a) a (g1.deltaO q1 a) (g2.deltaO q2 a) ⟨s.color, x, s.queue⟩ with
        | .error e => .error e
        | .ok s => pbfsSymbolsM g1 g2 ifPush vis q1 q2 as s

/-- One iteration of the main loop, parallel_breadth_first_search.py:267-288: the pair is black when `finish_vertex` is called. -/
def pbfsStepM (ord : SetOracle A) (g1 g2 : Automaton A) (ifPush : Option (AEdge A) → Option (AEdge A) → Bool) (vis : PObject A σ) (t : Nat) (s : PbfsState σ) :
    Step (PbfsState σ) (PEnd σ) :=
  match s.queue with
  | [] => .done (.ok (), s.color, s.st)
  | (q1, q2) :: queue =>
    match askP vis (.examineVertex q1 q2) s.color s.st with
    | .error (err, r) => .done (.error err, r)
    | .ok x =>
      match pbfsSymbolsM g1 g2 ifPush vis q1 q2 (ord t (setUnion (g1.sigmaO q1) (g2.sigmaO q2))) ⟨s.color, x, queue⟩ with
      | .error (err, r) => .done (.error err, r)
      | .ok s =>
        match askP vis (.finish q1 q2) (s.color.set (q1, q2) .black) s.st with
        | .error (err, r) => .done (.error err, r)
        | .ok x => .next ⟨s.color.set (q1, q2) .black, x, s.queue⟩

/-- `parallel_breadth_first_search(g1, g2, source_pairs, pmap_vcolor, vis, if_push)`, parallel_breadth_first_search.py:209-288; `c` is the content of `pmap_vcolor`. -/
def pbfsM (ord : SetOracle A) (g1 g2 : Automaton A) (sources : Option (List StatePair)) (ifPush : Option (AEdge A) → Option (AEdge A) → Bool) (vis : PObject A σ)
    (c : Dict StatePair Color) (x : σ) (fuel : Nat) : Option (Except PyErr (PEnd σ)) :=
  let sources := sources.getD [(g1.initial, g2.initial)]
  match pbfsStartM vis c sources x with
  | .error (err, r) => some (.ok (.error err, r))
  | .ok x => loop (pbfsStepM ord g1 g2 ifPush vis) fuel 0 ⟨c, x, sources⟩

end PyBGL
