import Verif.Model.Product

/-!
# `deterministic_union` and `deterministic_intersection` with a `g12` that is one of the operands

In Model/ProductInto `g12` is another object than `g1` and `g2`. Here an operand may be the object `g12`: it is then read as it is when it is read.
-/

namespace PyBGL
variable {A σ : Type} [DecidableEq A]

/-- An operand: another object than `g12`, or `g12` itself. -/
inductive ProductArg (A : Type) where
  | other (g : Automaton A)
  | same

/-- The content of an operand when `g12` has the content given. -/
def ProductArg.read (x : ProductArg A) (g12 : Automaton A) : Automaton A :=
  match x with
  | .other g => g
  | .same => g12

/-- The body of the loop over the symbols, parallel_breadth_first_search.py:270-286; both automata are read in the state of the visitor. -/
def pbfsSymbolA (g1 g2 : σ → Automaton A) (ifPush : Option (AEdge A) → Option (AEdge A) → Bool)
    (vis : Visitor (PEvent A) σ) (q1 q2 : Option Nat) (a : A) (s : PbfsState σ) : Except PyErr (PbfsState σ) :=
  let r1 := (g1 s.st).deltaO q1 a
  let r2 := (g2 s.st).deltaO q2 a
  match vis (.examineSymbol q1 q2 a) s.st with
  | .error err => .error err
  | .ok st =>
    let e1 := getEdge (g1 st) q1 r1 a
    let e2 := getEdge (g2 st) q2 r2 a
    match vis (.examineEdge e1 e2 a) st with
    | .error err => .error err
    | .ok st => pbfsClassify ifPush vis e1 e2 a r1 r2 ⟨s.color, st, s.queue⟩

/-- The loop over the symbols, parallel_breadth_first_search.py:270-286. -/
def pbfsSymbolsA (g1 g2 : σ → Automaton A) (ifPush : Option (AEdge A) → Option (AEdge A) → Bool)
    (vis : Visitor (PEvent A) σ) (q1 q2 : Option Nat) : List A → PbfsState σ → Except PyErr (PbfsState σ)
  | [], s => .ok s
  | a :: as, s =>
    match pbfsSymbolA g1 g2 ifPush vis q1 q2 a s with
    | .error err => .error err
    | .ok s => pbfsSymbolsA g1 g2 ifPush vis q1 q2 as s

/-- One iteration of the main loop, parallel_breadth_first_search.py:267-288. -/
def pbfsStepA (ord : SetOracle A) (g1 g2 : σ → Automaton A) (ifPush : Option (AEdge A) → Option (AEdge A) → Bool)
    (vis : Visitor (PEvent A) σ) (t : Nat) (s : PbfsState σ) : Step (PbfsState σ) (Dict StatePair Color × σ) :=
  match s.queue with
  | [] => .done (s.color, s.st)
  | (q1, q2) :: queue =>
    match vis (.examineVertex q1 q2) s.st with
    | .error e => .fail e
    | .ok st =>
      match pbfsSymbolsA g1 g2 ifPush vis q1 q2 (ord t (setUnion ((g1 st).sigmaO q1) ((g2 st).sigmaO q2))) ⟨s.color, st, queue⟩ with
      | .error e => .fail e
      | .ok s =>
        match vis (.finish q1 q2) s.st with
        | .error e => .fail e
        | .ok st => .next ⟨s.color.set (q1, q2) .black, st, s.queue⟩

/-- `parallel_breadth_first_search(g1, g2)`, parallel_breadth_first_search.py:209-288; the initial states are read at lines 250-251. -/
def pbfsA (ord : SetOracle A) (g1 g2 : σ → Automaton A) (ifPush : Option (AEdge A) → Option (AEdge A) → Bool) (vis : Visitor (PEvent A) σ) (st : σ)
    (fuel : Nat) : Option (Except PyErr (Dict StatePair Color × σ)) :=
  match vis (.start (g1 st).initial (g2 st).initial) st with
  | .error e => some (.error e)
  | .ok st' => loop (pbfsStepA ord g1 g2 ifPush vis) fuel 0 ⟨[], st', [((g1 st).initial, (g2 st).initial)]⟩

/-- `ProductMixin.add_product_vertex`, product_mixin.py:32-60: `is_initial` is called after `add_vertex`, and `is_final` after `set_initial`. -/
def Product.addVertexA (op : Bool → Bool → Bool) (x1 x2 : ProductArg A) (q1 q2 : Option Nat) (s : Product A) : Nat × Product A :=
  let q12 := s.g12.addVertex.1
  let g := s.g12.addVertex.2
  let g := if op ((x1.read g).isInitialO q1) ((x2.read g).isInitialO q2) then g.setInitial q12 else g
  let g := if op ((x1.read g).isFinalO q1) ((x2.read g).isFinalO q2) then g.setFinal q12 else g
  (q12, ⟨s.map.set (q1, q2) q12, g⟩)

/-- `ProductMixin.get_or_create_product_vertex`, product_mixin.py:117-143. -/
def Product.getOrCreateA (op : Bool → Bool → Bool) (x1 x2 : ProductArg A) (q1 q2 : Option Nat) (s : Product A) : Except PyErr (Nat × Product A) :=
  if q1 = none ∧ q2 = none then .error .runtimeError
  else
    match s.map.get? (q1, q2) with
    | some q12 => .ok (q12, s)
    | none => .ok (s.addVertexA op x1 x2 q1 q2)

/-- `ProductMixin.add_product_edge`, product_mixin.py:62-99. -/
def Product.addEdgeA (op : Bool → Bool → Bool) (x1 x2 : ProductArg A) (e1 e2 : Option (AEdge A)) (s : Product A) : Except PyErr (Product A) :=
  match s.getOrCreateA op x1 x2 (e1.map AEdge.source) (e2.map AEdge.source) with
  | .error e => .error e
  | .ok (q12, s) =>
    match s.getOrCreateA op x1 x2 (e1.bind AEdge.target) (e2.bind AEdge.target) with
    | .error e => .error e
    | .ok (r12, s) =>
      match productLabel e1 e2 with
      | none => .error .unboundLocalError
      | some a =>
        match s.g12.addEdge q12 r12 a with
        | .error e => .error e
        | .ok (_, _, g) => .ok ⟨s.map, g⟩

/-- `DeterministicIntersectionVisitor`, deterministic_intersection.py:15-55. -/
def interVisitorA (x1 x2 : ProductArg A) : Visitor (PEvent A) (Product A)
  | .examineEdge e1 e2 _, s =>
    match e1 with
    | none => .error .attributeError
    | some f1 =>
      if f1.target = none then .ok s
      else
        match e2 with
        | none => .error .attributeError
        | some f2 => if f2.target = none then .ok s else s.addEdgeA (fun a b => a && b) x1 x2 e1 e2
  | _, s => .ok s

/-- `deterministic_intersection(g1, g2, g12)`, deterministic_intersection.py:58-89; returns the new content of `g12`. -/
def deterministicIntersectionA (ord : SetOracle A) (x1 x2 : ProductArg A) (g12 : Automaton A) (fuel : Nat) : Option (Except PyErr (Automaton A)) :=
  (pbfsA ord (fun s => x1.read s.g12) (fun s => x2.read s.g12) interPush (interVisitorA x1 x2) ⟨[], g12⟩ fuel).map (·.map (·.2.g12))

/-- `DeterministicUnionVisitor`, deterministic_union.py:15-54. -/
def unionVisitorA (x1 x2 : ProductArg A) : Visitor (PEvent A) (Product A)
  | .examineEdge e1 e2 _, s => s.addEdgeA (fun a b => a || b) x1 x2 e1 e2
  | _, s => .ok s

/-- `deterministic_union(g1, g2, g12)`, deterministic_union.py:57-79; returns the new content of `g12`. -/
def deterministicUnionA (ord : SetOracle A) (x1 x2 : ProductArg A) (g12 : Automaton A) (fuel : Nat) : Option (Except PyErr (Automaton A)) :=
  (pbfsA ord (fun s => x1.read s.g12) (fun s => x2.read s.g12) pushAll (unionVisitorA x1 x2) ⟨[], g12⟩ fuel).map (·.map (·.2.g12))

end PyBGL
