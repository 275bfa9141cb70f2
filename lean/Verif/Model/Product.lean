import Verif.Model.Automaton
import Verif.Model.Search
import Verif.Model.Prune

/-!
# Model of `parallel_breadth_first_search.py`, `deterministic_inclusion.py`, `product_mixin.py`, `deterministic_intersection.py`,
`deterministic_union.py`, `trie_matching.py` and `trie.py` (fusion)
-/

namespace PyBGL
variable {A σ : Type} [DecidableEq A]

/-- `Automaton.sigma`, automaton.py:169-183, on a state which may be `BOTTOM`. -/
def Automaton.sigmaO (g : Automaton A) : Option Nat → List A
  | none => []
  | some q => g.sigma q

/-- `Automaton.is_initial`, automaton.py:239-251, on a state which may be `BOTTOM`. -/
def Automaton.isInitialO (g : Automaton A) (q : Option Nat) : Bool := g.q0 = q

/-- A pair of states, each of which may be `BOTTOM` (`None`). -/
abbrev StatePair := Option Nat × Option Nat

/-- `EdgeDescriptor(q, r, a)` where `r` may be `BOTTOM`, parallel_breadth_first_search.py:236-244. -/
structure AEdge (A : Type) where
  source : Nat
  target : Option Nat
  label : A
  deriving DecidableEq, Repr

/-- Calls made by `parallel_breadth_first_search` (parallel_breadth_first_search.py:13-206). The automata handed to the calls are left
out: they are `g1` and `g2`, except in `finish_vertex` (parallel_breadth_first_search.py:288) which receives `g2` twice. -/
inductive PEvent (A : Type) where
  | start (q1 q2 : Option Nat)
  | examineVertex (q1 q2 : Option Nat)
  | discover (q1 q2 : Option Nat)
  | finish (q1 q2 : Option Nat)
  | examineSymbol (q1 q2 : Option Nat) (a : A)
  | examineEdge (e1 e2 : Option (AEdge A)) (a : A)
  | treeEdge (e1 e2 : Option (AEdge A)) (a : A)
  | grayTarget (e1 e2 : Option (AEdge A)) (a : A)
  | blackTarget (e1 e2 : Option (AEdge A)) (a : A)
  deriving DecidableEq, Repr

/-- The state of the search: colours, visitor, deque (the head of the list is the right end, where `pop` takes its element). -/
structure PbfsState (σ : Type) where
  color : Dict StatePair Color
  st : σ
  queue : List StatePair

/-- `get_edge(q, r, a, g) if q is not BOTTOM else None`, parallel_breadth_first_search.py:236-244, 273-274. -/
def getEdge (g : Automaton A) (q r : Option Nat) (a : A) : Option (AEdge A) :=
  match q with
  | none => none
  | some q => some (if r = g.delta q a then ⟨q, r, a⟩ else ⟨q, none, a⟩)

/-- The classification of an edge, parallel_breadth_first_search.py:276-286. -/
def pbfsClassify (ifPush : Option (AEdge A) → Option (AEdge A) → Bool) (vis : Visitor (PEvent A) σ) (e1 e2 : Option (AEdge A)) (a : A)
    (r1 r2 : Option Nat) (s : PbfsState σ) : Except PyErr (PbfsState σ) :=
  match colorOf s.color (r1, r2) with
  | .white =>
    match emit vis [.treeEdge e1 e2 a, .discover r1 r2] s.st with
    | .error err => .error err
    | .ok st => .ok ⟨s.color.set (r1, r2) .gray, st, if ifPush e1 e2 then s.queue ++ [(r1, r2)] else s.queue⟩
  | .gray =>
    match vis (.grayTarget e1 e2 a) s.st with
    | .error err => .error err
    | .ok st => .ok ⟨s.color, st, s.queue⟩
  | .black =>
    match vis (.blackTarget e1 e2 a) s.st with
    | .error err => .error err
    | .ok st => .ok ⟨s.color, st, s.queue⟩

/-- The body of the loop over the symbols, parallel_breadth_first_search.py:270-286. The first automaton is read in the visitor's state, because
`TrieDeterministicFusion` modifies it. -/
def pbfsSymbol (g1 : σ → Automaton A) (g2 : Automaton A) (ifPush : Option (AEdge A) → Option (AEdge A) → Bool)
    (vis : Visitor (PEvent A) σ) (q1 q2 : Option Nat) (a : A) (s : PbfsState σ) : Except PyErr (PbfsState σ) :=
  let r1 := (g1 s.st).deltaO q1 a
  let r2 := g2.deltaO q2 a
  match vis (.examineSymbol q1 q2 a) s.st with
  | .error err => .error err
  | .ok st =>
    let e1 := getEdge (g1 st) q1 r1 a
    let e2 := getEdge g2 q2 r2 a
    match vis (.examineEdge e1 e2 a) st with
    | .error err => .error err
    | .ok st => pbfsClassify ifPush vis e1 e2 a r1 r2 ⟨s.color, st, s.queue⟩

/-- The loop over the symbols, parallel_breadth_first_search.py:270-286. -/
def pbfsSymbols (g1 : σ → Automaton A) (g2 : Automaton A) (ifPush : Option (AEdge A) → Option (AEdge A) → Bool)
    (vis : Visitor (PEvent A) σ) (q1 q2 : Option Nat) : List A → PbfsState σ → Except PyErr (PbfsState σ)
  | [], s => .ok s
  | a :: as, s =>
    match pbfsSymbol g1 g2 ifPush vis q1 q2 a s with
    | .error err => .error err
    | .ok s => pbfsSymbols g1 g2 ifPush vis q1 q2 as s

/-- One iteration of the main loop, parallel_breadth_first_search.py:267-288. `ord t` enumerates the set
`g1.sigma(q1) | g2.sigma(q2)` at iteration `t`. -/
def pbfsStep (ord : SetOracle A) (g1 : σ → Automaton A) (g2 : Automaton A) (ifPush : Option (AEdge A) → Option (AEdge A) → Bool)
    (vis : Visitor (PEvent A) σ) (t : Nat) (s : PbfsState σ) : Step (PbfsState σ) (Dict StatePair Color × σ) :=
  match s.queue with
  | [] => .done (s.color, s.st)
  | (q1, q2) :: queue =>
    match vis (.examineVertex q1 q2) s.st with
    | .error e => .fail e
    | .ok st =>
      match pbfsSymbols g1 g2 ifPush vis q1 q2 (ord t (setUnion ((g1 st).sigmaO q1) (g2.sigmaO q2))) ⟨s.color, st, queue⟩ with
      | .error e => .fail e
      | .ok s =>
        match vis (.finish q1 q2) s.st with
        | .error e => .fail e
        | .ok st => .next ⟨s.color.set (q1, q2) .black, st, s.queue⟩

/-- `parallel_breadth_first_search`, parallel_breadth_first_search.py:209-288, with an empty colour map. `sources` is
`[(g1.initial(), g2.initial())]` when `source_pairs` is `None` (parallel_breadth_first_search.py:250-258). -/
def pbfs (ord : SetOracle A) (g1 : σ → Automaton A) (g2 : Automaton A) (sources : List StatePair)
    (ifPush : Option (AEdge A) → Option (AEdge A) → Bool) (vis : Visitor (PEvent A) σ) (st : σ) (fuel : Nat) :
    Option (Except PyErr (Dict StatePair Color × σ)) :=
  match emit vis (sources.map fun p => .start p.1 p.2) st with
  | .error e => some (.error e)
  | .ok st => loop (pbfsStep ord g1 g2 ifPush vis) fuel 0 ⟨[], st, sources⟩

/-- The default `if_push`, parallel_breadth_first_search.py:264-265. -/
def pushAll (_ _ : Option (AEdge A)) : Bool := true

/-! ## `deterministic_inclusion.py` -/

/-- `DeterministicInclusionVisitor.update`, deterministic_inclusion.py:32-51; `ContradictionException` is a `RuntimeError`. -/
def inclUpdate (g1 g2 : Automaton A) (q1 q2 : Option Nat) (ret : Int) : Except PyErr Int :=
  let f1 := g1.isFinalO q1
  let f2 := g2.isFinalO q2
  if f1 ^^ f2 then
    let r : Int := if f2 then 1 else -1
    if ret = 0 then .ok r
    else if ret ≠ r then .error .runtimeError
    else .ok ret
  else .ok ret

/-- `DeterministicInclusionVisitor`, deterministic_inclusion.py:21-80. -/
def inclVisitor (g1 g2 : Automaton A) : Visitor (PEvent A) Int
  | .start q1 q2, ret => inclUpdate g1 g2 q1 q2 ret
  | .discover q1 q2, ret => inclUpdate g1 g2 q1 q2 ret
  | _, ret => .ok ret

/-- `deterministic_inclusion`, deterministic_inclusion.py:83-110. `None` is returned when `ContradictionException` is caught: it is the only
exception raised by the visitor. -/
def deterministicInclusion (ord : SetOracle A) (g1 g2 : Automaton A) (fuel : Nat) : Option (Except PyErr (Option Int)) :=
  match pbfs ord (fun _ => g1) g2 [(g1.initial, g2.initial)] pushAll (inclVisitor g1 g2) 0 fuel with
  | none => none
  | some (.ok (_, ret)) => some (.ok (some ret))
  | some (.error .runtimeError) => some (.ok none)
  | some (.error e) => some (.error e)

/-! ## `trie_matching.py` -/

/-- `TrieMatchingVisitor.update`, trie_matching.py:29-34. -/
def matchUpdate (g1 g2 : Automaton A) (q1 q2 : Option Nat) (counters : List Nat) : List Nat :=
  counters.modify ((if g1.isFinalO q1 then 1 else 0) + 2 * (if g2.isFinalO q2 then 1 else 0)) (· + 1)

/-- `TrieMatchingVisitor`, trie_matching.py:13-42. -/
def matchVisitor (g1 g2 : Automaton A) : Visitor (PEvent A) (List Nat)
  | .start q1 q2, c => .ok (matchUpdate g1 g2 q1 q2 c)
  | .discover q1 q2, c => .ok (matchUpdate g1 g2 q1 q2 c)
  | _, c => .ok c

/-- `trie_matching`, trie_matching.py:45-63. -/
def trieMatching (ord : SetOracle A) (g1 g2 : Automaton A) (fuel : Nat) : Option (Except PyErr (List Nat)) :=
  (pbfs ord (fun _ => g1) g2 [(g1.initial, g2.initial)] pushAll (matchVisitor g1 g2) [0, 0, 0, 0] fuel).map (·.map (·.2))

/-! ## `product_mixin.py` -/

/-- The attributes of `ProductMixin`, product_mixin.py:20-30. -/
structure Product (A : Type) where
  map : Dict StatePair Nat
  g12 : Automaton A

/-- `ProductMixin.add_product_vertex`, product_mixin.py:32-60. -/
def Product.addVertex (op : Bool → Bool → Bool) (g1 g2 : Automaton A) (q1 q2 : Option Nat) (s : Product A) : Nat × Product A :=
  let (q12, g) := s.g12.addVertex
  let g := if op (g1.isInitialO q1) (g2.isInitialO q2) then g.setInitial q12 else g
  let g := if op (g1.isFinalO q1) (g2.isFinalO q2) then g.setFinal q12 else g
  (q12, ⟨s.map.set (q1, q2) q12, g⟩)

/-- `ProductMixin.get_or_create_product_vertex`, product_mixin.py:117-143. -/
def Product.getOrCreate (op : Bool → Bool → Bool) (g1 g2 : Automaton A) (q1 q2 : Option Nat) (s : Product A) :
    Except PyErr (Nat × Product A) :=
  if q1 = none ∧ q2 = none then .error .runtimeError
  else
    match s.map.get? (q1, q2) with
    | some q12 => .ok (q12, s)
    | none => .ok (s.addVertex op g1 g2 q1 q2)

/-- The label read at product_mixin.py:86, 93: the second assignment wins. -/
def productLabel (e1 e2 : Option (AEdge A)) : Option A :=
  match e2 with
  | some e => some e.label
  | none => e1.map AEdge.label

/-- `ProductMixin.add_product_edge`, product_mixin.py:62-99. -/
def Product.addEdge (op : Bool → Bool → Bool) (g1 g2 : Automaton A) (e1 e2 : Option (AEdge A)) (s : Product A) :
    Except PyErr (Product A) :=
  match s.getOrCreate op g1 g2 (e1.map AEdge.source) (e2.map AEdge.source) with
  | .error e => .error e
  | .ok (q12, s) =>
    match s.getOrCreate op g1 g2 (e1.bind AEdge.target) (e2.bind AEdge.target) with
    | .error e => .error e
    | .ok (r12, s) =>
      match productLabel e1 e2 with
      | none => .error .unboundLocalError
      | some a =>
        match s.g12.addEdge q12 r12 a with
        | .error e => .error e
        | .ok (_, _, g) => .ok ⟨s.map, g⟩

/-! ## `deterministic_intersection.py` and `deterministic_union.py` -/

/-- `DeterministicIntersectionVisitor`, deterministic_intersection.py:15-55. `g1.target(None)` raises `AttributeError`. -/
def interVisitor (g1 g2 : Automaton A) : Visitor (PEvent A) (Product A)
  | .examineEdge e1 e2 _, s =>
    match e1 with
    | none => .error .attributeError
    | some f1 =>
      if f1.target = none then .ok s
      else
        match e2 with
        | none => .error .attributeError
        | some f2 => if f2.target = none then .ok s else s.addEdge (fun a b => a && b) g1 g2 e1 e2
  | _, s => .ok s

/-- Truthiness of a state: `None` and `0` are false. -/
def truthy : Option Nat → Bool
  | some (_ + 1) => true
  | _ => false

/-- `if_push` of `deterministic_intersection`, deterministic_intersection.py:82-87. -/
def interPush (e1 e2 : Option (AEdge A)) : Bool :=
  match e1 with
  | none => false
  | some f1 =>
    truthy f1.target &&
      match e2 with
      | none => false
      | some f2 => truthy f2.target

/-- `deterministic_intersection` with the default `g12`, deterministic_intersection.py:58-89. -/
def deterministicIntersection (ord : SetOracle A) (g1 g2 : Automaton A) (fuel : Nat) : Option (Except PyErr (Automaton A)) :=
  (pbfs ord (fun _ => g1) g2 [(g1.initial, g2.initial)] interPush (interVisitor g1 g2) ⟨[], .empty⟩ fuel).map (·.map (·.2.g12))

/-- `DeterministicUnionVisitor`, deterministic_union.py:15-54. -/
def unionVisitor (g1 g2 : Automaton A) : Visitor (PEvent A) (Product A)
  | .examineEdge e1 e2 _, s => s.addEdge (fun a b => a || b) g1 g2 e1 e2
  | _, s => .ok s

/-- `deterministic_union` with the default `g12`, deterministic_union.py:57-79. -/
def deterministicUnion (ord : SetOracle A) (g1 g2 : Automaton A) (fuel : Nat) : Option (Except PyErr (Automaton A)) :=
  (pbfs ord (fun _ => g1) g2 [(g1.initial, g2.initial)] pushAll (unionVisitor g1 g2) ⟨[], .empty⟩ fuel).map (·.map (·.2.g12))

/-! ## `trie.py`: fusion -/

/-- The state of `TrieDeterministicFusion` (trie.py:53-62) together with `g1`, which it modifies. -/
structure Fusion (A : Type) where
  map : Dict (Option Nat) (Option Nat)
  g1 : Automaton A

/-- `set_final` on a state which may be `None` (a key that `accepts` never reads). -/
def Automaton.setFinalO (g : Automaton A) : Option Nat → Automaton A
  | none => g
  | some q => g.setFinal q

/-- The state from which the new arc leaves, trie.py:81-88. -/
def fusionSource (e1 e2 : Option (AEdge A)) (s : Fusion A) : Except PyErr Nat :=
  match e1 with
  | some f1 => .ok f1.source
  | none =>
    match e2 with
    | none => .error .attributeError
    | some f2 =>
      match s.map.getE (some f2.source) with
      | .error e => .error e
      | .ok none => .error .assertionError
      | .ok (some q1) => .ok q1

/-- trie.py:80-93: the state of `g1` reached by the edge, created if need be. -/
def fusionTarget (e1 e2 : Option (AEdge A)) (a : A) (s : Fusion A) : Except PyErr (Nat × Fusion A) :=
  match e1.bind AEdge.target with
  | some r1 => .ok (r1, s)
  | none =>
    match fusionSource e1 e2 s with
    | .error e => .error e
    | .ok q1 =>
      match s.g1.addVertex.2.addEdge q1 s.g1.addVertex.1 a with
      | .error e => .error e
      | .ok (_, _, g) => .ok (s.g1.addVertex.1, ⟨s.map.set (e2.bind AEdge.target) (some s.g1.addVertex.1), g⟩)

/-- `TrieDeterministicFusion`, trie.py:53-95. -/
def fusionVisitor (g2 : Automaton A) : Visitor (PEvent A) (Fusion A)
  | .start q1 q2, s => .ok ⟨s.map.set q2 q1, if g2.isFinalO q2 then s.g1.setFinalO q1 else s.g1⟩
  | .examineEdge e1 e2 a, s =>
    match fusionTarget e1 e2 a s with
    | .error e => .error e
    | .ok (r1, s) => .ok ⟨s.map, if g2.isFinalO (e2.bind AEdge.target) then s.g1.setFinal r1 else s.g1⟩
  | _, s => .ok s

/-- `if_push` of the fusion, trie.py:111. -/
def fusionPush (_ e2 : Option (AEdge A)) : Bool := e2.isSome

/-- `trie_deterministic_fusion`, trie.py:98-113; returns the new state of `g1`. -/
def trieFusion (ord : SetOracle A) (g1 g2 : Automaton A) (fuel : Nat) : Option (Except PyErr (Automaton A)) :=
  (pbfs ord Fusion.g1 g2 [(g1.initial, g2.initial)] fusionPush (fusionVisitor g2) ⟨[], g1⟩ fuel).map (·.map (·.2.g1))

end PyBGL
