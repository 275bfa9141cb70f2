import Verif.Model.Product
import Verif.Model.DigitalSequence

/-!
# The parallel search and what is built on it, on any object that has the methods they call

`parallel_breadth_first_search.py`, `deterministic_inclusion.py`, `trie_matching.py`, `product_mixin.py`, `deterministic_intersection.py`,
`deterministic_union.py` and `trie.py` (fusion) call five methods of their operands: `initial`, `is_initial`, `is_final`, `sigma` and `delta`. A
`DigitalSequence` overloads all five (digital_sequence.py:15-121), and two of them may raise. The definitions of `Verif/Model/Product.lean` are written here
over these methods; on `Automaton` operands they are the definitions of `Verif/Model/Product.lean` (see `Verif/Proofs/PbfsI.lean`).
-/

namespace PyBGL
variable {A σ : Type} [DecidableEq A]

/-- The methods of an operand of `parallel_breadth_first_search` (parallel_breadth_first_search.py:209-288). -/
structure DetI (A : Type) where
  initial : Option Nat
  isInitial : Option Nat → Bool
  isFinal : Option Nat → Bool
  sigma : Option Nat → Except PyErr (List A)
  delta : Option Nat → A → Except PyErr (Option Nat)

/-- The methods of `Automaton`: automaton.py:57-71 (`delta`), 169-183 (`sigma`), 228-237 (`initial`), 239-251 (`is_initial`), 279-291 (`is_final`). -/
def Automaton.detI (g : Automaton A) : DetI A where
  initial := g.initial
  isInitial := g.isInitialO
  isFinal := g.isFinalO
  sigma q := .ok (g.sigmaO q)
  delta q a := .ok (g.deltaO q a)

/-- The methods of `DigitalSequence`: digital_sequence.py:35-44 (`delta`), 76-78 (`sigma`), 103-105 (`initial`), 107-109 (`is_initial`), 115-117 (`is_final`).
`None == 0` and `None == len(w)` are false. -/
def DigitalSequence.detI (w : List A) : DetI A where
  initial := DigitalSequence.initial
  isInitial := fun q => match q with | none => false | some q => DigitalSequence.isInitial q
  isFinal := fun q => match q with | none => false | some q => DigitalSequence.isFinal w q
  sigma := fun q => match q with | none => .ok [] | some q => DigitalSequence.sigma w q
  delta := DigitalSequence.delta w

/-- `get_edge(q, r, a, g) if q is not BOTTOM else None`, parallel_breadth_first_search.py:236-244, 273-274. -/
def getEdgeI (g : DetI A) (q r : Option Nat) (a : A) : Except PyErr (Option (AEdge A)) :=
  match q with
  | none => .ok none
  | some q =>
    match g.delta (some q) a with
    | .error e => .error e
    | .ok d => .ok (some (if r = d then ⟨q, r, a⟩ else ⟨q, none, a⟩))

/-- The body of the loop over the symbols, parallel_breadth_first_search.py:270-286. -/
def pbfsSymbolI (g1 : σ → DetI A) (g2 : DetI A) (ifPush : Option (AEdge A) → Option (AEdge A) → Bool)
    (vis : Visitor (PEvent A) σ) (q1 q2 : Option Nat) (a : A) (s : PbfsState σ) : Except PyErr (PbfsState σ) :=
  match (g1 s.st).delta q1 a with
  | .error err => .error err
  | .ok r1 =>
    match g2.delta q2 a with
    | .error err => .error err
    | .ok r2 =>
      match vis (.examineSymbol q1 q2 a) s.st with
      | .error err => .error err
      | .ok st =>
        match getEdgeI (g1 st) q1 r1 a with
        | .error err => .error err
        | .ok e1 =>
          match getEdgeI g2 q2 r2 a with
          | .error err => .error err
          | .ok e2 =>
            match vis (.examineEdge e1 e2 a) st with
            | .error err => .error err
            | .ok st => pbfsClassify ifPush vis e1 e2 a r1 r2 ⟨s.color, st, s.queue⟩

/-- The loop over the symbols, parallel_breadth_first_search.py:270-286. -/
def pbfsSymbolsI (g1 : σ → DetI A) (g2 : DetI A) (ifPush : Option (AEdge A) → Option (AEdge A) → Bool)
    (vis : Visitor (PEvent A) σ) (q1 q2 : Option Nat) : List A → PbfsState σ → Except PyErr (PbfsState σ)
  | [], s => .ok s
  | a :: as, s =>
    match pbfsSymbolI g1 g2 ifPush vis q1 q2 a s with
    | .error err => .error err
    | .ok s => pbfsSymbolsI g1 g2 ifPush vis q1 q2 as s

/-- One iteration of the main loop, parallel_breadth_first_search.py:267-288. -/
def pbfsStepI (ord : SetOracle A) (g1 : σ → DetI A) (g2 : DetI A) (ifPush : Option (AEdge A) → Option (AEdge A) → Bool)
    (vis : Visitor (PEvent A) σ) (t : Nat) (s : PbfsState σ) : Step (PbfsState σ) (Dict StatePair Color × σ) :=
  match s.queue with
  | [] => .done (s.color, s.st)
  | (q1, q2) :: queue =>
    match vis (.examineVertex q1 q2) s.st with
    | .error e => .fail e
    | .ok st =>
      match (g1 st).sigma q1 with
      | .error e => .fail e
      | .ok s1 =>
        match g2.sigma q2 with
        | .error e => .fail e
        | .ok s2 =>
          match pbfsSymbolsI g1 g2 ifPush vis q1 q2 (ord t (setUnion s1 s2)) ⟨s.color, st, queue⟩ with
          | .error e => .fail e
          | .ok s =>
            match vis (.finish q1 q2) s.st with
            | .error e => .fail e
            | .ok st => .next ⟨s.color.set (q1, q2) .black, st, s.queue⟩

/-- `parallel_breadth_first_search`, parallel_breadth_first_search.py:209-288, with an empty colour map. -/
def pbfsI (ord : SetOracle A) (g1 : σ → DetI A) (g2 : DetI A) (sources : List StatePair)
    (ifPush : Option (AEdge A) → Option (AEdge A) → Bool) (vis : Visitor (PEvent A) σ) (st : σ) (fuel : Nat) :
    Option (Except PyErr (Dict StatePair Color × σ)) :=
  match emit vis (sources.map fun p => .start p.1 p.2) st with
  | .error e => some (.error e)
  | .ok st => loop (pbfsStepI ord g1 g2 ifPush vis) fuel 0 ⟨[], st, sources⟩

/-- `DeterministicInclusionVisitor.update`, deterministic_inclusion.py:32-51. -/
def inclUpdateI (g1 g2 : DetI A) (q1 q2 : Option Nat) (ret : Int) : Except PyErr Int :=
  let f1 := g1.isFinal q1
  let f2 := g2.isFinal q2
  if f1 ^^ f2 then
    let r : Int := if f2 then 1 else -1
    if ret = 0 then .ok r
    else if ret ≠ r then .error .runtimeError
    else .ok ret
  else .ok ret

/-- `DeterministicInclusionVisitor`, deterministic_inclusion.py:21-80. -/
def inclVisitorI (g1 g2 : DetI A) : Visitor (PEvent A) Int
  | .start q1 q2, ret => inclUpdateI g1 g2 q1 q2 ret
  | .discover q1 q2, ret => inclUpdateI g1 g2 q1 q2 ret
  | _, ret => .ok ret

/-- `deterministic_inclusion`, deterministic_inclusion.py:83-110. -/
def deterministicInclusionI (ord : SetOracle A) (g1 g2 : DetI A) (fuel : Nat) : Option (Except PyErr (Option Int)) :=
  match pbfsI ord (fun _ => g1) g2 [(g1.initial, g2.initial)] pushAll (inclVisitorI g1 g2) 0 fuel with
  | none => none
  | some (.ok (_, ret)) => some (.ok (some ret))
  | some (.error .runtimeError) => some (.ok none)
  | some (.error e) => some (.error e)

/-- `TrieMatchingVisitor.update`, trie_matching.py:29-34. -/
def matchUpdateI (g1 g2 : DetI A) (q1 q2 : Option Nat) (counters : List Nat) : List Nat :=
  counters.modify ((if g1.isFinal q1 then 1 else 0) + 2 * (if g2.isFinal q2 then 1 else 0)) (· + 1)

/-- `TrieMatchingVisitor`, trie_matching.py:13-42. -/
def matchVisitorI (g1 g2 : DetI A) : Visitor (PEvent A) (List Nat)
  | .start q1 q2, c => .ok (matchUpdateI g1 g2 q1 q2 c)
  | .discover q1 q2, c => .ok (matchUpdateI g1 g2 q1 q2 c)
  | _, c => .ok c

/-- `trie_matching`, trie_matching.py:45-63. -/
def trieMatchingI (ord : SetOracle A) (g1 g2 : DetI A) (fuel : Nat) : Option (Except PyErr (List Nat)) :=
  (pbfsI ord (fun _ => g1) g2 [(g1.initial, g2.initial)] pushAll (matchVisitorI g1 g2) [0, 0, 0, 0] fuel).map (·.map (·.2))

/-- `ProductMixin.add_product_vertex`, product_mixin.py:32-60. -/
def Product.addVertexI (op : Bool → Bool → Bool) (g1 g2 : DetI A) (q1 q2 : Option Nat) (s : Product A) : Nat × Product A :=
  let (q12, g) := s.g12.addVertex
  let g := if op (g1.isInitial q1) (g2.isInitial q2) then g.setInitial q12 else g
  let g := if op (g1.isFinal q1) (g2.isFinal q2) then g.setFinal q12 else g
  (q12, ⟨s.map.set (q1, q2) q12, g⟩)

/-- `ProductMixin.get_or_create_product_vertex`, product_mixin.py:117-143. -/
def Product.getOrCreateI (op : Bool → Bool → Bool) (g1 g2 : DetI A) (q1 q2 : Option Nat) (s : Product A) :
    Except PyErr (Nat × Product A) :=
  if q1 = none ∧ q2 = none then .error .runtimeError
  else
    match s.map.get? (q1, q2) with
    | some q12 => .ok (q12, s)
    | none => .ok (s.addVertexI op g1 g2 q1 q2)

/-- `ProductMixin.add_product_edge`, product_mixin.py:62-99. -/
def Product.addEdgeI (op : Bool → Bool → Bool) (g1 g2 : DetI A) (e1 e2 : Option (AEdge A)) (s : Product A) :
    Except PyErr (Product A) :=
  match s.getOrCreateI op g1 g2 (e1.map AEdge.source) (e2.map AEdge.source) with
  | .error e => .error e
  | .ok (q12, s) =>
    match s.getOrCreateI op g1 g2 (e1.bind AEdge.target) (e2.bind AEdge.target) with
    | .error e => .error e
    | .ok (r12, s) =>
      match productLabel e1 e2 with
      | none => .error .unboundLocalError
      | some a =>
        match s.g12.addEdge q12 r12 a with
        | .error e => .error e
        | .ok (_, _, g) => .ok ⟨s.map, g⟩

/-- `DeterministicIntersectionVisitor`, deterministic_intersection.py:15-55. -/
def interVisitorI (g1 g2 : DetI A) : Visitor (PEvent A) (Product A)
  | .examineEdge e1 e2 _, s =>
    match e1 with
    | none => .error .attributeError
    | some f1 =>
      if f1.target = none then .ok s
      else
        match e2 with
        | none => .error .attributeError
        | some f2 => if f2.target = none then .ok s else s.addEdgeI (fun a b => a && b) g1 g2 e1 e2
  | _, s => .ok s

/-- `deterministic_intersection` with the default `g12`, deterministic_intersection.py:58-89. -/
def deterministicIntersectionI (ord : SetOracle A) (g1 g2 : DetI A) (fuel : Nat) : Option (Except PyErr (Automaton A)) :=
  (pbfsI ord (fun _ => g1) g2 [(g1.initial, g2.initial)] interPush (interVisitorI g1 g2) ⟨[], .empty⟩ fuel).map (·.map (·.2.g12))

/-- `DeterministicUnionVisitor`, deterministic_union.py:15-54. -/
def unionVisitorI (g1 g2 : DetI A) : Visitor (PEvent A) (Product A)
  | .examineEdge e1 e2 _, s => s.addEdgeI (fun a b => a || b) g1 g2 e1 e2
  | _, s => .ok s

/-- `deterministic_union` with the default `g12`, deterministic_union.py:57-79. -/
def deterministicUnionI (ord : SetOracle A) (g1 g2 : DetI A) (fuel : Nat) : Option (Except PyErr (Automaton A)) :=
  (pbfsI ord (fun _ => g1) g2 [(g1.initial, g2.initial)] pushAll (unionVisitorI g1 g2) ⟨[], .empty⟩ fuel).map (·.map (·.2.g12))

/-- `TrieDeterministicFusion`, trie.py:53-95: the first operand is a `Trie`, which the visitor modifies. -/
def fusionVisitorI (g2 : DetI A) : Visitor (PEvent A) (Fusion A)
  | .start q1 q2, s => .ok ⟨s.map.set q2 q1, if g2.isFinal q2 then s.g1.setFinalO q1 else s.g1⟩
  | .examineEdge e1 e2 a, s =>
    match fusionTarget e1 e2 a s with
    | .error e => .error e
    | .ok (r1, s) => .ok ⟨s.map, if g2.isFinal (e2.bind AEdge.target) then s.g1.setFinal r1 else s.g1⟩
  | _, s => .ok s

/-- `trie_deterministic_fusion`, trie.py:98-113, and `Trie.insert` of something which is not a string, trie.py:35-44; returns the new state of `g1`. -/
def trieFusionI (ord : SetOracle A) (g1 : Automaton A) (g2 : DetI A) (fuel : Nat) : Option (Except PyErr (Automaton A)) :=
  (pbfsI ord (fun s : Fusion A => s.g1.detI) g2 [(g1.initial, g2.initial)] fusionPush (fusionVisitorI g2) ⟨[], g1⟩ fuel).map (·.map (·.2.g1))

/-! ## Calls that would modify a `DigitalSequence` -/

/-- The calls that modify an `Automaton`, with the arguments documented for `Automaton` (automaton.py:73-95, 154-167, 213-226, 267-277, graph.py:155-206,
trie.py:35-44). -/
inductive DSCall (A : Type) where
  | addVertex
  | addEdge (q r : Nat) (a : A)
  | removeVertex (q : Nat)
  | removeEdge (e : EdgeDesc A)
  | setInitial (q : Nat)
  | setFinal (q : Nat)
  | insert (w : List A)
  | clear
  deriving DecidableEq, Repr

/-- The outcome of such a call on `DigitalSequence(w)`: `add_edge`, `add_vertex`, `remove_edge`, `remove_vertex` and `insert` raise `RuntimeError`
(digital_sequence.py:46-52, 68-74, 119-121); `set_initial` and `set_final` are declared without argument (digital_sequence.py:99-101, 111-113), so a call with a state raises
`TypeError`; `clear` (graph.py:199-206) is inherited: it writes an unused attribute, then calls `remove_vertex` on each of `vertices()`. -/
def DigitalSequence.call (w : List A) : DSCall A → Except PyErr (List A)
  | .addVertex => .error .runtimeError
  | .addEdge _ _ _ => .error .runtimeError
  | .removeVertex _ => .error .runtimeError
  | .removeEdge _ => .error .runtimeError
  | .setInitial _ => .error .typeError
  | .setFinal _ => .error .typeError
  | .insert _ => .error .runtimeError
  | .clear => (DigitalSequence.vertices w).foldlM (fun _ _ => .error .runtimeError) w

end PyBGL
