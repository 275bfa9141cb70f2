import Verif.Model.Graph

/-!
# Model of `automaton.py`, `incidence_automaton.py`, `trie.py` (insertion), `suffix_trie.py`
-/

namespace PyBGL

/-- State of an `Automaton` (automaton.py:24-55): `adjacencies[q][a] = r`, the initial state (`none` is
`BOTTOM`/`None`) and the default `pmap_vfinal`, a property map over a `defaultdict(bool)`. -/
structure Automaton (A : Type) where
  lastVertexId : Nat
  adj : Dict Nat (Dict A Nat)
  q0 : Option Nat
  final : Dict Nat Bool
  deriving Repr

namespace Automaton
variable {A : Type} [DecidableEq A]

/-- `Automaton(0)`, automaton.py:32-55 with the default `q0 = 0`. -/
def empty : Automaton A := ⟨0, [], some 0, []⟩

/-- `Graph.add_vertex` (inherited), graph.py:155-165. -/
def addVertex (g : Automaton A) : Nat × Automaton A :=
  (g.lastVertexId, { g with lastVertexId := g.lastVertexId + 1, adj := g.adj.set g.lastVertexId [] })

/-- `Automaton.__init__`, automaton.py:32-55: `num_vertices` calls to `add_vertex` (graph.py:152-153). -/
def init : Nat → Automaton A
  | 0 => empty
  | n + 1 => (addVertex (init n)).2

/-- `Graph.vertices`, graph.py:208-216. -/
def vertices (g : Automaton A) : List Nat := g.adj.keys

/-- `Graph.num_vertices`, graph.py:167-175. -/
def numVertices (g : Automaton A) : Nat := g.vertices.length

/-- `Automaton.delta`, automaton.py:57-71. -/
def delta (g : Automaton A) (q : Nat) (a : A) : Option Nat := Dict.get? (g.adj.getD q []) a

/-- `delta` on a state which may be `BOTTOM` (`adjacencies.get(None, dict())` is empty). -/
def deltaO (g : Automaton A) (q : Option Nat) (a : A) : Option Nat := q.bind (g.delta · a)

/-- `Automaton.add_edge`, automaton.py:73-95. Line 92 tests the truthiness of `self.delta(q, a)`:
`None` and state `0` are both false. -/
def addEdge (g : Automaton A) (q r : Nat) (a : A) :
    Except PyErr (Option (EdgeDesc A) × Bool × Automaton A) :=
  match g.delta q a with
  | some (_ + 1) => .ok (none, false, g)
  | _ => do
    let adjQ ← g.adj.getE q
    .ok (some ⟨q, r, a⟩, true, { g with adj := g.adj.set q (adjQ.set a r) })

/-- `Automaton.edge`, automaton.py:97-118. -/
def edge (g : Automaton A) (q r : Nat) (a : A) : Option (EdgeDesc A) × Bool :=
  if g.delta q a = some r then (some ⟨q, r, a⟩, true) else (none, false)

/-- `Automaton.out_edges`, automaton.py:138-152. -/
def outEdges (g : Automaton A) (q : Nat) : List (EdgeDesc A) :=
  (g.adj.getD q []).map fun p => ⟨q, p.2, p.1⟩

/-- `Automaton.edges`, automaton.py:199-211. -/
def edges (g : Automaton A) : List (EdgeDesc A) :=
  g.adj.flatMap fun p => p.2.map fun t => ⟨p.1, t.2, t.1⟩

/-- `Automaton.remove_edge`, automaton.py:154-167 (never raises). -/
def removeEdge (g : Automaton A) (e : EdgeDesc A) : Automaton A :=
  match g.adj.get? e.source with
  | none => g
  | some adjQ =>
    if adjQ.contains e.distinguisher then
      { g with adj := g.adj.set e.source (adjQ.erase e.distinguisher) }
    else g

/-- `Graph.remove_vertex` (inherited), graph.py:177-197. -/
def removeVertex (g : Automaton A) (u : Nat) : Except PyErr (Automaton A) := do
  let g := (g.edges.filter fun e => u = e.target).foldl removeEdge g
  let g := (g.outEdges u).foldl removeEdge g
  let adj ← g.adj.delE u
  .ok { g with adj }

/-- `Graph.clear` (inherited), graph.py:199-206: neither the initial state nor `pmap_vfinal` is reset. -/
def clear (g : Automaton A) : Except PyErr (Automaton A) :=
  let g := { g with lastVertexId := 0 }
  g.vertices.foldlM removeVertex g

/-- `Automaton.sigma`, automaton.py:169-183, on a state. -/
def sigma (g : Automaton A) (q : Nat) : List A := mkSet (g.adj.getD q []).keys

/-- `Automaton.alphabet`, automaton.py:185-197. -/
def alphabet (g : Automaton A) : List A :=
  mkSet (g.vertices.flatMap fun q => (g.adj.getD q []).keys)

/-- `Automaton.set_initial`, automaton.py:213-226. -/
def setInitial (g : Automaton A) (q : Nat) (isInitial : Bool := true) : Automaton A :=
  if isInitial then { g with q0 := some q }
  else if g.q0 = some q then { g with q0 := none } else g

/-- `Automaton.initial`, automaton.py:228-237. -/
def initial (g : Automaton A) : Option Nat := g.q0

/-- `Automaton.is_initial`, automaton.py:239-251. -/
def isInitial (g : Automaton A) (q : Nat) : Bool := g.q0 = some q

/-- `Automaton.set_final`, automaton.py:267-277. -/
def setFinal (g : Automaton A) (q : Nat) (isFinal : Bool := true) : Automaton A :=
  { g with final := g.final.set q isFinal }

/-- `Automaton.is_final`, automaton.py:279-291 (default property map: `defaultdict(bool)`). -/
def isFinal (g : Automaton A) (q : Nat) : Bool := g.final.getD q false

/-- `is_final` on a state which may be `BOTTOM`: the key `None` is never set by the library. -/
def isFinalO (g : Automaton A) : Option Nat → Bool
  | none => false
  | some q => g.isFinal q

/-- `Automaton.finals`, automaton.py:293-306. -/
def finals (g : Automaton A) : List Nat := g.vertices.filter g.isFinal

/-- `Automaton.delta_word`, automaton.py:328-346. -/
def deltaWord (g : Automaton A) : Option Nat → List A → Option Nat
  | q, [] => q
  | none, _ :: _ => none
  | some q, a :: w => deltaWord g (g.delta q a) w

/-- `Automaton.accepts`, automaton.py:348-363. -/
def accepts (g : Automaton A) (w : List A) : Bool :=
  match g.deltaWord g.initial w with
  | none => false
  | some q => g.isFinal q

/-- `Automaton.accepts` when `pmap_vfinal` is a user-supplied property map. -/
def acceptsWith (g : Automaton A) (fin : Nat → Bool) (w : List A) : Bool :=
  match g.deltaWord g.initial w with
  | none => false
  | some q => fin q

/-- `self.sigma(q) != alpha` compares Python sets, automaton.py:398. -/
def sameSet (s t : List A) : Bool := s.all (· ∈ t) && t.all (· ∈ s)

/-- `Automaton.is_complete`, automaton.py:386-400. -/
def isComplete (g : Automaton A) : Bool := g.vertices.all fun q => sameSet (g.sigma q) g.alphabet

/-- Loop of `Automaton.delta_best_effort`, automaton.py:418-423. -/
def deltaBestEffortFrom (g : Automaton A) : Option Nat → Nat → List A → Option Nat × Nat
  | q, i, [] => (q, i)
  | q, i, a :: w =>
    match g.deltaO q a with
    | none => (q, i)
    | some r => deltaBestEffortFrom g (some r) (i + 1) w

/-- `Automaton.delta_best_effort`, automaton.py:402-423. -/
def deltaBestEffort (g : Automaton A) (w : List A) : Option Nat × Nat :=
  deltaBestEffortFrom g g.initial 0 w

/-- Loop of `automaton_insert_string`, automaton.py:437-440. `add_edge` asserts that `q` is not `None`
(automaton.py:90). -/
def insertChain (g : Automaton A) : Option Nat → List A → Except PyErr (Option Nat × Automaton A)
  | q, [] => .ok (q, g)
  | none, _ :: _ => .error .assertionError
  | some q, a :: w => do
    let (r, g) := g.addVertex
    let (_, _, g) ← g.addEdge q r a
    insertChain g (some r) w

/-- `Automaton.automaton_insert_string`, automaton.py:425-441. (With `q = None`, `set_final(None)` sets a
key that `accepts` never reads: the model leaves the automaton unchanged.) -/
def insertString (g : Automaton A) (w : List A) : Except PyErr (Automaton A) := do
  let (q, i) := g.deltaBestEffort w
  let (q, g) ← insertChain g q (w.drop i)
  match q with
  | none => .ok g
  | some q => .ok (g.setFinal q)

/-- Loop of `accepts_debug`, automaton.py:482-486; the value printed at line 483 is not modelled. -/
def acceptsDebugFrom (g : Automaton A) : Option Nat → List A → Bool
  | q, [] => g.isFinalO q
  | none, _ :: _ => false
  | some q, a :: w => acceptsDebugFrom g (g.delta q a) w

/-- `accepts_debug`, automaton.py:467-487. -/
def acceptsDebug (g : Automaton A) (w : List A) : Bool := acceptsDebugFrom g g.initial w

end Automaton

/-! ## `Trie`, trie.py:22-50 -/

namespace Trie
variable {A : Type} [DecidableEq A]

/-- `Trie()`, trie.py:30-33: one vertex by default. -/
def new : Automaton A := Automaton.init 1

/-- `Trie.insert` on a string, trie.py:35-42. -/
def insert (g : Automaton A) (w : List A) : Except PyErr (Automaton A) := g.insertString w

/-- `Trie.num_edges`, trie.py:46-50. -/
def numEdges (g : Automaton A) : Nat :=
  let n := g.numVertices
  if n ≠ 0 then n - 1 else 0

end Trie

/-! ## `suffix_trie.py` -/

/-- Truthiness of the optional bound `max_len`: `None` and `0` are false. -/
def boundOf (maxLen : Option Nat) : Option Nat :=
  match maxLen with
  | none => none
  | some 0 => none
  | some (k + 1) => some (k + 1)

/-- `min(n, i + max_len) + 1 if max_len else n + 1`, suffix_trie.py:36. -/
def sliceStop (n : Nat) (maxLen : Option Nat) (i : Nat) : Nat :=
  match boundOf maxLen with
  | some k => min n (i + k) + 1
  | none => n + 1

/-- The second generator of `slices`, suffix_trie.py:31-38. -/
def properSlices (n : Nat) (maxLen : Option Nat) : List (Nat × Nat) :=
  (List.range n).flatMap fun i =>
    (List.range' (i + 1) (sliceStop n maxLen i - (i + 1))).map fun j => (i, j)

/-- `slices`, suffix_trie.py:12-39. -/
def slices (n : Nat) (maxLen : Option Nat) : List (Nat × Nat) := (0, 0) :: properSlices n maxLen

/-- `factors`, suffix_trie.py:42-60; `s[i:j]` with `0 <= i <= j <= len(s)`. -/
def factors {A : Type} (s : List A) (maxLen : Option Nat) : List (List A) :=
  (slices s.length maxLen).map fun p => (s.drop p.1).take (p.2 - p.1)

namespace SuffixTrie
variable {A : Type} [DecidableEq A]

/-- Inner loop of `make_suffix_trie`, suffix_trie.py:93-99, over the symbols `w[i], w[i+1], ...`. -/
def insertFactor (g : Automaton A) : Option Nat → List A → Except PyErr (Automaton A)
  | _, [] => .ok g
  | q, a :: w =>
    match g.deltaO q a with
    | some r => insertFactor g (some r) w
    | none =>
      match q with
      | none => .error .assertionError
      | some q => do
        let (r, g) := g.addVertex
        let (_, _, g) ← g.addEdge q r a
        insertFactor g (some r) w

/-- The symbols scanned from position `i`: `w[i : min(n, i + max_len)]`, suffix_trie.py:93. -/
def window (w : List A) (maxLen : Option Nat) (i : Nat) : List A :=
  match boundOf maxLen with
  | some k => (w.drop i).take k
  | none => w.drop i

/-- `make_suffix_trie` with the default `g`, suffix_trie.py:63-100: `Trie(pmap_vfinal=...)` already has
one vertex. -/
def make (w : List A) (maxLen : Option Nat) : Except PyErr (Automaton A) :=
  (List.range w.length).foldlM
    (fun g i => insertFactor g g.initial (window w maxLen i)) (Trie.new : Automaton A)

/-- Acceptance by the suffix trie: `pmap_vfinal` is `lambda q: q != BOTTOM` (suffix_trie.py:80). -/
def accepts (g : Automaton A) (x : List A) : Bool := g.acceptsWith (fun _ => true) x

end SuffixTrie

/-! ## `make_automaton`, automaton.py:750-816 -/

/-- `vertex_names`, automaton.py:794-799. Names live in an arbitrary type with a comparison `le`. -/
def vertexNames {A N : Type} [DecidableEq N] (le : N → N → Bool) (ts : List (N × N × A)) : List N :=
  (mkSet (ts.map (fun t => t.1) ++ ts.map (fun t => t.2.1))).mergeSort le

/-- `map_vertices[qn]`, automaton.py:800-803: position of the name, `KeyError` when unknown. -/
def nameIndex {N : Type} [DecidableEq N] (names : List N) (n : N) : Except PyErr Nat :=
  if n ∈ names then .ok (names.idxOf n) else .error .keyError

/-- Body of the loop over the transitions, automaton.py:805-808. -/
def makeTransition {A N : Type} [DecidableEq A] [DecidableEq N] (names : List N) (g : Automaton A)
    (t : N × N × A) : Except PyErr (Automaton A) := do
  let q ← nameIndex names t.1
  let r ← nameIndex names t.2.1
  let (_, _, g) ← g.addEdge q r t.2.2
  .ok g

/-- Body of the loop over the states, automaton.py:812-815. -/
def makeFinal {A N : Type} (names : List N) (vfinal : N → Bool) (g : Automaton A) (q : Nat) :
    Except PyErr (Automaton A) :=
  match names[q]? with
  | none => .error .indexError
  | some qn => .ok (if vfinal qn then g.setFinal q else g)

/-- `make_automaton`, automaton.py:750-816, with `pmap_vfinal` given as a predicate on names. -/
def makeAutomaton {A N : Type} [DecidableEq A] [DecidableEq N] (le : N → N → Bool)
    (ts : List (N × N × A)) (q0n : N) (vfinal : N → Bool) : Except PyErr (Automaton A) := do
  let names := vertexNames le ts
  let g ← ts.foldlM (makeTransition names) (Automaton.init names.length)
  let g ← if g.vertices = [] then .ok g else do
    let q0 ← nameIndex names q0n
    .ok (g.setInitial q0)
  g.vertices.foldlM (makeFinal names vfinal) g

/-! ## `IncidenceAutomaton`, incidence_automaton.py -/

/-- State of an `IncidenceAutomaton`: an automaton plus `in_adjacencies[r][q] = {a, ...}`,
incidence_automaton.py:19-27. -/
structure IAutomaton (A : Type) where
  a : Automaton A
  inAdj : Dict Nat (Dict Nat (List A))
  deriving Repr

namespace IAutomaton
variable {A : Type} [DecidableEq A]

/-- incidence_automaton.py:26-27. -/
def empty : IAutomaton A := ⟨.empty, []⟩

/-- `IncidenceAutomaton.add_vertex`, incidence_automaton.py:29-33. -/
def addVertex (g : IAutomaton A) : Nat × IAutomaton A :=
  let (q, a) := g.a.addVertex
  (q, ⟨a, g.inAdj.set q []⟩)

/-- `IncidenceAutomaton(n)`. -/
def init : Nat → IAutomaton A
  | 0 => empty
  | n + 1 => (addVertex (init n)).2

/-- `IncidenceAutomaton.add_edge`, incidence_automaton.py:35-45. -/
def addEdge (g : IAutomaton A) (q r : Nat) (a : A) :
    Except PyErr (Option (EdgeDesc A) × Bool × IAutomaton A) := do
  let (e, added, g') ← g.a.addEdge q r a
  if added then
    let rInAdjs ← g.inAdj.getE r
    match rInAdjs.get? q with
    | none => .ok (e, added, ⟨g', g.inAdj.set r (rInAdjs.set q [a])⟩)
    | some s => .ok (e, added, ⟨g', g.inAdj.set r (rInAdjs.set q (setAdd s a))⟩)
  else .ok (e, added, ⟨g', g.inAdj⟩)

/-- `IncidenceAutomaton.in_edges`, incidence_automaton.py:87-93. -/
def inEdges (g : IAutomaton A) (r : Nat) : List (EdgeDesc A) :=
  (g.inAdj.getD r []).flatMap fun p => p.2.map fun a => ⟨p.1, r, a⟩

/-- `del self.adjacencies[p][a]`, incidence_automaton.py:57. -/
def delTransition (adj : Dict Nat (Dict A Nat)) (p : Nat) (a : A) : Except PyErr (Dict Nat (Dict A Nat)) := do
  let adjP ← adj.getE p
  let adjP ← adjP.delE a
  .ok (adj.set p adjP)

/-- incidence_automaton.py:62-66: for an out-edge towards `r`, drop `in_adjacencies[r][q]` if present. -/
def dropIn (q : Nat) (inAdj : Dict Nat (Dict Nat (List A))) (e : EdgeDesc A) :
    Except PyErr (Dict Nat (Dict Nat (List A))) := do
  let inR ← inAdj.getE e.target
  if inR.contains q then .ok (inAdj.set e.target (inR.erase q)) else .ok inAdj

/-- `IncidenceAutomaton.remove_vertex`, incidence_automaton.py:47-67. The generator `in_edges(q)` reads
`in_adjacencies[q]`, which the first loop does not modify, and `out_edges(q)` reads `adjacencies[q]`,
which the second loop does not modify: both can be computed beforehand. -/
def removeVertex (g : IAutomaton A) (q : Nat) : Except PyErr (IAutomaton A) := do
  let (adj, inAdj) ←
    if g.inAdj.contains q then do
      let adj ← (g.inEdges q).foldlM (fun adj e => delTransition adj e.source e.distinguisher) g.a.adj
      let inAdj ← g.inAdj.delE q
      .ok (adj, inAdj)
    else .ok (g.a.adj, g.inAdj)
  if adj.contains q then do
    let inAdj ← ({ g.a with adj }.outEdges q).foldlM (dropIn q) inAdj
    let adj ← adj.delE q
    .ok ⟨{ g.a with adj }, inAdj⟩
  else .ok ⟨{ g.a with adj }, inAdj⟩

/-- `IncidenceAutomaton.remove_edge`, incidence_automaton.py:69-85. -/
def removeEdge (g : IAutomaton A) (e : EdgeDesc A) : Except PyErr (IAutomaton A) := do
  let a := g.a.removeEdge e
  let inAdjsR ← g.inAdj.getE e.target
  let s ← inAdjsR.getE e.source
  if e.distinguisher ∈ s then
    let s' := setDiscard s e.distinguisher
    if s' = [] then .ok ⟨a, g.inAdj.set e.target (inAdjsR.erase e.source)⟩
    else .ok ⟨a, g.inAdj.set e.target (inAdjsR.set e.source s')⟩
  else .ok ⟨a, g.inAdj⟩

/-- `Graph.clear` (inherited), graph.py:199-206. -/
def clear (g : IAutomaton A) : Except PyErr (IAutomaton A) :=
  let g := { g with a := { g.a with lastVertexId := 0 } }
  g.a.vertices.foldlM removeVertex g

/-- Body of the loop over the transitions when `Constructor=IncidenceAutomaton`, automaton.py:805-808. -/
def makeTransition {N : Type} [DecidableEq N] (names : List N) (g : IAutomaton A) (t : N × N × A) : Except PyErr (IAutomaton A) := do
  let q ← nameIndex names t.1
  let r ← nameIndex names t.2.1
  let (_, _, g) ← g.addEdge q r t.2.2
  .ok g

/-- Body of the loop over the states when `Constructor=IncidenceAutomaton`, automaton.py:812-815. -/
def makeFinal {N : Type} (names : List N) (vfinal : N → Bool) (g : IAutomaton A) (q : Nat) : Except PyErr (IAutomaton A) :=
  match names[q]? with
  | none => .error .indexError
  | some qn => .ok (if vfinal qn then { g with a := g.a.setFinal q } else g)

/-- `make_incidence_automaton`, incidence_automaton.py:96-113: `make_automaton` with `Constructor=IncidenceAutomaton`. -/
def makeIncidenceAutomaton {N : Type} [DecidableEq N] (le : N → N → Bool) (ts : List (N × N × A)) (q0n : N) (vfinal : N → Bool) :
    Except PyErr (IAutomaton A) := do
  let names := vertexNames le ts
  let g ← ts.foldlM (makeTransition names) (IAutomaton.init names.length)
  let g ← if g.a.vertices = [] then .ok g else do
    let q0 ← nameIndex names q0n
    .ok { g with a := g.a.setInitial q0 }
  g.a.vertices.foldlM (makeFinal names vfinal) g

end IAutomaton

end PyBGL
