import Verif.Model.Automaton

/-!
# Model of `node_automaton.py` and `incidence_node_automaton.py`
-/

namespace PyBGL

/-- State of a `NodeAutomaton` (node_automaton.py:14-47): the fields of `Automaton`, whose adjacency
dictionaries are indexed by the symbol of the target (`none` is Python's `None`, the default symbol),
and the default `pmap_vsymbol`. -/
structure NodeAutomaton (A : Type) where
  a : Automaton (Option A)
  symbols : Dict Nat A
  deriving Repr

namespace NodeAutomaton
variable {A : Type} [DecidableEq A]

/-- `NodeAutomaton(0)`, node_automaton.py:23-47. -/
def empty : NodeAutomaton A := ⟨.empty, []⟩

/-- `symbol`, node_automaton.py:120-133: `defaultdict(lambda: None)`. -/
def symbol (g : NodeAutomaton A) (q : Nat) : Option A := g.symbols.get? q

/-- `vertices`, inherited from graph.py:208-216. -/
def vertices (g : NodeAutomaton A) : List Nat := g.a.vertices

/-- `edges`, node_automaton.py:197-209. -/
def edges (g : NodeAutomaton A) : List (EdgeDesc (Option A)) := g.a.edges

/-- `add_vertex`, node_automaton.py:49-53. -/
def addVertex (g : NodeAutomaton A) (a : Option A) : Nat × NodeAutomaton A :=
  let (u, g') := g.a.addVertex
  match a with
  | none => (u, ⟨g', g.symbols⟩)
  | some a => (u, ⟨g', g.symbols.set u a⟩)

/-- `delta`, node_automaton.py:55-68. -/
def delta (g : NodeAutomaton A) (q : Nat) (a : Option A) : Except PyErr (Option Nat) := do
  let adjQ ← g.a.adj.getE q
  .ok (adjQ.get? a)

/-- `add_edge`, node_automaton.py:70-94. -/
def addEdge (g : NodeAutomaton A) (q r : Nat) :
    Except PyErr (Option (EdgeDesc (Option A)) × Bool × NodeAutomaton A) := do
  let a := g.symbol r
  let adjQ ← g.a.adj.getE q
  if adjQ.contains a then .ok (none, false, g)
  else .ok (some ⟨q, r, a⟩, true, ⟨{ g.a with adj := g.a.adj.set q (adjQ.set a r) }, g.symbols⟩)

/-- `out_edges`, node_automaton.py:135-149. -/
def outEdges (g : NodeAutomaton A) (q : Nat) : Except PyErr (List (EdgeDesc (Option A))) := do
  let adjQ ← g.a.adj.getE q
  .ok (adjQ.map fun p => ⟨q, p.2, p.1⟩)

/-- `remove_edge`, node_automaton.py:151-165. -/
def removeEdge (g : NodeAutomaton A) (e : EdgeDesc (Option A)) : NodeAutomaton A :=
  let a := g.symbol e.target
  match g.a.adj.get? e.source with
  | none => g
  | some adjQ =>
    if adjQ.contains a then ⟨{ g.a with adj := g.a.adj.set e.source (adjQ.erase a) }, g.symbols⟩ else g

/-- `Graph.remove_vertex` (inherited), graph.py:177-197. -/
def removeVertex (g : NodeAutomaton A) (u : Nat) : Except PyErr (NodeAutomaton A) := do
  let g := (g.edges.filter fun e => u = e.target).foldl removeEdge g
  let es ← g.outEdges u
  let g := es.foldl removeEdge g
  let adj ← g.a.adj.delE u
  .ok ⟨{ g.a with adj }, g.symbols⟩

/-- `Graph.clear` (inherited), graph.py:199-206: `pmap_vsymbol` is not reset. -/
def clear (g : NodeAutomaton A) : Except PyErr (NodeAutomaton A) :=
  let g := { g with a := { g.a with lastVertexId := 0 } }
  g.vertices.foldlM removeVertex g

/-- `edge`, node_automaton.py:96-118. -/
def edge (g : NodeAutomaton A) (q r : Nat) : Option (EdgeDesc (Option A)) × Bool :=
  match (g.a.adj.getD q []).find? (fun p => p.2 = r) with
  | some p => (some ⟨q, r, p.1⟩, true)
  | none => (none, false)

/-- `sigma`, node_automaton.py:167-181, on a state. -/
def sigma (g : NodeAutomaton A) (q : Nat) : List (Option A) := mkSet (g.a.adj.getD q []).keys

/-- `alphabet`, node_automaton.py:183-195. -/
def alphabet (g : NodeAutomaton A) : List (Option A) :=
  mkSet ((g.vertices.filter fun q => !g.a.isInitial q).map g.symbol)

/-- `label`, node_automaton.py:211-224. -/
def label (g : NodeAutomaton A) (e : EdgeDesc (Option A)) : Option A := g.symbol e.target

/-- `delta_word` (automaton.py:328-346) with the `delta` of node automata, which raises `KeyError` on an unknown state. -/
def deltaWord (g : NodeAutomaton A) : Option Nat → List A → Except PyErr (Option Nat)
  | q, [] => .ok q
  | none, _ :: _ => .ok none
  | some q, a :: w => do deltaWord g (← g.delta q (some a)) w

/-- `accepts`, inherited from automaton.py:348-363. -/
def accepts (g : NodeAutomaton A) (w : List A) : Except PyErr Bool := do
  match ← g.deltaWord g.a.initial w with
  | none => .ok false
  | some q => .ok (g.a.isFinal q)

end NodeAutomaton

/-! ## `make_node_automaton`, node_automaton.py:262-336 -/

/-- `vertex_names`, node_automaton.py:313-318. -/
def nodeNames {N : Type} [DecidableEq N] (le : N → N → Bool) (ts : List (N × N)) : List N :=
  (mkSet (ts.map (fun t => t.1) ++ ts.map (fun t => t.2))).mergeSort le

/-- Body of the loop over the names, node_automaton.py:324-328. Line 327 reads `pmap_vfinal` at the number `u` of the new
state, whereas `pmap_vfinal` is indexed by names: `ofInt u` is this number used as a name. -/
def makeNode {A N : Type} [DecidableEq A] (ofInt : Nat → N) (vlabel : N → Option A) (vfinal : N → Bool)
    (g : NodeAutomaton A) (n : N) : NodeAutomaton A :=
  let (u, g) := g.addVertex (vlabel n)
  if vfinal (ofInt u) then ⟨g.a.setFinal u, g.symbols⟩ else g

/-- Body of the loop over the transitions, node_automaton.py:329-332. -/
def makeNodeEdge {A N : Type} [DecidableEq A] [DecidableEq N] (names : List N) (g : NodeAutomaton A) (t : N × N) :
    Except PyErr (NodeAutomaton A) := do
  let q ← nameIndex names t.1
  let r ← nameIndex names t.2
  let (_, _, g) ← g.addEdge q r
  .ok g

/-- `make_node_automaton`, node_automaton.py:262-336. The default value `None` of `pmap_vlabel` cannot be indexed
(`TypeError` on line 325). -/
def makeNodeAutomaton {A N : Type} [DecidableEq A] [DecidableEq N] (le : N → N → Bool) (ofInt : Nat → N)
    (ts : List (N × N)) (vlabel : Option (N → Option A)) (q0n : N) (vfinal : N → Bool) :
    Except PyErr (NodeAutomaton A) := do
  let names := nodeNames le ts
  let g ← match vlabel with
    | none => if names = [] then .ok NodeAutomaton.empty else .error .typeError
    | some vlabel => .ok (names.foldl (makeNode ofInt vlabel vfinal) NodeAutomaton.empty)
  let g ← ts.foldlM (makeNodeEdge names) g
  if g.vertices = [] then .ok g else do
    let q0 ← nameIndex names q0n
    .ok ⟨g.a.setInitial q0, g.symbols⟩

/-- State of an `IncidenceNodeAutomaton`, incidence_node_automaton.py:17-28: `predecessors` is a
`defaultdict(set)`. -/
structure INodeAutomaton (A : Type) where
  n : NodeAutomaton A
  pred : Dict Nat (List Nat)
  deriving Repr

namespace INodeAutomaton
variable {A : Type} [DecidableEq A]

/-- incidence_node_automaton.py:27-28. -/
def empty : INodeAutomaton A := ⟨.empty, []⟩

/-- `add_vertex`, inherited from node_automaton.py:49-53. -/
def addVertex (g : INodeAutomaton A) (a : Option A) : Nat × INodeAutomaton A :=
  let (u, n) := g.n.addVertex a
  (u, ⟨n, g.pred⟩)

/-- `add_edge`, incidence_node_automaton.py:31-36. -/
def addEdge (g : INodeAutomaton A) (q r : Nat) :
    Except PyErr (Option (EdgeDesc (Option A)) × Bool × INodeAutomaton A) := do
  let (e, added, n) ← g.n.addEdge q r
  if added then .ok (e, added, ⟨n, g.pred.set r (setAdd (g.pred.getD r []) q)⟩)
  else .ok (e, added, ⟨n, g.pred⟩)

/-- `in_edges`, incidence_node_automaton.py:38-43. -/
def inEdges (g : INodeAutomaton A) (r : Nat) : List (EdgeDesc (Option A)) :=
  (g.pred.getD r []).map fun q => ⟨q, r, g.n.symbol r⟩

/-- Body of the loop of incidence_node_automaton.py:60-64. -/
def dropPred (q : Nat) (pred : Dict Nat (List Nat)) (e : EdgeDesc (Option A)) : Dict Nat (List Nat) :=
  pred.set e.target (setDiscard (pred.getD e.target []) q)

/-- First half of `remove_vertex` (removal of the in-edges), incidence_node_automaton.py:51-57. -/
def dropIn (g : INodeAutomaton A) (q : Nat) :
    Except PyErr (Dict Nat (Dict (Option A) Nat) × Dict Nat (List Nat)) :=
  if g.pred.contains q then do
    let adj ← (g.inEdges q).foldlM
      (fun adj e => IAutomaton.delTransition adj e.source (g.n.symbol q)) g.n.a.adj
    .ok (adj, g.pred.erase q)
  else .ok (g.n.a.adj, g.pred)

/-- `remove_vertex`, incidence_node_automaton.py:45-65. The first loop iterates over `predecessors[q]` and
modifies only `adjacencies`; the second iterates over `adjacencies[q]` and modifies only
`predecessors`. -/
def removeVertex (g : INodeAutomaton A) (q : Nat) : Except PyErr (INodeAutomaton A) := do
  let (adj, pred) ← g.dropIn q
  if adj.contains q then do
    let es ← (⟨{ g.n.a with adj }, g.n.symbols⟩ : NodeAutomaton A).outEdges q
    let pred := es.foldl (dropPred q) pred
    let adj ← adj.delE q
    .ok ⟨⟨{ g.n.a with adj }, g.n.symbols⟩, pred⟩
  else .ok ⟨⟨{ g.n.a with adj }, g.n.symbols⟩, pred⟩

/-- `remove_edge`, incidence_node_automaton.py:67-72. -/
def removeEdge (g : INodeAutomaton A) (e : EdgeDesc (Option A)) : Except PyErr (INodeAutomaton A) := do
  let n := g.n.removeEdge e
  let s ← setRemoveE (g.pred.getD e.target []) e.source
  .ok ⟨n, g.pred.set e.target s⟩

/-- `Graph.clear` (inherited), graph.py:199-206. -/
def clear (g : INodeAutomaton A) : Except PyErr (INodeAutomaton A) :=
  let g := { g with n := { g.n with a := { g.n.a with lastVertexId := 0 } } }
  g.n.vertices.foldlM removeVertex g

end INodeAutomaton

/-- Mutating methods of the node automata. -/
inductive NOp (A : Type) where
  | addVertex (a : Option A)
  | addEdge (q r : Nat)
  | removeEdge (e : EdgeDesc (Option A))
  | removeVertex (q : Nat)
  | setInitial (q : Nat) (b : Bool)
  | setFinal (q : Nat) (b : Bool)
  deriving Repr

/-- Effect of a call on a `NodeAutomaton`. -/
def NodeAutomaton.exec {A : Type} [DecidableEq A] (g : NodeAutomaton A) : NOp A → Except PyErr (NodeAutomaton A)
  | .addVertex a => .ok (g.addVertex a).2
  | .addEdge q r => (g.addEdge q r).map (·.2.2)
  | .removeEdge e => .ok (g.removeEdge e)
  | .removeVertex q => g.removeVertex q
  | .setInitial q b => .ok ⟨g.a.setInitial q b, g.symbols⟩
  | .setFinal q b => .ok ⟨g.a.setFinal q b, g.symbols⟩

/-- Effect of a call on an `IncidenceNodeAutomaton`. -/
def INodeAutomaton.exec {A : Type} [DecidableEq A] (g : INodeAutomaton A) :
    NOp A → Except PyErr (INodeAutomaton A)
  | .addVertex a => .ok (g.addVertex a).2
  | .addEdge q r => (g.addEdge q r).map (·.2.2)
  | .removeEdge e => g.removeEdge e
  | .removeVertex q => g.removeVertex q
  | .setInitial q b => .ok ⟨⟨g.n.a.setInitial q b, g.n.symbols⟩, g.pred⟩
  | .setFinal q b => .ok ⟨⟨g.n.a.setFinal q b, g.n.symbols⟩, g.pred⟩

end PyBGL
