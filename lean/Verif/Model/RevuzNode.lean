import Verif.Model.Revuz
import Verif.Model.NodeAutomaton

/-!
# `revuz_minimize` on any class of automata

`revuz_minimize.py` handles `IncidenceAutomaton` and `IncidenceNodeAutomaton` (and their property maps) by dynamic dispatch and by
`isinstance` tests. The operations it uses are gathered in a record, which is filled for each of the two classes.
-/

namespace PyBGL

/-- The interface used by the traversals, on an `IncidenceNodeAutomaton`. -/
def INodeAutomaton.toI {A : Type} [DecidableEq A] (g : INodeAutomaton A) : GraphI Nat (EdgeDesc (Option A)) where
  vertices := g.n.vertices
  edges := g.n.edges
  outEdges := g.n.a.outEdges
  inEdges := g.inEdges
  source := EdgeDesc.source
  target := EdgeDesc.target

namespace RevuzG

/-- What `revuz_minimize` needs to know of `g` (of type `G`, with labels in `B`) and of the property maps (`pmap_vlabel` has
values in `L`). -/
structure Ops (G B L : Type) where
  /-- states, transitions and final states -/
  aut : G → Automaton B
  /-- `pmap_vlabel[q]`, or `None`, revuz_minimize.py:155-156, 169 -/
  vlabel : G → Nat → L
  /-- `pmap_elabel[e]`, revuz_minimize.py:157-163, 172 -/
  elabel : G → EdgeDesc B → B
  inEdges : G → Nat → List (EdgeDesc B)
  removeEdge : G → EdgeDesc B → Except PyErr G
  /-- `g.add_edge(q, r)` or `g.add_edge(q, r, a)`, revuz_minimize.py:197-200 -/
  addEdge : G → Nat → Nat → B → Except PyErr G
  removeVertex : G → Nat → Except PyErr G

/-- The graph interface of `g`, on which `revuz_height` runs. -/
def Ops.toI {G B L : Type} (o : Ops G B L) (g : G) : GraphI Nat (EdgeDesc B) where
  vertices := (o.aut g).vertices
  edges := (o.aut g).edges
  outEdges := (o.aut g).outEdges
  inEdges := o.inEdges g
  source := EdgeDesc.source
  target := EdgeDesc.target

/-- The operations of an `IncidenceAutomaton`, with the property map `pmap_vlabel` given (or not: a constant map). -/
def autOps {A L : Type} [DecidableEq A] (vlabel : Nat → L) : Ops (IAutomaton A) A L where
  aut := IAutomaton.a
  vlabel := fun _ => vlabel
  elabel := fun _ e => e.distinguisher
  inEdges := fun g q => g.inEdges q
  removeEdge := IAutomaton.removeEdge
  addEdge := fun g q r a => (g.addEdge q r a).map (·.2.2)
  removeVertex := IAutomaton.removeVertex

/-- The operations of an `IncidenceNodeAutomaton`, without property maps: `pmap_vlabel` is `g.symbol`, and the label of an edge is the symbol of
its target, revuz_minimize.py:155-163. -/
def nodeOps {A : Type} [DecidableEq A] : Ops (INodeAutomaton A) (Option A) (Option A) where
  aut := fun g => g.n.a
  vlabel := fun g q => g.n.symbol q
  elabel := fun g e => g.n.symbol e.target
  inEdges := fun g q => g.inEdges q
  removeEdge := INodeAutomaton.removeEdge
  addEdge := fun g q r _ => (g.addEdge q r).map (·.2.2)
  removeVertex := INodeAutomaton.removeVertex

variable {G B L : Type} [DecidableEq B] [DecidableEq L]

/-- A signature, revuz_minimize.py:166-176: the finality, the label and the set of the labelled successors. -/
abbrev Sig (B L : Type) := (Bool × L) × List (B × Nat)

/-- `_make_signature`, revuz_minimize.py:166-176. -/
def signature (o : Ops G B L) (g : G) (q : Nat) : Sig B L :=
  (((o.aut g).isFinal q, o.vlabel g q), ((o.aut g).outEdges q).map fun e => (o.elabel g e, e.target))

/-- Equality of signatures: frozensets are compared as sets. -/
def sameSig (s t : Sig B L) : Bool := (s.1 == t.1) && s.2.all (· ∈ t.2) && t.2.all (· ∈ s.2)

/-- `map_aggregates[s].add(q)`, revuz_minimize.py:215-219. -/
def groupInsert (s : Sig B L) (q : Nat) : List (Sig B L × List Nat) → List (Sig B L × List Nat)
  | [] => [(s, [q])]
  | (s', qs) :: rest => if sameSig s' s then (s', setAdd qs q) :: rest else (s', qs) :: groupInsert s q rest

/-- `map_aggregates`, revuz_minimize.py:213-219. -/
def aggregates (o : Ops G B L) (g : G) (qs : List Nat) : List (Sig B L × List Nat) :=
  qs.foldl (fun gs q => groupInsert (signature o g q) q gs) []

/-- `_move_edge(e2, p, q1)` where `p = g.source(e2)`, revuz_minimize.py:178-201, 231-234. -/
def moveEdge (o : Ops G B L) (q1 : Nat) (g : G) (e : EdgeDesc B) : Except PyErr G :=
  let a := o.elabel g e
  match o.removeEdge g e with
  | .error err => .error err
  | .ok g => o.addEdge g e.source q1 a

/-- Merging `q2` into `q1`, revuz_minimize.py:228-239; `ordE q2` enumerates the set of the in-edges of `q2`. -/
def mergeInto (o : Ops G B L) (ordE : SetOracle (EdgeDesc B)) (q1 : Nat) (g : G) (q2 : Nat) : Except PyErr G :=
  match (ordE q2 (o.inEdges g q2)).foldlM (moveEdge o q1) g with
  | .error err => .error err
  | .ok g => o.removeVertex g q2

/-- The body of the loop over the aggregates, revuz_minimize.py:221-239. -/
def mergeGroup (o : Ops G B L) (ordE : SetOracle (EdgeDesc B)) (g : G) (qs : List Nat) : Except PyErr G :=
  match qs.mergeSort with
  | [] => .ok g
  | q1 :: rest => rest.foldlM (mergeInto o ordE q1) g

/-- The variables of the main loop. -/
structure State (G : Type) where
  g : G
  todo : List Nat
  h : Nat

/-- `{g.source(e) for q in to_process for e in g.in_edges(q) if pmap_vheight[g.source(e)] == h + 1}`, revuz_minimize.py:241-246. -/
def parents (o : Ops G B L) (pmap : Dict Nat Nat) (g : G) (qs : List Nat) (h : Nat) : List Nat :=
  mkSet (qs.flatMap fun q => ((o.inEdges g q).map EdgeDesc.source).filter fun p => pmap.getD p 0 = h + 1)

/-- One iteration of the main loop, revuz_minimize.py:212-247; `ord t` enumerates `to_process`. -/
def step (o : Ops G B L) (ord : SetOracle Nat) (ordE : Nat → SetOracle (EdgeDesc B)) (pmap : Dict Nat Nat) (t : Nat) (s : State G) :
    Step (State G) (G × Int) :=
  match ord t s.todo with
  | [] => .done (s.g, (s.h : Int) - 1)
  | qs =>
    match (aggregates o s.g qs).foldlM (fun g p => mergeGroup o (ordE t) g p.2) s.g with
    | .error e => .fail e
    | .ok g => .next ⟨g, parents o pmap g qs s.h, s.h + 1⟩

/-- `revuz_minimize`, revuz_minimize.py:118-248. -/
def minimize (o : Ops G B L) (ord ordH : SetOracle Nat) (ordE : Nat → SetOracle (EdgeDesc B)) (g : G)
    (leaves : List Nat) (fuel : Nat) : Option (Except PyErr (G × Int)) :=
  match revuzHeight ordH (o.toI g) [] [] fuel with
  | none => none
  | some (.error e) => some (.error e)
  | some (.ok (pmap, _)) => loop (step o ord ordE pmap) fuel 0 ⟨g, revuzLeaves (o.toI g) leaves, 0⟩

end RevuzG

/-- `revuz_minimize` on an `IncidenceNodeAutomaton`, without property maps. -/
def INodeAutomaton.revuzMinimize {A : Type} [DecidableEq A] (ord ordH : SetOracle Nat) (ordE : Nat → SetOracle (EdgeDesc (Option A)))
    (g : INodeAutomaton A) (leaves : List Nat) : Nat → Option (Except PyErr (INodeAutomaton A × Int)) :=
  RevuzG.minimize RevuzG.nodeOps ord ordH ordE g leaves

/-- `revuz_minimize` on an `IncidenceAutomaton` with a property map `pmap_vlabel`. -/
def IAutomaton.revuzMinimize {A L : Type} [DecidableEq A] [DecidableEq L] (vlabel : Nat → L) (ord ordH : SetOracle Nat)
    (ordE : Nat → SetOracle (EdgeDesc A)) (g : IAutomaton A) (leaves : List Nat) : Nat → Option (Except PyErr (IAutomaton A × Int)) :=
  RevuzG.minimize (RevuzG.autOps vlabel) ord ordH ordE g leaves

end PyBGL
