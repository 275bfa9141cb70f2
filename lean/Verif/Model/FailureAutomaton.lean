import Verif.Prelude.PyM
import Verif.Model.NodeAutomaton
import Verif.Spec.Language

/-!
# The mutators of the automata, statement by statement

As in `Verif.Model.Failure`, the state left behind by an exception is described too. `Automaton.remove_edge` (automaton.py:154-167) and `NodeAutomaton.remove_edge` (node_automaton.py:151-165)
never raise.
-/

namespace PyBGL
variable {A : Type} [DecidableEq A]

/-! ## `automaton.py` -/

namespace Automaton

/-- `Automaton.add_edge`, automaton.py:73-95: `self.adjacencies[q]` is the only expression that may raise, and precedes the assignment. -/
def addEdgeM (q r : Nat) (a : A) : PyM (Automaton A) (Option (EdgeDesc A) × Bool) :=
  PyM.atomic fun g => (g.addEdge q r a).map fun t => ((t.1, t.2.1), t.2.2)

/-- `Automaton.remove_edge`, automaton.py:154-167. -/
def removeEdgeM (e : EdgeDesc A) : PyM (Automaton A) Unit := fun g => (.ok (), g.removeEdge e)

/-- `Graph.remove_vertex` (inherited), graph.py:177-197. -/
def removeVertexM (u : Nat) : PyM (Automaton A) Unit := do
  let g ← PyM.get
  PyM.each removeEdgeM (g.edges.filter fun e => u = e.target)
  let g ← PyM.get
  PyM.each removeEdgeM (g.outEdges u)
  let g ← PyM.get
  let adj ← PyM.lift (g.adj.delE u)
  PyM.put { g with adj }

/-- `Graph.clear` (inherited), graph.py:199-206. -/
def clearM : PyM (Automaton A) Unit := do
  let g ← PyM.get
  PyM.put { g with lastVertexId := 0 }
  PyM.each removeVertexM g.vertices

/-- The calls on an `Automaton`. -/
def execM : AOp A → PyM (Automaton A) Unit
  | .addVertex => fun g => (.ok (), g.addVertex.2)
  | .addEdge q r a => do let _ ← addEdgeM q r a; pure ()
  | .removeEdge e => removeEdgeM e
  | .removeVertex u => removeVertexM u
  | .setInitial q b => fun g => (.ok (), g.setInitial q b)
  | .setFinal q b => fun g => (.ok (), g.setFinal q b)
  | .clear => clearM

end Automaton

/-! ## `incidence_automaton.py` -/

namespace IAutomaton

/-- A method of `Automaton` called through `super()`. -/
def super {R : Type} (m : PyM (Automaton A) R) : PyM (IAutomaton A) R := PyM.on IAutomaton.a (fun s a => ⟨a, s.inAdj⟩) m

/-- `IncidenceAutomaton.add_edge`, incidence_automaton.py:35-45: the transition is added before `in_adjacencies[r]` is looked up. -/
def addEdgeM (q r : Nat) (a : A) : PyM (IAutomaton A) (Option (EdgeDesc A) × Bool) := do
  let p ← super (Automaton.addEdgeM q r a)
  if p.2 then do
    let g ← PyM.get
    let rInAdjs ← PyM.lift (g.inAdj.getE r)
    match rInAdjs.get? q with
    | none => PyM.put ⟨g.a, g.inAdj.set r (rInAdjs.set q [a])⟩
    | some s => PyM.put ⟨g.a, g.inAdj.set r (rInAdjs.set q (setAdd s a))⟩
    pure p
  else pure p

/-- `IncidenceAutomaton.remove_edge`, incidence_automaton.py:69-85: `adjacencies` is cleaned first. -/
def removeEdgeM (e : EdgeDesc A) : PyM (IAutomaton A) Unit := do
  super (Automaton.removeEdgeM e)
  let g ← PyM.get
  let inAdjsR ← PyM.lift (g.inAdj.getE e.target)
  let s ← PyM.lift (inAdjsR.getE e.source)
  if e.distinguisher ∈ s then
    let s' := setDiscard s e.distinguisher
    if s' = [] then PyM.put ⟨g.a, g.inAdj.set e.target (inAdjsR.erase e.source)⟩
    else PyM.put ⟨g.a, g.inAdj.set e.target (inAdjsR.set e.source s')⟩
  else pure ()

/-- Body of the first loop of `remove_vertex`, incidence_automaton.py:54-57. -/
def delTransitionM (e : EdgeDesc A) : PyM (IAutomaton A) Unit := do
  let g ← PyM.get
  let adj ← PyM.lift (delTransition g.a.adj e.source e.distinguisher)
  PyM.put ⟨{ g.a with adj }, g.inAdj⟩

/-- First half of `remove_vertex`, incidence_automaton.py:53-58. -/
def removeInM (q : Nat) : PyM (IAutomaton A) Unit := do
  let g ← PyM.get
  if g.inAdj.contains q then do
    PyM.each delTransitionM (g.inEdges q)
    let g ← PyM.get
    let inAdj ← PyM.lift (g.inAdj.delE q)
    PyM.put ⟨g.a, inAdj⟩
  else pure ()

/-- Body of the second loop of `remove_vertex`, incidence_automaton.py:62-66. -/
def dropInM (q : Nat) (e : EdgeDesc A) : PyM (IAutomaton A) Unit := do
  let g ← PyM.get
  let inAdj ← PyM.lift (dropIn q g.inAdj e)
  PyM.put ⟨g.a, inAdj⟩

/-- Second half of `remove_vertex`, incidence_automaton.py:61-67. -/
def removeOutM (q : Nat) : PyM (IAutomaton A) Unit := do
  let g ← PyM.get
  if g.a.adj.contains q then do
    PyM.each (dropInM q) (g.a.outEdges q)
    let g ← PyM.get
    let adj ← PyM.lift (g.a.adj.delE q)
    PyM.put ⟨{ g.a with adj }, g.inAdj⟩
  else pure ()

/-- `IncidenceAutomaton.remove_vertex`, incidence_automaton.py:47-67. -/
def removeVertexM (q : Nat) : PyM (IAutomaton A) Unit := do
  removeInM q
  removeOutM q

/-- `Graph.clear` (inherited), graph.py:199-206. -/
def clearM : PyM (IAutomaton A) Unit := do
  let g ← PyM.get
  PyM.put ⟨{ g.a with lastVertexId := 0 }, g.inAdj⟩
  PyM.each removeVertexM g.a.vertices

/-- The calls on an `IncidenceAutomaton`. -/
def execM : AOp A → PyM (IAutomaton A) Unit
  | .addVertex => fun g => (.ok (), g.addVertex.2)
  | .addEdge q r a => do let _ ← addEdgeM q r a; pure ()
  | .removeEdge e => removeEdgeM e
  | .removeVertex u => removeVertexM u
  | .setInitial q b => fun g => (.ok (), ⟨g.a.setInitial q b, g.inAdj⟩)
  | .setFinal q b => fun g => (.ok (), ⟨g.a.setFinal q b, g.inAdj⟩)
  | .clear => clearM

end IAutomaton

/-! ## `node_automaton.py` -/

namespace NodeAutomaton

/-- `NodeAutomaton.add_edge`, node_automaton.py:70-94: `self.adjacencies[q]` is the only expression that may raise, and precedes the assignment. -/
def addEdgeM (q r : Nat) : PyM (NodeAutomaton A) (Option (EdgeDesc (Option A)) × Bool) :=
  PyM.atomic fun g => (g.addEdge q r).map fun t => ((t.1, t.2.1), t.2.2)

/-- `NodeAutomaton.remove_edge`, node_automaton.py:151-165. -/
def removeEdgeM (e : EdgeDesc (Option A)) : PyM (NodeAutomaton A) Unit := fun g => (.ok (), g.removeEdge e)

/-- `Graph.remove_vertex` (inherited), graph.py:177-197: `out_edges(u)` (node_automaton.py:146-149) looks `u` up. -/
def removeVertexM (u : Nat) : PyM (NodeAutomaton A) Unit := do
  let g ← PyM.get
  PyM.each removeEdgeM (g.edges.filter fun e => u = e.target)
  let g ← PyM.get
  let es ← PyM.lift (g.outEdges u)
  PyM.each removeEdgeM es
  let g ← PyM.get
  let adj ← PyM.lift (g.a.adj.delE u)
  PyM.put ⟨{ g.a with adj }, g.symbols⟩

/-- The calls on a `NodeAutomaton`. -/
def execM : NOp A → PyM (NodeAutomaton A) Unit
  | .addVertex a => fun g => (.ok (), (g.addVertex a).2)
  | .addEdge q r => do let _ ← addEdgeM q r; pure ()
  | .removeEdge e => removeEdgeM e
  | .removeVertex u => removeVertexM u
  | .setInitial q b => fun g => (.ok (), ⟨g.a.setInitial q b, g.symbols⟩)
  | .setFinal q b => fun g => (.ok (), ⟨g.a.setFinal q b, g.symbols⟩)

end NodeAutomaton

/-! ## `incidence_node_automaton.py` -/

namespace INodeAutomaton

/-- A method of `NodeAutomaton` called through `super()`. -/
def super {R : Type} (m : PyM (NodeAutomaton A) R) : PyM (INodeAutomaton A) R := PyM.on INodeAutomaton.n (fun s n => ⟨n, s.pred⟩) m

/-- `IncidenceNodeAutomaton.add_edge`, incidence_node_automaton.py:31-36: `predecessors` is a `defaultdict`, so nothing raises once the transition is added. -/
def addEdgeM (q r : Nat) : PyM (INodeAutomaton A) (Option (EdgeDesc (Option A)) × Bool) := do
  let p ← super (NodeAutomaton.addEdgeM q r)
  if p.2 then do
    let g ← PyM.get
    PyM.put ⟨g.n, g.pred.set r (setAdd (g.pred.getD r []) q)⟩
    pure p
  else pure p

/-- `IncidenceNodeAutomaton.remove_edge`, incidence_node_automaton.py:67-72: `adjacencies` is cleaned first. (When the last line raises, the lookup in the `defaultdict` may have created an
empty set, which is the same as no entry for every method.) -/
def removeEdgeM (e : EdgeDesc (Option A)) : PyM (INodeAutomaton A) Unit := do
  super (NodeAutomaton.removeEdgeM e)
  let g ← PyM.get
  let s ← PyM.lift (setRemoveE (g.pred.getD e.target []) e.source)
  PyM.put ⟨g.n, g.pred.set e.target s⟩

/-- Body of the first loop of `remove_vertex`, incidence_node_automaton.py:53-55. -/
def delTransitionM (a : Option A) (e : EdgeDesc (Option A)) : PyM (INodeAutomaton A) Unit := do
  let g ← PyM.get
  let adj ← PyM.lift (IAutomaton.delTransition g.n.a.adj e.source a)
  PyM.put ⟨⟨{ g.n.a with adj }, g.n.symbols⟩, g.pred⟩

/-- First half of `remove_vertex`, incidence_node_automaton.py:51-56. -/
def removeInM (q : Nat) : PyM (INodeAutomaton A) Unit := do
  let g ← PyM.get
  if g.pred.contains q then do
    PyM.each (delTransitionM (g.n.symbol q)) (g.inEdges q)
    let g ← PyM.get
    PyM.put ⟨g.n, g.pred.erase q⟩
  else pure ()

/-- Body of the second loop of `remove_vertex`, incidence_node_automaton.py:60-64. -/
def dropPredM (q : Nat) (e : EdgeDesc (Option A)) : PyM (INodeAutomaton A) Unit := fun g => (.ok (), ⟨g.n, dropPred q g.pred e⟩)

/-- Second half of `remove_vertex`, incidence_node_automaton.py:59-65. -/
def removeOutM (q : Nat) : PyM (INodeAutomaton A) Unit := do
  let g ← PyM.get
  if g.n.a.adj.contains q then do
    let es ← PyM.lift (g.n.outEdges q)
    PyM.each (dropPredM q) es
    let g ← PyM.get
    let adj ← PyM.lift (g.n.a.adj.delE q)
    PyM.put ⟨⟨{ g.n.a with adj }, g.n.symbols⟩, g.pred⟩
  else pure ()

/-- `IncidenceNodeAutomaton.remove_vertex`, incidence_node_automaton.py:45-65. -/
def removeVertexM (q : Nat) : PyM (INodeAutomaton A) Unit := do
  removeInM q
  removeOutM q

/-- The calls on an `IncidenceNodeAutomaton`. -/
def execM : NOp A → PyM (INodeAutomaton A) Unit
  | .addVertex a => fun g => (.ok (), (g.addVertex a).2)
  | .addEdge q r => do let _ ← addEdgeM q r; pure ()
  | .removeEdge e => removeEdgeM e
  | .removeVertex u => removeVertexM u
  | .setInitial q b => fun g => (.ok (), ⟨⟨g.n.a.setInitial q b, g.n.symbols⟩, g.pred⟩)
  | .setFinal q b => fun g => (.ok (), ⟨⟨g.n.a.setFinal q b, g.n.symbols⟩, g.pred⟩)

end INodeAutomaton

end PyBGL
