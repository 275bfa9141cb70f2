import Verif.Model.RevuzNode

/-!
# The notifications of `revuz_minimize`

The functions of `RevuzNode.lean` again, with the calls to the methods of the visitor `vis`. A visitor that neither modifies the automaton nor raises
observes a list of calls; each is recorded with the automaton as it is when the method is called.
-/

namespace PyBGL.RevuzG

/-- The methods of `DefaultRevuzMinimizeVisitor`, revuz_minimize.py:18-74, and their arguments. -/
inductive Event (B : Type) where
  | mergingStates (q1 q2 : Nat)
  | moveTransition (eOld : EdgeDesc B) (eNew : Option (EdgeDesc B))
  | removeVertex (u : Nat)
  | statesMerged (q1 q2 : Nat)
  deriving DecidableEq, Repr

/-- The calls, in order, each with the automaton handed to the visitor. -/
abbrev Log (G B : Type) := List (Event B × G)

/-- The operations used by `revuz_minimize`, `add_edge` returning the descriptor of the new edge. -/
structure OpsV (G B L : Type) extends Ops G B L where
  /-- `(e_new, _) = g.add_edge(q, r)` or `g.add_edge(q, r, a)`, revuz_minimize.py:197-200 -/
  addEdgeV : G → Nat → Nat → B → Except PyErr (Option (EdgeDesc B) × G)

/-- The operations of an `IncidenceAutomaton`. -/
def autOpsV {A L : Type} [DecidableEq A] (vlabel : Nat → L) : OpsV (IAutomaton A) A L where
  toOps := autOps vlabel
  addEdgeV := fun g q r a => (g.addEdge q r a).map fun x => (x.1, x.2.2)

/-- The operations of an `IncidenceNodeAutomaton`. -/
def nodeOpsV {A : Type} [DecidableEq A] : OpsV (INodeAutomaton A) (Option A) (Option A) where
  toOps := nodeOps
  addEdgeV := fun g q r _ => (g.addEdge q r).map fun x => (x.1, x.2.2)

variable {G B L : Type} [DecidableEq B] [DecidableEq L]

/-- `_move_edge(e2, p, q1)`, revuz_minimize.py:178-201. -/
def moveEdgeV (o : OpsV G B L) (q1 : Nat) (s : G × Log G B) (e : EdgeDesc B) : Except PyErr (G × Log G B) :=
  let a := o.elabel s.1 e
  match o.removeEdge s.1 e with
  | .error err => .error err
  | .ok g =>
    match o.addEdgeV g e.source q1 a with
    | .error err => .error err
    | .ok (e', g) => .ok (g, s.2 ++ [(.moveTransition e e', g)])

/-- Merging `q2` into `q1`, revuz_minimize.py:228-239. -/
def mergeIntoV (o : OpsV G B L) (ordE : SetOracle (EdgeDesc B)) (q1 : Nat) (s : G × Log G B) (q2 : Nat) : Except PyErr (G × Log G B) :=
  match (ordE q2 (o.inEdges s.1 q2)).foldlM (moveEdgeV o q1) (s.1, s.2 ++ [(.mergingStates q1 q2, s.1)]) with
  | .error err => .error err
  | .ok (g, log) =>
    match o.removeVertex g q2 with
    | .error err => .error err
    | .ok g' => .ok (g', log ++ [(.removeVertex q2, g), (.statesMerged q1 q2, g')])

/-- The body of the loop over the aggregates, revuz_minimize.py:221-239. -/
def mergeGroupV (o : OpsV G B L) (ordE : SetOracle (EdgeDesc B)) (s : G × Log G B) (qs : List Nat) : Except PyErr (G × Log G B) :=
  match qs.mergeSort with
  | [] => .ok s
  | q1 :: rest => rest.foldlM (mergeIntoV o ordE q1) s

/-- The variables of the main loop, and the calls to the visitor. -/
structure StateV (G B : Type) where
  s : State G
  log : Log G B

/-- One iteration of the main loop, revuz_minimize.py:212-247. -/
def stepV (o : OpsV G B L) (ord : SetOracle Nat) (ordE : Nat → SetOracle (EdgeDesc B)) (pmap : Dict Nat Nat) (t : Nat) (s : StateV G B) :
    Step (StateV G B) (G × Int × Log G B) :=
  match ord t s.s.todo with
  | [] => .done (s.s.g, (s.s.h : Int) - 1, s.log)
  | qs =>
    match (aggregates o.toOps s.s.g qs).foldlM (fun x p => mergeGroupV o (ordE t) x p.2) (s.s.g, s.log) with
    | .error e => .fail e
    | .ok (g, log) => .next ⟨⟨g, parents o.toOps pmap g qs s.s.h, s.s.h + 1⟩, log⟩

/-- `revuz_minimize(g, pmap_vlabel, pmap_elabel, leaves, vis)`, revuz_minimize.py:118-248. -/
def minimizeV (o : OpsV G B L) (ord ordH : SetOracle Nat) (ordE : Nat → SetOracle (EdgeDesc B)) (g : G)
    (leaves : List Nat) (fuel : Nat) : Option (Except PyErr (G × Int × Log G B)) :=
  match revuzHeight ordH (o.toI g) [] [] fuel with
  | none => none
  | some (.error e) => some (.error e)
  | some (.ok (pmap, _)) => loop (stepV o ord ordE pmap) fuel 0 ⟨⟨g, revuzLeaves (o.toI g) leaves, 0⟩, []⟩

end PyBGL.RevuzG
