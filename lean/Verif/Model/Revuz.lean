import Verif.Model.Prune

/-!
# Model of `revuz_minimize.py`
-/

namespace PyBGL

/-! ## `revuz_height` -/

section Height
variable {V E : Type} [DecidableEq V]

/-- The variables of `revuz_height`: `pmap_vheight`, `vertices_to_process`, `h`. -/
structure HeightState (V : Type) where
  pmap : Dict V Nat
  todo : List V
  h : Nat

/-- `leaves if leaves else {q for q in g.vertices() if g.out_degree(q) == 0}`, revuz_minimize.py:98-102, 205-209: an empty set of
leaves stands for none. -/
def revuzLeaves (g : GraphI V E) (leaves : List V) : List V :=
  if leaves = [] then mkSet (g.vertices.filter fun q => (g.outEdges q).length = 0) else leaves

/-- One iteration of the loop of revuz_minimize.py:104-114; `ord t` enumerates `vertices_to_process`. -/
def heightStep (ord : SetOracle V) (g : GraphI V E) (t : Nat) (s : HeightState V) : Step (HeightState V) (Dict V Nat × Int) :=
  match ord t s.todo with
  | [] => .done (s.pmap, (s.h : Int) - 1)
  | vs => .next ⟨vs.foldl (fun pmap v => pmap.set v s.h) s.pmap, mkSet (vs.flatMap fun v => (g.inEdges v).map g.source), s.h + 1⟩

/-- `revuz_height`, revuz_minimize.py:76-115. The property map `pmap_vheight` is handed over as `pmap` and returned with the maximum height. -/
def revuzHeight (ord : SetOracle V) (g : GraphI V E) (leaves : List V) (pmap : Dict V Nat) (fuel : Nat) :
    Option (Except PyErr (Dict V Nat × Int)) :=
  loop (heightStep ord g) fuel 0 ⟨pmap, revuzLeaves g leaves, 0⟩

end Height

/-! ## `revuz_minimize` on an `IncidenceAutomaton` -/

namespace Revuz
variable {A : Type} [DecidableEq A]

/-- A signature, revuz_minimize.py:166-176: the finality and the set of the labelled successors. The second component of the tuple is
`None` for every state of an `IncidenceAutomaton` (without `pmap_vlabel`) and is dropped. -/
abbrev Sig (A : Type) := Bool × List (A × Nat)

/-- `_make_signature`, revuz_minimize.py:166-176. -/
def signature (g : IAutomaton A) (q : Nat) : Sig A := (g.a.isFinal q, (g.a.outEdges q).map fun e => (e.distinguisher, e.target))

/-- Equality of signatures: frozensets are compared as sets. -/
def sameSig (s t : Sig A) : Bool := (s.1 == t.1) && s.2.all (· ∈ t.2) && t.2.all (· ∈ s.2)

/-- `map_aggregates[s].add(q)`, revuz_minimize.py:215-219. -/
def groupInsert (s : Sig A) (q : Nat) : List (Sig A × List Nat) → List (Sig A × List Nat)
  | [] => [(s, [q])]
  | (s', qs) :: rest => if sameSig s' s then (s', setAdd qs q) :: rest else (s', qs) :: groupInsert s q rest

/-- `map_aggregates`, revuz_minimize.py:213-219. -/
def aggregates (g : IAutomaton A) (qs : List Nat) : List (Sig A × List Nat) :=
  qs.foldl (fun gs q => groupInsert (signature g q) q gs) []

/-- `_move_edge(e2, p, q1)` where `p = g.source(e2)`, revuz_minimize.py:178-201, 231-234. -/
def moveEdge (q1 : Nat) (g : IAutomaton A) (e : EdgeDesc A) : Except PyErr (IAutomaton A) :=
  match g.removeEdge e with
  | .error err => .error err
  | .ok g =>
    match g.addEdge e.source q1 e.distinguisher with
    | .error err => .error err
    | .ok (_, _, g) => .ok g

/-- Merging `q2` into `q1`, revuz_minimize.py:228-239; `ordE q2` enumerates the set of the in-edges of `q2`. -/
def mergeInto (ordE : SetOracle (EdgeDesc A)) (q1 : Nat) (g : IAutomaton A) (q2 : Nat) : Except PyErr (IAutomaton A) :=
  match (ordE q2 (g.inEdges q2)).foldlM (moveEdge q1) g with
  | .error err => .error err
  | .ok g => g.removeVertex q2

/-- The body of the loop over the aggregates, revuz_minimize.py:221-239. -/
def mergeGroup (ordE : SetOracle (EdgeDesc A)) (g : IAutomaton A) (qs : List Nat) : Except PyErr (IAutomaton A) :=
  match qs.mergeSort with
  | [] => .ok g
  | q1 :: rest => rest.foldlM (mergeInto ordE q1) g

/-- The variables of the main loop. -/
structure State (A : Type) where
  g : IAutomaton A
  todo : List Nat
  h : Nat

/-- `{g.source(e) for q in to_process for e in g.in_edges(q) if pmap_vheight[g.source(e)] == h + 1}`, revuz_minimize.py:241-246;
`pmap_vheight` is backed by a `defaultdict(int)`. -/
def parents (pmap : Dict Nat Nat) (g : IAutomaton A) (qs : List Nat) (h : Nat) : List Nat :=
  mkSet (qs.flatMap fun q => ((g.inEdges q).map EdgeDesc.source).filter fun p => pmap.getD p 0 = h + 1)

/-- One iteration of the main loop, revuz_minimize.py:212-247; `ord t` enumerates `to_process` (it is enumerated twice in an iteration,
without being modified: in the same order). -/
def step (ord : SetOracle Nat) (ordE : Nat → SetOracle (EdgeDesc A)) (pmap : Dict Nat Nat) (t : Nat) (s : State A) :
    Step (State A) (IAutomaton A × Int) :=
  match ord t s.todo with
  | [] => .done (s.g, (s.h : Int) - 1)
  | qs =>
    match (aggregates s.g qs).foldlM (fun g p => mergeGroup (ordE t) g p.2) s.g with
    | .error e => .fail e
    | .ok g => .next ⟨g, parents pmap g qs s.h, s.h + 1⟩

/-- `revuz_minimize`, revuz_minimize.py:118-248, without property maps nor visitor. -/
def minimize (ord ordH : SetOracle Nat) (ordE : Nat → SetOracle (EdgeDesc A)) (g : IAutomaton A) (leaves : List Nat) (fuel : Nat) :
    Option (Except PyErr (IAutomaton A × Int)) :=
  match revuzHeight ordH g.toI [] [] fuel with
  | none => none
  | some (.error e) => some (.error e)
  | some (.ok (pmap, _)) => loop (step ord ordE pmap) fuel 0 ⟨g, revuzLeaves g.toI leaves, 0⟩

end Revuz
end PyBGL
