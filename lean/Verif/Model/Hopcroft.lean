import Verif.Model.Automaton
import Verif.Model.Prune

/-!
# Model of `hopcroft_minimize.py`

A frozenset of states is represented by the list of its elements in the order of `g.vertices()`; the operations `x & y` and `y - x` below keep that
order, so that two frozensets are equal iff the lists are. A set of frozensets is a list without duplicates whose enumeration is left to an oracle.
-/

namespace PyBGL
variable {A : Type} [DecidableEq A]

/-- The enumerations of sets on which `hopcroft_minimize` depends: `waiting_states.pop()` (hopcroft_minimize.py:40), `for a in g_alphabet`
(line 41), `for y in aggregated_states` (line 50), `list(aggregated_states)` (line 77), `for q in qs` (line 115). -/
structure HopcroftOrd (A : Type) where
  pop : SetOracle (List Nat)
  alphabet : SetOracle A
  blocks : A → SetOracle (List Nat)
  result : SetOracle (List Nat)
  states : SetOracle Nat

/-- Every enumeration yields each element exactly once. -/
structure HopcroftOrd.Valid (ord : HopcroftOrd A) : Prop where
  pop : ord.pop.Valid
  alphabet : ord.alphabet.Valid
  blocks : ∀ a, (ord.blocks a).Valid
  result : ord.result.Valid
  states : ord.states.Valid

/-- `x`, hopcroft_minimize.py:26-27, 42-48: `reduce` over no set at all raises `TypeError`. -/
def hopcroftPre (g : IAutomaton A) (a : A) (current : List Nat) : Except PyErr (List Nat) :=
  match current with
  | [] => .error .typeError
  | _ => .ok (mkSet (current.flatMap fun r => ((g.inEdges r).filter fun e => e.distinguisher = a).map EdgeDesc.source))

/-- `x & y`. -/
def blockAnd (x y : List Nat) : List Nat := y.filter (· ∈ x)

/-- `y - x`. -/
def blockDiff (x y : List Nat) : List Nat := y.filter (· ∉ x)

/-- The body of the loop over the aggregates, hopcroft_minimize.py:51-60. The state is `(new_aggregated_states, waiting_states)`. -/
def hopcroftSplit (x : List Nat) (s : List (List Nat) × List (List Nat)) (y : List Nat) :
    Except PyErr (List (List Nat) × List (List Nat)) :=
  if 0 < (blockAnd x y).length ∧ 0 < (blockDiff x y).length then
    match setRemoveE s.1 y with
    | .error e => .error e
    | .ok new =>
      if y ∈ s.2 then .ok (setUnion new [blockAnd x y, blockDiff x y], setUnion (setDiscard s.2 y) [blockAnd x y, blockDiff x y])
      else if (blockAnd x y).length ≤ (blockDiff x y).length then .ok (setUnion new [blockAnd x y, blockDiff x y], setAdd s.2 (blockAnd x y))
      else .ok (setUnion new [blockAnd x y, blockDiff x y], setAdd s.2 (blockDiff x y))
  else .ok s

/-- The body of the loop over the alphabet, hopcroft_minimize.py:42-61. -/
def hopcroftSymbol (ord : HopcroftOrd A) (g : IAutomaton A) (t : Nat) (current : List Nat) (s : List (List Nat) × List (List Nat)) (a : A) :
    Except PyErr (List (List Nat) × List (List Nat)) :=
  match hopcroftPre g a current with
  | .error e => .error e
  | .ok x => (ord.blocks a t s.1).foldlM (hopcroftSplit x) s

/-- One iteration of the main loop, hopcroft_minimize.py:39-61. -/
def hopcroftStep (ord : HopcroftOrd A) (g : IAutomaton A) (t : Nat) (s : List (List Nat) × List (List Nat)) :
    Step (List (List Nat) × List (List Nat)) (List (List Nat)) :=
  match ord.pop t s.2 with
  | [] => .done s.1
  | current :: _ =>
    match (ord.alphabet t g.a.alphabet).foldlM (hopcroftSymbol ord g t current) (s.1, setDiscard s.2 current) with
    | .error e => .fail e
    | .ok s => .next s

/-- The initial partition, hopcroft_minimize.py:30-38. -/
def hopcroftInit (g : IAutomaton A) : List (List Nat) :=
  mkSet [g.a.vertices.filter fun q => g.a.isFinal q, g.a.vertices.filter fun q => !g.a.isFinal q]

/-- `hopcroft_agglomerate_states`, hopcroft_minimize.py:13-62. -/
def hopcroftAgglomerate (ord : HopcroftOrd A) (g : IAutomaton A) (fuel : Nat) : Option (Except PyErr (List (List Nat))) :=
  loop (hopcroftStep ord g) fuel 0 (hopcroftInit g, hopcroftInit g)

/-- Exchange of the first and the `i`-th element, hopcroft_minimize.py:87-92. -/
def swapFirst (l : List (List Nat)) (i : Nat) : List (List Nat) := (l.set 0 (l.getD i [])).set i (l.getD 0 [])

/-- The aggregate of `r`, hopcroft_minimize.py:119-122: the last aggregate when none contains `r`. -/
def blockOf (l : List (List Nat)) (r : Nat) : List Nat := (l.find? fun rs => r ∈ rs).getD (l.getLastD [])

/-- The automaton before its transitions are added, hopcroft_minimize.py:94-113 (`map_set_idx[qs]` is the position of `qs`). -/
def hopcroftStates (g : IAutomaton A) (l : List (List Nat)) : IAutomaton A :=
  let m : IAutomaton A := IAutomaton.init l.length
  ⟨{ m.a with q0 := some 0, final := l.map fun qs => (l.idxOf qs, qs.any g.a.isFinal) }, m.inAdj⟩

/-- The transitions in the order in which hopcroft_minimize.py:114-118 enumerates them, with the aggregate of their source. -/
def hopcroftEdges (ord : HopcroftOrd A) (g : IAutomaton A) (l : List (List Nat)) : List (List Nat × EdgeDesc A) :=
  l.flatMap fun qs => (ord.states (l.idxOf qs) qs).flatMap fun q => (g.a.outEdges q).map fun e => (qs, e)

/-- hopcroft_minimize.py:123. -/
def hopcroftAddEdge (l : List (List Nat)) (m : IAutomaton A) (x : List Nat × EdgeDesc A) : Except PyErr (IAutomaton A) :=
  (m.addEdge (l.idxOf x.1) (l.idxOf (blockOf l x.2.target)) x.2.distinguisher).map (·.2.2)

/-- Construction of the minimised automaton from the aggregates, hopcroft_minimize.py:79-124. -/
def hopcroftBuild (ord : HopcroftOrd A) (g : IAutomaton A) (l : List (List Nat)) : Except PyErr (IAutomaton A) :=
  match l.findIdx? fun qs => qs.any g.a.isInitial with
  | none => .error .assertionError
  | some i => (hopcroftEdges ord g (swapFirst l i)).foldlM (hopcroftAddEdge (swapFirst l i)) (hopcroftStates g (swapFirst l i))

/-- `hopcroft_minimize`, hopcroft_minimize.py:65-124. -/
def hopcroftMinimize (ord : HopcroftOrd A) (g : IAutomaton A) (fuel : Nat) : Option (Except PyErr (IAutomaton A)) :=
  if g.a.vertices = [] then some (.ok g)
  else
    match hopcroftAgglomerate ord g fuel with
    | none => none
    | some (.error e) => some (.error e)
    | some (.ok p) => some (hopcroftBuild ord g (ord.result 0 p))

end PyBGL
