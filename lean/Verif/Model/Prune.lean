import Verif.Model.Automaton
import Verif.Model.DfsApps

/-!
# Model of `prune_incidence_automaton.py`
-/

namespace PyBGL

/-- The order in which Python enumerates a set is unspecified: `ord t s` is the enumeration of the set `s` at the point `t` of the
program. -/
abbrev SetOracle (α : Type) := Nat → List α → List α

/-- The only assumption made on the enumeration of sets: every element comes out exactly once. -/
def SetOracle.Valid {α : Type} (ord : SetOracle α) : Prop := ∀ t s, (ord t s).Perm s

/-- An `IncidenceAutomaton` seen through the graph interface (`out_edges`, `in_edges`: automaton.py:138-152,
incidence_automaton.py:87-93). -/
def IAutomaton.toI {A : Type} (g : IAutomaton A) : GraphI Nat (EdgeDesc A) where
  vertices := g.a.vertices
  edges := g.a.edges
  outEdges := g.a.outEdges
  inEdges := g.inEdges
  source := EdgeDesc.source
  target := EdgeDesc.target

/-- `find_reachable_vertices`, prune_incidence_automaton.py:15-28: the keys of the colour map filled by `depth_first_search_graph` with
the default visitor. -/
def findReachableVertices {V E : Type} [DecidableEq V] (g : GraphI V E) (sources : List V) (fuel : Nat) :
    Option (Except PyErr (List V)) :=
  (dfsGraph g sources (fun _ => true) (fun _ st => .ok st) [] () fuel).map (·.map (fun r => r.1.keys))

/-- prune_incidence_automaton.py:38. When `initial()` is `None`, the search starts from `None`, which has no out-edge, and marks no
state. -/
def reachedFromInitial {A : Type} (g : IAutomaton A) (fuel : Nat) : Option (Except PyErr (List Nat)) :=
  match g.a.initial with
  | none => some (.ok [])
  | some q => findReachableVertices g.toI [q] fuel

/-- `prune_incidence_automaton`, prune_incidence_automaton.py:31-44. Between the two calls to `reverse_graph` the automaton is only read,
through the reversed interface. `ord 0` enumerates `g.finals()`, `ord 1` enumerates `to_remove`. -/
def pruneIncidenceAutomaton {A : Type} [DecidableEq A] (ord : SetOracle Nat) (g : IAutomaton A) (fuel : Nat) :
    Option (Except PyErr (IAutomaton A)) :=
  match reachedFromInitial g fuel with
  | none => none
  | some (.error e) => some (.error e)
  | some (.ok k1) =>
    match findReachableVertices (reverseGraph g.toI) (ord 0 g.a.finals) fuel with
    | none => none
    | some (.error e) => some (.error e)
    | some (.ok k2) =>
      let toKeep := k1.filter (· ∈ k2)
      let toRemove := g.a.vertices.filter (· ∉ toKeep)
      some ((ord 1 toRemove).foldlM IAutomaton.removeVertex g)

end PyBGL
