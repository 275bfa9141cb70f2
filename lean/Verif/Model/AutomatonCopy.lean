import Verif.Model.DfsApps
import Verif.Model.Automaton

/-!
# Model of `automaton_copy.py`
-/

namespace PyBGL
variable {A : Type} [DecidableEq A]

/-- An `Automaton` seen through the interface of graphs; `in_edges` raises (automaton.py:120-136): the record is given an empty listing. -/
def Automaton.toI (g : Automaton A) : GraphI Nat (EdgeDesc A) where
  vertices := g.vertices
  edges := g.edges
  outEdges := g.outEdges
  inEdges := fun _ => []
  source := EdgeDesc.source
  target := EdgeDesc.target

namespace AutomatonCopy

/-- The attributes of `AutomatonCopyVisitor`, inherited from `DepthFirstSearchCopyVisitor` (graph_copy.py:72-78). `add_edge` may return `None`
instead of an edge. -/
structure State (A : Type) where
  dup : Automaton A
  vmap : Dict Nat Nat
  emap : Dict (EdgeDesc A) (Option (EdgeDesc A))
  done : List Nat

/-- `dup_vertex` (inherited), graph_copy.py:80-93. `callback_dup_vertex` is a function of the copied state and of `g_dup`. -/
def dupVertex (cb : Option (Nat → Nat → Automaton A → Automaton A)) (s : State A) (u : Nat) : Nat × State A :=
  let (x, dup) := s.dup.addVertex
  let dup := match cb with
    | none => dup
    | some cb => cb u x dup
  (x, { s with dup := dup, vmap := s.vmap.set u x, done := setAdd s.done u })

/-- `self.pmap_vertices[v] if v in self.dup_vertices else self.dup_vertex(v, g)`, automaton_copy.py:46-49. -/
def dupTarget (cb : Option (Nat → Nat → Automaton A → Automaton A)) (s : State A) (v : Nat) : Except PyErr (Nat × State A) :=
  if v ∈ s.done then
    match s.vmap.getE v with
    | .error err => .error err
    | .ok x => .ok (x, s)
  else .ok (dupVertex cb s v)

/-- `AutomatonCopyVisitor.examine_relevant_edge`, automaton_copy.py:34-54, without `callback_dup_edge`. -/
def dupEdge (cb : Option (Nat → Nat → Automaton A → Automaton A)) (s : State A) (e : EdgeDesc A) : Except PyErr (State A) :=
  match s.vmap.getE e.source with
  | .error err => .error err
  | .ok x =>
    match dupTarget cb s e.target with
    | .error err => .error err
    | .ok (y, s) =>
      match s.dup.addEdge x y e.distinguisher with
      | .error err => .error err
      | .ok (e', _, dup) => .ok { s with dup := dup, emap := s.emap.set e e' }

/-- `AutomatonCopyVisitor`, automaton_copy.py:23-54: `examine_edge` (graph_extract.py:88-97) filters the irrelevant edges. -/
def visitor (cb : Option (Nat → Nat → Automaton A → Automaton A)) (vrel : Nat → Bool) (erel : EdgeDesc A → Bool) :
    Visitor (DfsEvent Nat (EdgeDesc A)) (State A)
  | .start u, s => .ok (dupVertex cb s u).2
  | .examineEdge e, s => if erel e && vrel e.target then dupEdge cb s e else .ok s
  | _, s => .ok s

end AutomatonCopy

/-- `automaton_copy`, automaton_copy.py:57-120, without `callback_dup_edge`: the final content of `g_dup`, `pmap_vertices` and `pmap_edges`.
The booleans tell whether the caller gives `pmap_vertices` and `pmap_edges` (then empty `AssocPropertyMap`s over a `defaultdict(None)`);
otherwise lines 98-103 build an `AssocPropertyMap` from a `dict`, which property_map.py:263-264 refuses. -/
def automatonCopy (s : Nat) (g dup : Automaton A) (vrel : Option (Nat → Bool)) (erel : Option (EdgeDesc A → Bool)) (hasV hasE : Bool)
    (cb : Option (Nat → Nat → Automaton A → Automaton A)) (fuel : Nat) :
    Option (Except PyErr (Automaton A × Dict Nat Nat × Dict (EdgeDesc A) (Option (EdgeDesc A)))) :=
  let vrel := vrel.getD (fun _ => true)
  let erel := erel.getD (fun _ => true)
  if !hasV || !hasE then some (.error .typeError)
  else
    (dfs g.toI (fun e => erel e && vrel e.target) (AutomatonCopy.visitor cb vrel erel) s [] ⟨dup, [], [], []⟩ fuel).map
      (·.map (fun r => (r.2.dup, r.2.vmap, r.2.emap)))

end PyBGL
