import Verif.Model.DfsApps
import Verif.Model.AutomatonCopy

/-!
# Model of `graph_copy.py` and `automaton_copy.py` with callbacks, given maps and any target
-/

namespace PyBGL

/-- The methods of the class of `g_dup` called by the copy: `add_vertex()` (graph_copy.py:88) and `add_edge`, which receives two vertices
(graph_copy.py:108) or two states and the label of the copied transition (automaton_copy.py:50). -/
structure CopyClass (D F E : Type) where
  addVertex : D → Nat × D
  addEdge : D → Nat → Nat → E → Except PyErr (F × D)

/-- `g_dup` is a `DirectedGraph`: graph_copy.py:88 and 108. -/
def CopyClass.directed (E : Type) : CopyClass Graph (EdgeDesc Nat) E := ⟨Graph.addVertex, fun d x y _ => d.addEdge x y⟩

/-- `g_dup` is an `UndirectedGraph`: graph_copy.py:88 and 108. -/
def CopyClass.undirected (E : Type) : CopyClass Graph (EdgeDesc Nat) E := ⟨Graph.addVertex, fun d x y _ => UGraph.addEdge d x y⟩

/-- `g_dup` is an `IncidenceGraph`: graph_copy.py:88 and 108. -/
def CopyClass.incidence (E : Type) : CopyClass IGraph (EdgeDesc Nat) E := ⟨IGraph.addVertex, fun d x y _ => d.addEdge x y⟩

/-- `g_dup` is an `Automaton` (automaton_copy): graph_copy.py:88 and automaton_copy.py:44-50, where `a = g.label(e)`. -/
def CopyClass.automaton (A : Type) [DecidableEq A] : CopyClass (Automaton A) (Option (EdgeDesc A)) (EdgeDesc A) :=
  ⟨Automaton.addVertex, fun d x y e => (d.addEdge x y e.distinguisher).map fun r => (r.1, r.2.2)⟩

/-- Calls to `callback_dup_vertex(u, g, u_dup, g_dup)` (graph_copy.py:92) and to `callback_dup_edge(e, g, e_dup, g_dup)`
(graph_copy.py:112, automaton_copy.py:54). -/
inductive CopyCall (V E D F : Type) where
  | vertex (u : V) (x : Nat) (dup : D)
  | edge (e : E) (f : F) (dup : D)

namespace CopyInto
variable {V E D F σ : Type} [DecidableEq V] [DecidableEq E]

/-- The attributes of `DepthFirstSearchCopyVisitor` (graph_copy.py:72-78) and the state `st` of the callbacks. -/
structure State (V E D F σ : Type) where
  dup : D
  vmap : Dict V Nat
  emap : Dict E F
  done : List V
  st : σ

/-- `dup_vertex`, graph_copy.py:80-93. The callbacks, which may raise, do not change `g_dup` and the maps; a missing callback does nothing. -/
def dupVertex (T : CopyClass D F E) (cb : Visitor (CopyCall V E D F) σ) (s : State V E D F σ) (u : V) :
    Except PyErr (Nat × State V E D F σ) :=
  let (x, dup) := T.addVertex s.dup
  match cb (.vertex u x dup) s.st with
  | .error err => .error err
  | .ok st => .ok (x, { s with dup := dup, vmap := s.vmap.set u x, done := setAdd s.done u, st := st })

/-- `pmap_vertices[v] if v in self.dup_vertices else self.dup_vertex(v, g)`, graph_copy.py:104-107, automaton_copy.py:46-49. -/
def dupTarget (T : CopyClass D F E) (cb : Visitor (CopyCall V E D F) σ) (s : State V E D F σ) (v : V) :
    Except PyErr (Nat × State V E D F σ) :=
  if v ∈ s.done then
    match s.vmap.getE v with
    | .error err => .error err
    | .ok x => .ok (x, s)
  else dupVertex T cb s v

/-- `examine_relevant_edge`, graph_copy.py:99-112, automaton_copy.py:34-54. A property map is never false (`if self.pmap_edges`). -/
def dupEdge (T : CopyClass D F E) (cb : Visitor (CopyCall V E D F) σ) (g : GraphI V E) (s : State V E D F σ) (e : E) :
    Except PyErr (State V E D F σ) :=
  match s.vmap.getE (g.source e) with
  | .error err => .error err
  | .ok x =>
    match dupTarget T cb s (g.target e) with
    | .error err => .error err
    | .ok (y, s) =>
      match T.addEdge s.dup x y e with
      | .error err => .error err
      | .ok (f, dup) =>
        match cb (.edge e f dup) s.st with
        | .error err => .error err
        | .ok st => .ok { s with dup := dup, emap := s.emap.set e f, st := st }

/-- `DepthFirstSearchCopyVisitor`, graph_copy.py:17-112; `examine_edge` (graph_extract.py:88-97) filters the irrelevant edges. -/
def visitor (T : CopyClass D F E) (cb : Visitor (CopyCall V E D F) σ) (g : GraphI V E) (vrel : V → Bool) (erel : E → Bool) :
    Visitor (DfsEvent V E) (State V E D F σ)
  | .start u, s => (dupVertex T cb s u).map (·.2)
  | .examineEdge e, s => if erel e && vrel (g.target e) then dupEdge T cb g s e else .ok s
  | _, s => .ok s

end CopyInto

/-- `graph_copy`, graph_copy.py:115-178, and `automaton_copy`, automaton_copy.py:57-120, when `pmap_vertices` and `pmap_edges` are given and hold `vm`
and `em` (both empty if `graph_copy` builds them): the final content of `g_dup`, of the two maps, and the state of the callbacks. -/
def copyInto {V E D F σ : Type} [DecidableEq V] [DecidableEq E] (T : CopyClass D F E) (cb : Visitor (CopyCall V E D F) σ) (s : V) (g : GraphI V E)
    (dup : D) (vrel : Option (V → Bool)) (erel : Option (E → Bool)) (vm : Dict V Nat) (em : Dict E F) (st : σ) (fuel : Nat) :
    Option (Except PyErr (D × Dict V Nat × Dict E F × σ)) :=
  let vrel := vrel.getD (fun _ => true)
  let erel := erel.getD (fun _ => true)
  (dfs g (fun e => erel e && vrel (g.target e)) (CopyInto.visitor T cb g vrel erel) s [] ⟨dup, vm, em, [], st⟩ fuel).map
    (·.map (fun r => (r.2.dup, r.2.vmap, r.2.emap, r.2.st)))

end PyBGL
