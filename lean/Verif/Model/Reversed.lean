import Verif.Model.Automaton
import Verif.Model.Interface

/-!
# Model of the mutators of a graph to which `reverse_graph` was applied

`reverse_graph` (reverse.py:10-27) exchanges the attributes `source`/`target` and `in_edges`/`out_edges` of the object; the methods of the classes, which call
`self.source`, `self.target`, `self.in_edges` and `self.out_edges`, then run with the exchanged ones.
-/

namespace PyBGL

/-- An object together with the state of its four attributes: `swapped` if `reverse_graph` (reverse.py:10-27) was called an odd number of times. -/
structure Rev (S : Type) where
  base : S
  swapped : Bool

/-- `reverse_graph`, reverse.py:10-27. -/
def Rev.reverse {S : Type} (g : Rev S) : Rev S := { g with swapped := !g.swapped }

/-- `self.source`, graph.py:409-420, after reverse.py:26. -/
def Rev.source {S L : Type} (g : Rev S) (e : EdgeDesc L) : Nat := if g.swapped then e.target else e.source

/-- `self.target`, graph.py:422-433, after reverse.py:26. -/
def Rev.target {S L : Type} (g : Rev S) (e : EdgeDesc L) : Nat := if g.swapped then e.source else e.target

/-! ## `IncidenceGraph` -/

namespace RIGraph

/-- `self.out_edges`, graph.py:273-288 and reverse.py:27. -/
def outEdges (g : Rev IGraph) (u : Nat) : List (EdgeDesc Nat) := if g.swapped then g.base.inEdges u else g.base.outEdges u

/-- `self.in_edges`, incidence_graph.py:71-77 and reverse.py:27. -/
def inEdges (g : Rev IGraph) (u : Nat) : List (EdgeDesc Nat) := if g.swapped then g.base.outEdges u else g.base.inEdges u

/-- The graph seen by the algorithms; `vertices` and `edges` (graph.py:208-216, 338-351) only read `adjacencies`. -/
def toI (g : Rev IGraph) : GraphI Nat (EdgeDesc Nat) where
  vertices := g.base.vertices
  edges := g.base.edges
  outEdges := outEdges g
  inEdges := inEdges g
  source := g.source
  target := g.target

/-- `IncidenceGraph.add_vertex`, incidence_graph.py:28-32. -/
def addVertex (g : Rev IGraph) : Nat × Rev IGraph :=
  let (u, b) := g.base.addVertex
  (u, { g with base := b })

/-- `IncidenceGraph.add_edge`, incidence_graph.py:34-45: it reads none of the four attributes. -/
def addEdge (g : Rev IGraph) (u v : Nat) : Except PyErr (EdgeDesc Nat × Rev IGraph) := do
  let (e, b) ← g.base.addEdge u v
  .ok (e, { g with base := b })

/-- `IncidenceGraph.remove_edge`, incidence_graph.py:56-67: it reads the fields of the descriptor, and none of the four attributes. -/
def removeEdge (g : Rev IGraph) (e : EdgeDesc Nat) : Except PyErr (Rev IGraph) := do
  let b ← g.base.removeEdge e
  .ok { g with base := b }

/-- `IncidenceGraph.remove_vertex`, incidence_graph.py:47-54: `self.in_edges`, then `self.out_edges`. -/
def removeVertex (g : Rev IGraph) (u : Nat) : Except PyErr (Rev IGraph) := do
  let g ← (inEdges g u).foldlM removeEdge g
  let g ← (outEdges g u).foldlM removeEdge g
  let adj ← g.base.g.adj.delE u
  let inAdj ← g.base.inAdj.delE u
  .ok { g with base := ⟨{ g.base.g with adj }, inAdj⟩ }

/-- `Graph.clear` (inherited), graph.py:199-206. -/
def clear (g : Rev IGraph) : Except PyErr (Rev IGraph) :=
  let g : Rev IGraph := { g with base := ⟨{ g.base.g with lastVertexId := 0 }, g.base.inAdj⟩ }
  g.base.vertices.foldlM removeVertex g

/-- `Graph.edge` (inherited), graph.py:353-373. -/
def edge (g : Rev IGraph) (u v : Nat) : Option (EdgeDesc Nat) × Bool :=
  match mkSet ((outEdges g u).filter fun e => g.target e = v) with
  | [e] => (some e, true)
  | _ => (none, false)

end RIGraph

/-! ## `IncidenceAutomaton` -/

namespace RIAutomaton
variable {A : Type} [DecidableEq A]

/-- `IncidenceAutomaton.remove_edge`, incidence_automaton.py:69-85 and automaton.py:154-167: the descriptor is read through `self.source`, `self.target` and
`self.label` only. -/
def removeEdge (g : Rev (IAutomaton A)) (e : EdgeDesc A) : Except PyErr (Rev (IAutomaton A)) := do
  let b ← g.base.removeEdge ⟨g.source e, g.target e, e.distinguisher⟩
  .ok { g with base := b }

/-- The first loop of `remove_vertex` when the attributes are exchanged, incidence_automaton.py:54-57: `self.in_edges(q)` is a generator over the items of
`adjacencies[q]`, `self.source(e)` is the state `r` the transition leads to. If `r` is `q` the dictionary iterated is modified, and the next iteration raises
`RuntimeError`. -/
def dropSeen (q : Nat) : List (A × Nat) → Dict Nat (Dict A Nat) → Except PyErr (Dict Nat (Dict A Nat))
  | [], adj => .ok adj
  | (a, r) :: items, adj => do
    let adj ← IAutomaton.delTransition adj r a
    if r = q then .error .runtimeError else dropSeen q items adj

/-- One iteration of the second loop of `remove_vertex` when the attributes are exchanged, incidence_automaton.py:62-66: `self.target(e)` is the source of the
descriptor. -/
def dropOut (q : Nat) (inAdj : Dict Nat (Dict Nat (List A))) (e : EdgeDesc A) : Except PyErr (Dict Nat (Dict Nat (List A))) := do
  let inR ← inAdj.getE e.source
  if inR.contains q then .ok (inAdj.set e.source (inR.erase q)) else .ok inAdj

/-- `IncidenceAutomaton.remove_vertex`, incidence_automaton.py:47-67. -/
def removeVertex (g : Rev (IAutomaton A)) (q : Nat) : Except PyErr (Rev (IAutomaton A)) :=
  if g.swapped then do
    let (adj, inAdj) ←
      if g.base.inAdj.contains q then do
        let adj ← dropSeen q (g.base.a.adj.getD q []) g.base.a.adj
        let inAdj ← g.base.inAdj.delE q
        .ok (adj, inAdj)
      else .ok (g.base.a.adj, g.base.inAdj)
    if adj.contains q then do
      let inAdj ← ((⟨{ g.base.a with adj }, inAdj⟩ : IAutomaton A).inEdges q).foldlM (dropOut q) inAdj
      let adj ← adj.delE q
      .ok { g with base := ⟨{ g.base.a with adj }, inAdj⟩ }
    else .ok { g with base := ⟨{ g.base.a with adj }, inAdj⟩ }
  else do
    let b ← g.base.removeVertex q
    .ok { g with base := b }

end RIAutomaton

/-! ## `UndirectedGraph` -/

namespace RUGraph

/-- `self.out_edges`, graph.py:541-558 and reverse.py:27: when the attributes are exchanged it is the method `in_edges` (graph.py:575-586), which returns
`self.out_edges(u)`. The last argument bounds the number of nested calls: `none` if it is reached. -/
def outEdges (g : Rev Graph) (u : Nat) : Nat → Option (List (EdgeDesc Nat))
  | 0 => none
  | n + 1 => if g.swapped then outEdges g u n else some (UGraph.outEdges g.base u)

/-- `UndirectedGraph.remove_edge`, graph.py:560-573: the first part (graph.py:243-262) reads the fields of the descriptor, the second calls `self.source` and
`self.target`. -/
def removeEdge (g : Rev Graph) (e : EdgeDesc Nat) : Except PyErr (Rev Graph) := do
  let b ← g.base.removeEdge e
  let u := g.source e
  let v := g.target e
  if u ≠ v then
    let adjV ← b.adj.getE v
    let s ← adjV.getE u
    let s' ← setRemoveE s e.distinguisher
    .ok { g with base := { b with adj := b.adj.set v (adjV.set u s') } }
  else .ok { g with base := b }

end RUGraph

end PyBGL
