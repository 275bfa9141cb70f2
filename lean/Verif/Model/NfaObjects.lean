import Verif.Model.NfaCalls

/-!
# The sets of numbers of an `Nfa` as objects

`Nfa.add_edge` stores a Python `set` in `adjacencies[q][a][r]`, and `Nfa.edges` and `Nfa.out_edges` put this very set, not a copy of it, in the descriptors they yield. In
Verif/Model/Nfa.lean the sets are values; here they are objects, referred to by their index in a store, so that what a descriptor shows *later* can be stated.
-/

namespace PyBGL

/-- State of an `Nfa` (nfa.py:27-53), the values of `adjacencies[q][a]` being references to sets. `sets` is the heap: every set that was ever created, in the order of their creation. -/
structure ONfa (A : Type) where
  lastVertexId : Nat
  adj : Dict Nat (Dict A (Dict Nat Nat))
  sets : List (List Nat)
  initials : List Nat
  final : Dict Nat Bool
  eps : A
  deriving Repr

namespace ONfa
variable {A : Type} [DecidableEq A]

/-- `Graph.add_vertex` (inherited), graph.py:155-165. -/
def addVertex (g : ONfa A) : ONfa A :=
  { g with lastVertexId := g.lastVertexId + 1, adj := g.adj.set g.lastVertexId [] }

/-- `Nfa.__init__`, nfa.py:27-53. -/
def init (eps : A) (initials : List Nat := []) : Nat → ONfa A
  | 0 => ⟨0, [], [], if initials = [] then [0] else mkSet initials, [], eps⟩
  | n + 1 => addVertex (init eps initials n)

/-- `Graph.vertices`, graph.py:208-216. -/
def vertices (g : ONfa A) : List Nat := g.adj.keys

/-- The set object with this reference. -/
def contents (g : ONfa A) (i : Nat) : List Nat := g.sets.getD i []

/-- `Nfa.add_edge`, nfa.py:135-163: `s.add(n)` changes the set object in place; a new set is created only if there is none (nfa.py:159-160). -/
def addEdge (g : ONfa A) (q r : Nat) (a : A) : ONfa A :=
  let arn := g.adj.getD q []
  let rn := arn.getD a []
  match rn.get? r with
  | some i =>
    let s := g.contents i
    { g with sets := g.sets.set i (setAdd s (s.length + 1)) }
  | none => { g with adj := g.adj.set q (arn.set a (rn.set r g.sets.length)), sets := g.sets ++ [setAdd [] 1] }

/-- `Nfa.remove_edge`, nfa.py:165-179: the reference is deleted, the set object is not changed. -/
def removeEdge {N : Type} (e : EdgeDesc (A × N)) : PyM (ONfa A) Unit := fun g =>
  match g.adj.get? e.source with
  | none => (.ok (), g)
  | some arn =>
    match arn.get? e.distinguisher.1 with
    | none => (.ok (), g)
    | some rn =>
      if rn.contains e.target then
        (.ok (), { g with adj := g.adj.set e.source (arn.set e.distinguisher.1 (rn.erase e.target)) })
      else (.ok (), g)

/-- `Nfa.out_edges`, nfa.py:181-196: a descriptor holds the reference. -/
def outEdges (g : ONfa A) (q : Nat) : List (EdgeDesc (A × Nat)) :=
  (g.adj.getD q []).flatMap fun t => t.2.map fun s => ⟨q, s.1, (t.1, s.2)⟩

/-- `Nfa.edges`, nfa.py:198-211: a descriptor holds the reference. -/
def edges (g : ONfa A) : List (EdgeDesc (A × Nat)) :=
  g.adj.flatMap fun p => p.2.flatMap fun t => t.2.map fun s => ⟨p.1, s.1, (t.1, s.2)⟩

/-- `Graph.remove_vertex` (inherited), graph.py:177-197. -/
def removeVertex (u : Nat) : PyM (ONfa A) Unit := do
  let g ← PyM.get
  PyM.each removeEdge (g.edges.filter fun e => u = e.target)
  let g ← PyM.get
  PyM.each removeEdge (g.outEdges u)
  let g ← PyM.get
  let adj ← PyM.lift (g.adj.delE u)
  PyM.put { g with adj }

/-- `Graph.clear` (inherited), graph.py:199-206. -/
def clear : PyM (ONfa A) Unit := do
  let g ← PyM.get
  PyM.put { g with lastVertexId := 0 }
  PyM.each removeVertex g.vertices

/-- The calls on an `Nfa`: graph.py:155-165 and 177-206, nfa.py:135-179, 228-241, 266-273 and 290-301. -/
def exec : NfaOp A → PyM (ONfa A) Unit
  | .addVertex => fun g => (.ok (), g.addVertex)
  | .addEdge q r a => fun g => (.ok (), g.addEdge q r a)
  | .removeEdge e => removeEdge e
  | .removeVertex u => removeVertex u
  | .setInitial q b => fun g => (.ok (), { g with initials := if b then setAdd g.initials q else setDiscard g.initials q })
  | .setInitials qs => fun g => (.ok (), { g with initials := mkSet qs })
  | .setFinal q b => fun g => (.ok (), { g with final := g.final.set q b })
  | .clear => clear

/-- What is seen when the descriptor is read now: `(e.source, e.target, e.distinguisher)`, graph.py:38-55. -/
def shows (g : ONfa A) (e : EdgeDesc (A × Nat)) : EdgeDesc (A × List Nat) :=
  ⟨e.source, e.target, (e.distinguisher.1, g.contents e.distinguisher.2)⟩

end ONfa
end PyBGL
