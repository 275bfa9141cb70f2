import Verif.Model.Automaton

/-!
# Model of `nfa.py` and `moore_determination.py`
-/

namespace PyBGL

/-- State of an `Nfa` (nfa.py:27-53): `adjacencies[q][a][r] = {n, …}`, the set of initial states, the
default `pmap_vfinal` (a `defaultdict(bool)`) and the symbol standing for the empty word. -/
structure Nfa (A : Type) where
  lastVertexId : Nat
  adj : Dict Nat (Dict A (Dict Nat (List Nat)))
  initials : List Nat
  final : Dict Nat Bool
  eps : A
  deriving Repr

namespace Nfa
variable {A : Type} [DecidableEq A]

/-- `Graph.add_vertex` (inherited), graph.py:155-165. -/
def addVertex (g : Nfa A) : Nat × Nfa A :=
  (g.lastVertexId, { g with lastVertexId := g.lastVertexId + 1, adj := g.adj.set g.lastVertexId [] })

/-- `Nfa.__init__`, nfa.py:27-53: an empty (or missing) set of initial states is replaced by `{0}`. -/
def init (eps : A) (initials : List Nat := []) : Nat → Nfa A
  | 0 => ⟨0, [], if initials = [] then [0] else mkSet initials, [], eps⟩
  | n + 1 => (addVertex (init eps initials n)).2

/-- `Graph.vertices`, graph.py:208-216. -/
def vertices (g : Nfa A) : List Nat := g.adj.keys

/-- `self.adjacencies.get(q, dict()).get(a, dict()).keys()`, nfa.py:70. -/
def targets (g : Nfa A) (q : Nat) (a : A) : List Nat := Dict.keys ((g.adj.getD q []).getD a [])

/-- `Nfa.delta_one_step`, nfa.py:55-73. -/
def deltaOneStep (g : Nfa A) (qs : List Nat) (a : A) : List Nat :=
  qs.foldl (fun s q => setUnion s (g.targets q a)) []

/-- Body of the loop of `Nfa.delta_epsilon`, nfa.py:88-92; the state is `(ret, qs_new)`. -/
def epsStep (g : Nfa A) (_ : Nat) (s : List Nat × List Nat) : Step (List Nat × List Nat) (List Nat) :=
  match s with
  | (ret, []) => .done ret
  | (ret, qsNew) =>
    let ret := setUnion ret qsNew
    .next (ret, (g.deltaOneStep qsNew g.eps).filter (· ∉ ret))

/-- `Nfa.delta_epsilon`, nfa.py:75-92, with an explicit bound on the number of iterations. -/
def deltaEpsilonLoop (g : Nfa A) (qs : List Nat) (fuel : Nat) : Option (Except PyErr (List Nat)) :=
  loop g.epsStep fuel 0 ([], mkSet qs)

/-- All the states mentioned by a set and by the transitions. -/
def mentioned (g : Nfa A) (qs : List Nat) : List Nat :=
  mkSet (qs ++ g.adj.flatMap fun p => p.2.flatMap fun t => Dict.keys t.2)

/-- `Nfa.delta_epsilon` as a total function: the value returned by the loop, which always terminates within
this number of iterations (`C25_delta_epsilon`). -/
def deltaEpsilon (g : Nfa A) (qs : List Nat) : List Nat :=
  match g.deltaEpsilonLoop qs ((g.mentioned qs).length + 2) with
  | some (.ok r) => r
  | _ => []

/-- `Nfa.delta`, nfa.py:94-111. -/
def delta (g : Nfa A) (q : Nat) (a : A) : List Nat :=
  g.deltaEpsilon (g.deltaOneStep (g.deltaEpsilon [q]) a)

/-- `Nfa.sigma`, nfa.py:113-133, on a state. -/
def sigma (g : Nfa A) (q : Nat) : List A :=
  mkSet (((g.deltaEpsilon [q]).flatMap fun q => (g.adj.getD q []).keys).filter (· ≠ g.eps))

/-- `Nfa.add_edge`, nfa.py:135-163: a missing source is created in `adjacencies` (and only there). -/
def addEdge (g : Nfa A) (q r : Nat) (a : A) : EdgeDesc (A × Nat) × Nfa A :=
  let arn := g.adj.getD q []
  let rn := arn.getD a []
  let s := rn.getD r []
  let n := s.length + 1
  (⟨q, r, (a, n)⟩, { g with adj := g.adj.set q (arn.set a (rn.set r (setAdd s n))) })

/-- `Nfa.remove_edge`, nfa.py:165-179: removes every parallel edge; a missing edge is ignored. -/
def removeEdge {N : Type} (g : Nfa A) (e : EdgeDesc (A × N)) : Nfa A :=
  match g.adj.get? e.source with
  | none => g
  | some arn =>
    match arn.get? e.distinguisher.1 with
    | none => g
    | some rn =>
      if rn.contains e.target then
        { g with adj := g.adj.set e.source (arn.set e.distinguisher.1 (rn.erase e.target)) }
      else g

/-- `Nfa.out_edges`, nfa.py:181-196: the distinguisher carries the whole set of numbers. -/
def outEdges (g : Nfa A) (q : Nat) : List (EdgeDesc (A × List Nat)) :=
  (g.adj.getD q []).flatMap fun t => t.2.map fun s => ⟨q, s.1, (t.1, s.2)⟩

/-- `Nfa.edges`, nfa.py:198-211. -/
def edges (g : Nfa A) : List (EdgeDesc (A × List Nat)) :=
  g.adj.flatMap fun p => p.2.flatMap fun t => t.2.map fun s => ⟨p.1, s.1, (t.1, s.2)⟩

/-- `Graph.remove_vertex` (inherited), graph.py:177-197. -/
def removeVertex (g : Nfa A) (u : Nat) : Except PyErr (Nfa A) := do
  let g := (g.edges.filter fun e => u = e.target).foldl removeEdge g
  let g := (g.outEdges u).foldl removeEdge g
  let adj ← g.adj.delE u
  .ok { g with adj }

/-- `Graph.clear` (inherited), graph.py:199-206: neither the initial states nor `pmap_vfinal` are reset. -/
def clear (g : Nfa A) : Except PyErr (Nfa A) :=
  let g := { g with lastVertexId := 0 }
  g.vertices.foldlM removeVertex g

/-- `Nfa.alphabet`, nfa.py:213-226. -/
def alphabet (g : Nfa A) : List A :=
  mkSet ((g.adj.flatMap fun p => Dict.keys p.2).filter (· ≠ g.eps))

/-- `Nfa.set_initial`, nfa.py:228-241. -/
def setInitial (g : Nfa A) (q : Nat) (b : Bool := true) : Nfa A :=
  { g with initials := if b then setAdd g.initials q else setDiscard g.initials q }

/-- `Nfa.set_initials`, nfa.py:266-273. -/
def setInitials (g : Nfa A) (qs : List Nat) : Nfa A := { g with initials := mkSet qs }

/-- `Nfa.set_final`, nfa.py:290-301. -/
def setFinal (g : Nfa A) (q : Nat) (b : Bool := true) : Nfa A := { g with final := g.final.set q b }

/-- `Nfa.is_final`, nfa.py:303-315. -/
def isFinal (g : Nfa A) (q : Nat) : Bool := g.final.getD q false

/-- Loop of `Nfa.delta_word`, nfa.py:374-378. -/
def deltaWordFrom (g : Nfa A) : List Nat → List A → List Nat
  | qs, [] => qs
  | [], _ :: _ => []
  | q :: qs, a :: w => deltaWordFrom g ((q :: qs).foldl (fun s q => setUnion s (g.delta q a)) []) w

/-- `Nfa.delta_word`, nfa.py:360-378. -/
def deltaWord (g : Nfa A) (w : List A) : List Nat := g.deltaWordFrom (g.deltaEpsilon g.initials) w

/-- `Nfa.accepts`, nfa.py:342-358. -/
def accepts (g : Nfa A) (w : List A) : Bool := (g.deltaWord w).any g.isFinal

end Nfa

/-! ## `moore_determination` -/

/-- Canonical representation of a `frozenset` of states: sorted, without duplicates. -/
def frozenset (l : List Nat) : List Nat := (mkSet l).mergeSort (· ≤ ·)

/-- State of `moore_determination`, moore_determination.py:41-53: the DFA under construction, `map_qs_q` and
`unprocessed_qs`. -/
structure MooreState (A : Type) where
  dfa : Automaton A
  map : Dict (List Nat) Nat
  todo : List (List Nat)

namespace Moore
variable {A : Type} [DecidableEq A]

/-- `dfa_add_state`, moore_determination.py:35-39. -/
def addState (nfa : Nfa A) (dfa : Automaton A) (map : Dict (List Nat) Nat) (qs : List Nat) :
    Nat × Automaton A × Dict (List Nat) Nat :=
  let (q, dfa) := dfa.addVertex
  (q, if qs.any nfa.isFinal then dfa.setFinal q else dfa, map.set qs q)

/-- `frozenset(set.union(*[nfa.delta(q, a) for q in qs])) if qs else frozenset()`,
moore_determination.py:64-67. -/
def subsetStep (nfa : Nfa A) (qs : List Nat) (a : A) : List Nat :=
  frozenset (qs.foldl (fun s q => setUnion s (nfa.delta q a)) [])

/-- `sigma_`, moore_determination.py:58-62. -/
def subsetSigma (nfa : Nfa A) (complete : Bool) (qs : List Nat) : List A :=
  if complete then nfa.alphabet else qs.foldl (fun s q => setUnion s (nfa.sigma q)) []

/-- Body of the `for` loop, moore_determination.py:63-72. -/
def symbolStep (nfa : Nfa A) (qs : List Nat) (q : Nat) (s : MooreState A) (a : A) : Except PyErr (MooreState A) := do
  let rs := subsetStep nfa qs a
  match s.map.get? rs with
  | some r =>
    let (_, _, dfa) ← s.dfa.addEdge q r a
    .ok { s with dfa }
  | none =>
    let (r, dfa, map) := addState nfa s.dfa s.map rs
    let (_, _, dfa) ← dfa.addEdge q r a
    .ok ⟨dfa, map, setAdd s.todo rs⟩

/-- Body of the `while` loop, moore_determination.py:55-72. `pick t` chooses the element removed by
`set.pop()` at iteration `t` (an index, modulo the size), `order t` the order in which the set of symbols
is iterated. -/
def step (nfa : Nfa A) (complete : Bool) (pick : Nat → Nat) (order : Nat → List A → List A) (t : Nat)
    (s : MooreState A) : Step (MooreState A) (Automaton A) :=
  match s.todo[pick t % s.todo.length]? with
  | none => .done s.dfa
  | some qs =>
    match s.map.getE qs with
    | .error e => .fail e
    | .ok q =>
      match (order t (subsetSigma nfa complete qs)).foldlM (symbolStep nfa qs q)
          { s with todo := setDiscard s.todo qs } with
      | .error e => .fail e
      | .ok s' => .next s'

/-- State before the loop, moore_determination.py:41-53. -/
def start (nfa : Nfa A) : MooreState A :=
  let q0s := frozenset (nfa.deltaEpsilon nfa.initials)
  let (_, dfa, map) := addState nfa .empty [] q0s
  ⟨dfa, map, [q0s]⟩

/-- `moore_determination`, moore_determination.py:11-73, with the default `dfa = None`. -/
def run (nfa : Nfa A) (complete : Bool) (pick : Nat → Nat) (order : Nat → List A → List A) (fuel : Nat) :
    Option (Except PyErr (Automaton A)) :=
  loop (step nfa complete pick order) fuel 0 (start nfa)

end Moore
end PyBGL
