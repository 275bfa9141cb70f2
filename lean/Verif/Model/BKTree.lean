import Verif.Model.Automaton
import Verif.Model.Distance

/-!
# Model of `bk_tree.py`
-/

namespace PyBGL

/-- State of a `BKTree` (bk_tree.py:26-37): an `Automaton` whose labels are distances, the dictionary
`map_velement` and the root. The distance function is a parameter of the methods. -/
structure BKTree (X : Type) where
  a : Automaton Nat
  elements : Dict Nat X
  root : Option Nat
  deriving Repr

namespace BKTree
variable {X : Type} (dist : X → X → Nat)

/-- `BKTree(distance)`, bk_tree.py:26-37. -/
def empty : BKTree X := ⟨.empty, [], none⟩

/-- `BKTree.add_vertex`, bk_tree.py:39-51. -/
def addVertex (t : BKTree X) (w : X) : Nat × BKTree X :=
  let (u, a) := t.a.addVertex
  (u, { t with a, elements := t.elements.set u w })

/-- `BKTree.element`, bk_tree.py:53-64: `defaultdict()` without a default factory. -/
def element (t : BKTree X) (u : Nat) : Except PyErr X := t.elements.getE u

/-- Body of the loop of `BKTree.insert`, bk_tree.py:88-98; the loop state is `u`. -/
def insertStep (t : BKTree X) (w : X) (_ : Nat) (u : Nat) : Step Nat (Nat × BKTree X) :=
  match t.element u with
  | .error e => .fail e
  | .ok wu =>
    let d := dist w wu
    if d = 0 then .done (u, t)
    else match t.a.delta u d with
      | some v => .next v
      | none =>
        let (v, t') := t.addVertex w
        match t'.a.addEdge u v d with
        | .error e => .fail e
        | .ok (_, _, a) => .done (v, { t' with a })

/-- `BKTree.insert`, bk_tree.py:66-98, with its optional starting node `u`. -/
def insert (t : BKTree X) (w : X) (u : Option Nat := none) (fuel : Nat) : Option (Except PyErr (Nat × BKTree X)) :=
  match t.root with
  | none =>
    let (r, t') := t.addVertex w
    some (.ok (r, { t' with root := some r }))
  | some root => loop (t.insertStep dist w) fuel 0 (u.getD root)

/-- `d <= d_best`, where `none` is `INFINITY`. -/
def leInf (d : Nat) : Option Nat → Bool
  | none => true
  | some b => d ≤ b

/-- `abs(d_uv - d_u)`. -/
def absDiff (d e : Nat) : Nat := (d - e) + (e - d)

/-- State of the loop of `BKTree.search`: the deque `to_process`, listed from its right end (popped
end) to its left end, `w_best` and `d_best`. -/
structure SearchState (X : Type) where
  queue : List Nat
  best : Option X
  dBest : Option Nat

/-- Body of the loop of `BKTree.search`, bk_tree.py:123-134. -/
def searchStep (t : BKTree X) (w : X) (_ : Nat) (s : SearchState X) :
    Step (SearchState X) (Option (X × Option Nat)) :=
  match s.queue with
  | [] => .done (s.best.map fun x => (x, s.dBest))
  | u :: rest =>
    match t.element u with
    | .error e => .fail e
    | .ok wu =>
      let du := dist w wu
      let (best, dBest) := if leInf du s.dBest then (some wu, some du) else (s.best, s.dBest)
      .next ⟨rest ++ ((t.a.outEdges u).filter fun e => leInf (absDiff e.distinguisher du) dBest).map (·.target),
        best, dBest⟩

/-- `BKTree.search`, bk_tree.py:100-134, with its optional radius `d_max` (`none` is `INFINITY`) and
starting node `r`. -/
def search (t : BKTree X) (w : X) (dMax : Option Nat := none) (r : Option Nat := none) (fuel : Nat) :
    Option (Except PyErr (Option (X × Option Nat))) :=
  match t.root with
  | none => some (.ok none)
  | some root => loop (t.searchStep dist w) fuel 0 ⟨[r.getD root], none, dMax⟩

/-- Loop of `make_bk_tree`, bk_tree.py:196-197. -/
def makeFrom (fuel : Nat) : BKTree X → List X → Option (Except PyErr (BKTree X))
  | t, [] => some (.ok t)
  | t, x :: xs =>
    match t.insert dist x none fuel with
    | none => none
    | some (.error e) => some (.error e)
    | some (.ok (_, t')) => makeFrom fuel t' xs

/-- `make_bk_tree`, bk_tree.py:181-198, with an explicit distance. -/
def make (xs : List X) (fuel : Nat) : Option (Except PyErr (BKTree X)) := makeFrom dist fuel .empty xs

end BKTree
end PyBGL
