import Verif.Model.BKTree
import Verif.Prelude.PyM

/-!
# `bk_tree.py` with a distance that may have side effects or raise

The distance of two elements is a method `dist x y : PyM S Nat` of the rest of the world `S`: it may count its calls, give another answer at each call, or raise. It is
supposed not to touch the tree itself. The loops get `fuel` iterations; `none` means that they have not ended yet.
-/

namespace PyBGL
namespace BKTree
variable {X S : Type} (dist : X → X → PyM S Nat)

/-- The loop of `BKTree.insert`, bk_tree.py:88-98, from the node `u`: the outcome, the tree and the world left behind. -/
def insertFromM (t : BKTree X) (w : X) : Nat → Nat → S → Option (Except PyErr Nat × BKTree X × S)
  | 0, _, _ => none
  | fuel + 1, u, s =>
    match t.element u with
    | .error e => some (.error e, t, s)
    | .ok wu =>
      match dist w wu s with
      | (.error e, s) => some (.error e, t, s)
      | (.ok d, s) =>
        if d = 0 then some (.ok u, t, s)
        else match t.a.delta u d with
          | some v => insertFromM t w fuel v s
          | none =>
            match (t.addVertex w).2.a.addEdge u (t.addVertex w).1 d with
            | .error e => some (.error e, (t.addVertex w).2, s)
            | .ok (_, _, a) => some (.ok (t.addVertex w).1, { (t.addVertex w).2 with a }, s)

/-- `BKTree.insert`, bk_tree.py:66-98, with its optional starting node `u`. -/
def insertM (t : BKTree X) (w : X) (u : Option Nat) (fuel : Nat) (s : S) : Option (Except PyErr Nat × BKTree X × S) :=
  match t.root with
  | none => some (.ok (t.addVertex w).1, { (t.addVertex w).2 with root := some (t.addVertex w).1 }, s)
  | some root => insertFromM dist t w fuel (u.getD root) s

/-- The loop of `BKTree.search`, bk_tree.py:123-134: the outcome and the world left behind. The tree is only read. -/
def searchFromM (t : BKTree X) (w : X) : Nat → SearchState X → S → Option (Except PyErr (Option (X × Option Nat)) × S)
  | 0, _, _ => none
  | fuel + 1, st, s =>
    match st.queue with
    | [] => some (.ok (st.best.map fun x => (x, st.dBest)), s)
    | u :: rest =>
      match t.element u with
      | .error e => some (.error e, s)
      | .ok wu =>
        match dist w wu s with
        | (.error e, s) => some (.error e, s)
        | (.ok du, s) =>
          let (best, dBest) := if leInf du st.dBest then (some wu, some du) else (st.best, st.dBest)
          searchFromM t w fuel
            ⟨rest ++ ((t.a.outEdges u).filter fun e => leInf (absDiff e.distinguisher du) dBest).map (·.target), best, dBest⟩ s

/-- `BKTree.search`, bk_tree.py:100-134, with its optional radius and starting node. -/
def searchM (t : BKTree X) (w : X) (dMax : Option Nat) (r : Option Nat) (fuel : Nat) (s : S) :
    Option (Except PyErr (Option (X × Option Nat)) × S) :=
  match t.root with
  | none => some (.ok none, s)
  | some root => searchFromM dist t w fuel ⟨[r.getD root], none, dMax⟩ s

end BKTree
end PyBGL
