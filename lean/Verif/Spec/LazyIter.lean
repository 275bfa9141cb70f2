import Verif.Model.LazyIter
import Verif.Spec.FailureHistory

/-!
# Loops whose body calls methods of the graph

`plan` says which calls the body makes, from the items seen so far (the current one is the last). The exceptions raised by these calls are caught.
-/

namespace PyBGL

/-- The object and the items seen so far. -/
structure Walk (S X : Type) where
  obj : S
  seen : List X
  deriving DecidableEq, Repr

/-- The object after some calls, whatever they raise. -/
def afterCalls {S Op Out : Type} (exec : Op → PyM S Out) (ops : List Op) (s : S) : S := ops.foldl (fun s op => (exec op s).2) s

/-- The body of the loop. -/
def Walk.body {S X Op Out : Type} (exec : Op → PyM S Out) (plan : List X → List Op) (x : X) : PyM (Walk S X) Unit := fun w =>
  (.ok (), ⟨afterCalls exec (plan (w.seen ++ [x])) w.obj, w.seen ++ [x]⟩)

/-- The plan only adds vertices and edges. -/
def Adds {X : Type} (plan : List X → List GOp) : Prop := ∀ xs, ∀ op ∈ plan xs, op = .addVertex ∨ ∃ u v, op = .addEdge u v

/-- The plan only removes vertices and edges. -/
def Removes {X : Type} (plan : List X → List GOp) : Prop :=
  ∀ xs, ∀ op ∈ plan xs, (∃ e, op = .removeEdge e) ∨ (∃ u, op = .removeVertex u) ∨ op = .clear

/-- The turns of the loop: each item with the object before and after the calls made for it. -/
def turns {S X Op Out : Type} (exec : Op → PyM S Out) (plan : List X → List Op) : S → List X → List X → List (X × S × S)
  | _, _, [] => []
  | s, past, x :: l =>
    (x, s, afterCalls exec (plan (past ++ [x])) s) :: turns exec plan (afterCalls exec (plan (past ++ [x])) s) (past ++ [x]) l

/-- The object after the turns of the loop for these items. -/
def afterTurns {S X Op Out : Type} (exec : Op → PyM S Out) (plan : List X → List Op) : S → List X → List X → S
  | s, _, [] => s
  | s, past, x :: l => afterTurns exec plan (afterCalls exec (plan (past ++ [x])) s) (past ++ [x]) l

/-- What is promised of a loop over the items of `s`, whose body follows `plan`: no item is delivered twice; each one is there when it is delivered;
the loop ends, normally or with `RuntimeError`; it ends normally exactly if no turn changes what `quiet` compares; in this case no item that is there
from the beginning to the end is missed. -/
structure Delivers {S X Op Out : Type} (exec : Op → PyM S Out) (plan : List X → List Op) (items : S → List X) (quiet : X → S → S → Prop) (s : S)
    (out : Except PyErr Unit × Walk S X) : Prop where
  once : out.2.seen.Nodup
  obj : out.2.obj = afterTurns exec plan s [] out.2.seen
  present : ∀ t ∈ turns exec plan s [] out.2.seen, t.1 ∈ items t.2.1
  outcome : out.1 = .ok () ∨ out.1 = .error .runtimeError
  detected : out.1 = .ok () ↔ ∀ t ∈ turns exec plan s [] out.2.seen, quiet t.1 t.2.1 t.2.2
  complete : out.1 = .ok () → ∀ x ∈ items s, x ∈ items out.2.obj → x ∈ out.2.seen

/-- The contents of the dictionary `adjacencies[u]` of the successors of `u`. -/
def successorsOf (adj : Dict Nat (Dict Nat (List Nat))) (u : Nat) : List Nat := (adj.getD u []).keys

/-- The contents of the set `adjacencies[u][v]` of the parallel edges from `u` to `v`. -/
def parallelsOf (adj : Dict Nat (Dict Nat (List Nat))) (u v : Nat) : List Nat := (adj.getD u []).getD v []

/-- The turn for an edge from `u` to `v` changed neither the successors of `u` nor the edges from `u` to `v`. -/
def QuietArc (adj adj' : Dict Nat (Dict Nat (List Nat))) (u v : Nat) : Prop :=
  successorsOf adj' u = successorsOf adj u ∧ parallelsOf adj' u v = parallelsOf adj u v

end PyBGL
