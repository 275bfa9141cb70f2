import Verif.Model.Product
import Verif.Spec.Language

/-!
# Specification of the parallel search and of the product constructions
-/

namespace PyBGL
namespace Pbfs
variable {A : Type}

/-- The pairs examined, in order. -/
def examined (tr : List (PEvent A)) : List StatePair := tr.filterMap (fun | .examineVertex q1 q2 => some (q1, q2) | _ => none)

/-- The pairs discovered, in order. -/
def discovered (tr : List (PEvent A)) : List StatePair := tr.filterMap (fun | .discover q1 q2 => some (q1, q2) | _ => none)

/-- The pairs finished, in order. -/
def finished (tr : List (PEvent A)) : List StatePair := tr.filterMap (fun | .finish q1 q2 => some (q1, q2) | _ => none)

/-- The pairs started, in order. -/
def started (tr : List (PEvent A)) : List StatePair := tr.filterMap (fun | .start q1 q2 => some (q1, q2) | _ => none)

/-- The joint transitions examined, in order. -/
def edges (tr : List (PEvent A)) : List (Option (AEdge A) × Option (AEdge A) × A) :=
  tr.filterMap (fun | .examineEdge e1 e2 a => some (e1, e2, a) | _ => none)

/-- The joint transitions classified, in order. -/
def classified (tr : List (PEvent A)) : List (Option (AEdge A) × Option (AEdge A) × A) :=
  tr.filterMap (fun
    | .treeEdge e1 e2 a => some (e1, e2, a)
    | .grayTarget e1 e2 a => some (e1, e2, a)
    | .blackTarget e1 e2 a => some (e1, e2, a)
    | _ => none)

end Pbfs

/-- The transition of `g` from `q` (which may be `BOTTOM`) by `a`, as handed to visitors. -/
def jointEdge {A : Type} [DecidableEq A] (g : Automaton A) (q : Option Nat) (a : A) : Option (AEdge A) :=
  q.map fun q => ⟨q, g.delta q a, a⟩

/-- `g.After w q`: reading `w` from the initial state of `g` leads to the state `q`, or to `BOTTOM` (`q = none`) when no path is labelled by `w`. -/
def Automaton.After {A : Type} (g : Automaton A) (w : List A) : Option Nat → Prop
  | some r => ∃ q₀, g.q0 = some q₀ ∧ LPath g.Trans q₀ w r
  | none => ∀ q₀ r, g.q0 = some q₀ → ¬LPath g.Trans q₀ w r

end PyBGL
