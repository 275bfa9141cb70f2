import Verif.Spec.LazyIter
import Verif.Spec.Language

/-! # Loops whose body calls methods of the automaton -/

namespace PyBGL
variable {A : Type}

/-- The plan only adds states and transitions, and sets initial and final states. -/
def AddsStates {X : Type} (plan : List X → List (AOp A)) : Prop :=
  ∀ xs, ∀ op ∈ plan xs, op = .addVertex ∨ (∃ q r a, op = .addEdge q r a) ∨ (∃ q b, op = .setInitial q b) ∨ ∃ q b, op = .setFinal q b

/-- The plan only removes states and transitions, and sets initial and final states. -/
def RemovesStates {X : Type} (plan : List X → List (AOp A)) : Prop :=
  ∀ xs, ∀ op ∈ plan xs, (∃ e, op = .removeEdge e) ∨ (∃ u, op = .removeVertex u) ∨ op = .clear ∨ (∃ q b, op = .setInitial q b) ∨
    ∃ q b, op = .setFinal q b

/-- The labels of the transitions from `q`. -/
def labelsFrom (g : Automaton A) (q : Nat) : List A := (g.outEdges q).map (·.distinguisher)

end PyBGL
