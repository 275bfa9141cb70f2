import Verif.Model.AutomatonTests
import Verif.Spec.Language
import Verif.Proofs.AutomatonLemmas

/-! # Deterministic and minimal automata -/

namespace PyBGL
namespace Automaton
variable {A : Type}

/-- From a state, no two transitions have the same label. -/
def Deterministic (g : Automaton A) : Prop :=
  ∀ e ∈ g.edges, ∀ e' ∈ g.edges, e.source = e'.source → e.distinguisher = e'.distinguisher → e = e'

/-- An automaton in the usual sense: no key of its dictionaries occurs twice, the transitions lead to states, and the initial state is one of the states. -/
def Proper [DecidableEq A] (k : Automaton A) : Prop :=
  AWF k ∧ (∀ q a r, k.Trans q a r → r ∈ k.vertices) ∧ ∃ q0 ∈ k.vertices, k.q0 = some q0

/-- No automaton that recognises the same language has fewer states. -/
def Fewest [DecidableEq A] (g : Automaton A) : Prop :=
  ∀ k : Automaton A, Proper k → (∀ w, k.Lang w ↔ g.Lang w) → g.vertices.length ≤ k.vertices.length

end Automaton
end PyBGL
