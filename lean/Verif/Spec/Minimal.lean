import Verif.Spec.Language

/-!
# Equivalence of states
-/

namespace PyBGL
variable {A : Type}

/-- The right language of a state: the words which lead from it to a final state. -/
def Automaton.Right (g : Automaton A) (q : Nat) (w : List A) : Prop := ∃ f, LPath g.Trans q w f ∧ g.isFinal f = true

/-- No word distinguishes `p` from `q`: the same words can be read from both, and the same words are accepted from both. -/
def Automaton.Indist (g : Automaton A) (p q : Nat) : Prop :=
  ∀ w, ((∃ r, LPath g.Trans p w r) ↔ ∃ r, LPath g.Trans q w r) ∧ (g.Right p w ↔ g.Right q w)

/-- No word distinguishes `p` from `q`, when each state carries a label: a word that can be read from one can be read from the other, and leads
from both to states which are both final or both non-final, and carry the same label. -/
def Automaton.LabelIndist {L : Type} (g : Automaton A) (label : Nat → L) (p q : Nat) : Prop :=
  ∀ w, (∀ r, LPath g.Trans p w r → ∃ s, LPath g.Trans q w s ∧ g.isFinal r = g.isFinal s ∧ label r = label s) ∧
    ∀ s, LPath g.Trans q w s → ∃ r, LPath g.Trans p w r ∧ g.isFinal r = g.isFinal s ∧ label r = label s

end PyBGL
