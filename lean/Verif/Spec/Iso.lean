import Verif.Spec.Minimal

/-!
# Automata that differ only by the numbers of their states
-/

namespace PyBGL
variable {A : Type}

/-- `f` renames the states of `g` into the states of `h`. -/
structure Automaton.IsoBy [DecidableEq A] (g h : Automaton A) (f : Nat → Nat) : Prop where
  maps : ∀ q ∈ g.vertices, f q ∈ h.vertices
  inj : ∀ p ∈ g.vertices, ∀ q ∈ g.vertices, f p = f q → p = q
  surj : ∀ r ∈ h.vertices, ∃ q ∈ g.vertices, f q = r
  init : h.q0 = g.q0.map f
  fin : ∀ q ∈ g.vertices, h.isFinal (f q) = g.isFinal q
  delta : ∀ q ∈ g.vertices, ∀ a, h.delta (f q) a = (g.delta q a).map f

/-- `w` labels a path from the initial state. -/
def Automaton.Reads (g : Automaton A) (w : List A) : Prop := ∃ q0 r, g.q0 = some q0 ∧ LPath g.Trans q0 w r

end PyBGL
