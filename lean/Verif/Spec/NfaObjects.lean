import Verif.Model.NfaObjects
import Verif.Spec.Tried

/-! # An automaton with shared sets, read as an automaton with values -/

namespace PyBGL
namespace ONfa
variable {A : Type}

/-- The automaton as it is now, each reference being replaced by the contents of the set. -/
def now (g : ONfa A) : Nfa A where
  lastVertexId := g.lastVertexId
  adj := g.adj.map fun p => (p.1, p.2.map fun t => (t.1, t.2.map fun s => (s.1, g.contents s.2)))
  initials := g.initials
  final := g.final
  eps := g.eps

/-- The automaton `g` is reached by calls on a new one, some of which may have raised. -/
def Made [DecidableEq A] (g : ONfa A) : Prop := ∃ eps qs n l, Tried Anything exec (init eps qs n) g l

/-- The automaton `g'` is reached from `g` by further calls, some of which may have raised. -/
def Later [DecidableEq A] (g g' : ONfa A) : Prop := ∃ l, Tried Anything exec g g' l

end ONfa
end PyBGL
