import Verif.Model.Automaton

/-!
# `is_finite`, `is_deterministic` and `is_minimal`
-/

namespace PyBGL

/-- What these functions return: a Boolean, or an exception object (returned, not raised). -/
inductive Answer where
  | bool (b : Bool)
  | exception (e : PyErr)
  deriving DecidableEq, Repr

/-- `if x: …`: an exception object, as any object that defines neither `__bool__` nor `__len__`, counts as true. -/
def Answer.truthy : Answer → Bool
  | .bool b => b
  | .exception _ => true

namespace Automaton
variable {A : Type}

/-- `Automaton.is_finite` and `is_finite(g)`, automaton.py:365-373 and 707-715. -/
def isFinite (_ : Automaton A) : Answer := .bool true

/-- `Automaton.is_deterministic` and `is_deterministic(g)`, automaton.py:375-384 and 718-726. -/
def isDeterministic (_ : Automaton A) : Answer := .bool true

/-- `is_minimal(g)`, automaton.py:746-747: `return NotImplementedError()`. -/
def isMinimal (_ : Automaton A) : Answer := .exception .notImplementedError

end Automaton
end PyBGL
