import Verif.Model.HeapCalls
import Verif.Model.BKTreeCalls

/-!
# Calls to functions given by the caller

A function given by the caller is a method of the rest of the world `S`. Any quantity `cost : S → Nat` may be measured there: the number of calls made so far, or the time
spent.
-/

namespace PyBGL

/-- A call increases `cost` by at most `c`, whether it returns or raises. -/
def CostsAtMost {S R : Type} (cost : S → Nat) (c : Nat) (m : PyM S R) : Prop := ∀ s, cost (m s).2 ≤ cost s + c

namespace BKTree

/-- The trees obtained from an empty one by any insertions, from any node, with any distances, which may change from one insertion to the next and may raise. -/
inductive Made {X : Type} : BKTree X → Prop
  | empty : Made .empty
  | insert {S : Type} {t t' : BKTree X} {dist : X → X → PyM S Nat} {w : X} {u : Option Nat} {fuel : Nat} {s s' : S} {r : Except PyErr Nat} :
      Made t → t.insertM dist w u fuel s = some (r, t', s') → Made t'

end BKTree
end PyBGL
