import Verif.Prelude.PyM

/-!
# Histories of any object in which exceptions are caught
-/

namespace PyBGL

/-- `Tried pre exec s0 s l`: starting from `s0`, the calls logged in `l` (most recent first, with what they returned or raised) lead to `s`. Each of them was made in a state allowed by `pre`
and may have raised, in which case the caller caught the exception and went on. -/
inductive Tried {S Op R : Type} (pre : S → Op → Prop) (exec : Op → PyM S R) (s0 : S) : S → List (Op × Except PyErr R) → Prop
  | start : Tried pre exec s0 s0 []
  | call {s : S} {l : List (Op × Except PyErr R)} (op : Op) (hp : pre s op) (h : Tried pre exec s0 s l) :
      Tried pre exec s0 (exec op s).2 ((op, (exec op s).1) :: l)

/-- No restriction on the calls. -/
def Anything {S Op : Type} (_ : S) (_ : Op) : Prop := True

end PyBGL
