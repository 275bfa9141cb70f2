import Verif.Model.PbfsObjects

/-!
# A visitor of the parallel search that stops at the first pair of states with a given property
-/

namespace PyBGL

/-- A visitor written by a user: it raises `err` at the first call to `examine_vertex` for a pair that satisfies `P`, and holds this pair. -/
def pairFinder {A : Type} (P : StatePair → Bool) (err : PyErr) : PObject A (Option StatePair) := fun ev _ x =>
  match ev with
  | .examineVertex q1 q2 => if P (q1, q2) then (.error err, some (q1, q2)) else (.ok (), x)
  | _ => (.ok (), x)

end PyBGL
