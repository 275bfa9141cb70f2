import Verif.Model.Algebra
import Verif.Model.Dijkstra
import Mathlib.Algebra.Order.Field.Basic
import Mathlib.Algebra.Order.Field.Rat
import Mathlib.Algebra.Order.Group.Abs

/-!
# Distances that are floating-point numbers

Python's `float` is modelled by a set of rational numbers and the rounding to the nearest of them, whichever it is in case of a tie. Infinite values and NaN are
not modelled.
-/

namespace PyBGL

/-- The numbers of a floating-point format, and its rounding. -/
structure FloatFormat where
  mem : Rat → Prop
  rnd : Rat → Rat
  zero : mem 0
  mem_rnd : ∀ x, mem (rnd x)
  nearest : ∀ x f, mem f → |rnd x - x| ≤ |f - x|

namespace FloatFormat

/-- The values of `pmap_vdist` when the weights are of type `float`: numbers of the format, and `INFINITY`, which is an `int` (algebra.py:9). -/
structure Num (F : FloatFormat) where
  val : Rat
  ok : F.mem val ∨ val = (INFINITY : Rat)
  deriving DecidableEq

/-- `0`. -/
def zeroNum (F : FloatFormat) : F.Num := ⟨0, .inl F.zero⟩

/-- `INFINITY`, algebra.py:9. -/
def infNum (F : FloatFormat) : F.Num := ⟨(INFINITY : Rat), .inr rfl⟩

/-- `Less.__call__` on floats, algebra.py:36-47. -/
def less (F : FloatFormat) (x y : F.Num) : Bool := decide (x.val < y.val)

/-- `ClosedPlus.__call__` on floats, algebra.py:101-117 and 120-146: the sum is rounded. -/
def closedPlus (F : FloatFormat) (x y : F.Num) : F.Num := if x = F.infNum ∨ y = F.infNum then F.infNum else ⟨F.rnd (x.val + y.val), .inl (F.mem_rnd _)⟩

/-- The arguments of `dijkstra_shortest_paths` and of `dijkstra_shortest_path` (dijkstra_shortest_paths.py:191-203, 404-416) with `compare=Less()`, the other
ones being left to their defaults, when the weights are of type `float`. -/
def args {E : Type} (F : FloatFormat) (weight : E → F.Num) (dflt : F.Num) : DijkstraArgs E F.Num :=
  ⟨weight, F.less, F.closedPlus, F.zeroNum, F.infNum, KeyOrd.comparable F.less, dflt⟩

/-- The same with `compare=None`, the default of `dijkstra_shortest_paths`: the keys of the heap are the distances themselves, dijkstra_shortest_paths.py:264-270. -/
def argsNone {E : Type} (F : FloatFormat) (weight : E → F.Num) (dflt : F.Num) : DijkstraArgs E F.Num :=
  ⟨weight, F.less, F.closedPlus, F.zeroNum, F.infNum, ⟨F.less, fun x y => decide (x = y)⟩, dflt⟩

end FloatFormat

end PyBGL
