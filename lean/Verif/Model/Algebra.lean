/-!
# Model of `algebra.py`

Numbers are Python integers (for floating-point numbers, see `Model/FloatWeights`).
-/

namespace PyBGL

/-- `INFINITY = sys.maxsize`, algebra.py:9, on 64-bit platforms. -/
def INFINITY : Int := 9223372036854775807

/-- `Less.__call__`, algebra.py:36-47. -/
def less (x y : Int) : Bool := decide (x < y)

/-- `GreaterThan.__call__`, algebra.py:55-66. -/
def greaterThan (x y : Int) : Bool := decide (x > y)

/-- `ClosedOperator.__call__`, algebra.py:101-117. -/
def closedOperator (absorbing : Int) (impl : Int → Int → Int) (x y : Int) : Int :=
  if x = absorbing ∨ y = absorbing then absorbing else impl x y

/-- `ClosedPlus`, algebra.py:120-146. -/
def closedPlus (absorbing : Int := INFINITY) : Int → Int → Int := closedOperator absorbing (· + ·)

/-- `ClosedTime`, algebra.py:149-175. -/
def closedTime (absorbing : Int := INFINITY) : Int → Int → Int := closedOperator absorbing (· * ·)

/-- `ClosedMax`, algebra.py:178-204. -/
def closedMax (absorbing : Int := INFINITY) : Int → Int → Int := closedOperator absorbing max

/-- `ClosedMin`, algebra.py:207-233. -/
def closedMin (absorbing : Int := 0) : Int → Int → Int := closedOperator absorbing min

end PyBGL
