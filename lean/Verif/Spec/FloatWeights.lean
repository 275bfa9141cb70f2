import Verif.Model.FloatWeights

/-!
# Floating-point sums, double precision (specification)
-/

namespace PyBGL
namespace FloatFormat

/-- The sum of a list of numbers, from left to right, rounded at each step, from `x`. -/
def sumFrom (F : FloatFormat) (x : Rat) (l : List Rat) : Rat := l.foldl (fun d w => F.rnd (d + w)) x

/-- The relative error of one addition of non-negative numbers is at most `ε`. -/
def Precise (F : FloatFormat) (ε : Rat) : Prop := ∀ a b, F.mem a → F.mem b → 0 ≤ a → 0 ≤ b → |F.rnd (a + b) - (a + b)| ≤ ε * (a + b)

/-- The numbers `m 2^e / 2^q` with `|m| < 2^p`: the format has `p` significant bits, the least positive number is `2^-q`. -/
def Bits (p q : Nat) (x : Rat) : Prop := ∃ (m : Int) (e : Nat), |m| < 2 ^ p ∧ x * 2 ^ q = m * 2 ^ e

/-- The numbers of the IEEE 754 format binary64, which is that of Python's `float`, if the greatest exponent is ignored. -/
def Binary64 (F : FloatFormat) : Prop := ∀ x, F.mem x ↔ Bits 53 1074 x

end FloatFormat
end PyBGL
