import Verif.Props.C65_C66_Heap

/-!
# C66: when `ClosedPlus` and `ClosedTime` are associative
-/

namespace PyBGL

/-- **C66** (associativity, exactly when): `ClosedPlus` and `ClosedTime` give the same result on both sides exactly if one of the three numbers is the bound, or if, whenever one
of the two intermediate results is the bound, either the other one is as well or the third number changes nothing. -/
theorem C66_associative_exact (b x y z : Int) :
    (closedPlus b (closedPlus b x y) z = closedPlus b x (closedPlus b y z) ↔
      (x = b ∨ y = b ∨ z = b) ∨ (x + y = b → y + z = b ∨ z = 0) ∧ (y + z = b → x + y = b ∨ x = 0)) ∧
    (closedTime b (closedTime b x y) z = closedTime b x (closedTime b y z) ↔
      (x = b ∨ y = b ∨ z = b) ∨ (x * y = b → y * z = b ∨ b * z = b) ∧ (y * z = b → x * y = b ∨ x * b = b)) := by
  unfold closedPlus closedTime closedOperator
  constructor <;> by_cases hx : x = b <;> by_cases hy : y = b <;> by_cases hz : z = b <;> simp only [hx, hy, hz, true_or, or_true, if_true, or_self, if_false, false_or, or_false]
  · by_cases h1 : x + y = b <;> by_cases h2 : y + z = b <;> simp [h1, h2] <;> omega
  · by_cases h1 : x * y = b <;> by_cases h2 : y * z = b
    · simp [h1, h2]
    · simp only [h1, h2, if_true, if_false, forall_const, false_or, false_imp_iff, and_true]
      rw [← Int.mul_assoc, h1]
      exact eq_comm
    · simp only [h1, h2, if_true, if_false, forall_const, false_or, false_imp_iff, true_and]
      rw [Int.mul_assoc, h2]
    · simp [h1, h2, Int.mul_assoc]

/-- A sum that is associative although it meets the bound, and one that is not. -/
example : closedPlus 10 (closedPlus 10 7 3) 0 = closedPlus 10 7 (closedPlus 10 3 0) ∧ closedPlus 10 (closedPlus 10 7 3) 1 ≠ closedPlus 10 7 (closedPlus 10 3 1) := by decide

end PyBGL
