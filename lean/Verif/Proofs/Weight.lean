import Mathlib.Data.List.Basic

/-!
# A termination weight for worklists over trees and acyclic graphs
-/

namespace PyBGL

/-- `1 +` the weights of the children, unfolded `fuel` times. -/
def weightAux (children : Nat → List Nat) : Nat → Nat → Nat
  | 0, _ => 1
  | f + 1, q => 1 + ((children q).map (weightAux children f)).sum

/-- If children have larger, bounded numbers, there is a weight exceeding the sum of the weights of the
children. -/
theorem exists_weight (children : Nat → List Nat) (n : Nat) (h : ∀ q, ∀ c ∈ children q, q < c ∧ c < n) :
    ∃ W : Nat → Nat, ∀ q, W q = 1 + ((children q).map W).sum := by
  have stable : ∀ f q, n - q ≤ f → weightAux children (f + 1) q = weightAux children f q := by
    intro f
    induction f with
    | zero =>
      intro q hq
      have : children q = [] := by
        cases hc : children q with
        | nil => rfl
        | cons c l =>
          have := h q c (by rw [hc]; simp)
          omega
      simp [weightAux, this]
    | succ f ih =>
      intro q hq
      rw [weightAux, weightAux]
      congr 2
      apply List.map_congr_left
      intro c hc
      have := h q c hc
      exact ih c (by omega)
  refine ⟨weightAux children n, fun q => ?_⟩
  rw [← stable n q (by omega), weightAux]

theorem sum_map_filter_le {X : Type} (l : List X) (p : X → Bool) (f : X → Nat) :
    ((l.filter p).map f).sum ≤ (l.map f).sum := by
  induction l with
  | nil => simp
  | cons a l ih =>
    rw [List.filter_cons]
    split
    · simp; omega
    · simp; omega

end PyBGL
