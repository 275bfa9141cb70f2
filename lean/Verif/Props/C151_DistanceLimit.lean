import Verif.Proofs.DistanceLimit

/-!
# C151: the edit distances within the limit of recursion of Python

A limit of `L` nested calls to `compute` stands for what is left of Python's limit of recursion when the distance is called.
-/

namespace PyBGL
variable {A : Type} [DecidableEq A]

/-- What a distance computed within the limit can do: return the distance of the words, or raise `RecursionError`. -/
def DistanceOr (run : Nat → List A → List A → Except (PyErr × MemoState) (Nat × MemoState)) (dist : List A → List A → Nat) : Prop :=
  ∀ (L : Nat) (x y : List A), (∃ m, run L x y = .ok (dist x y, m)) ∨ (∃ m, run L x y = .error (.runtimeError, m))

/-- The claim that the distance is returned for all words, whatever their lengths. -/
def DistanceAlways (L : Nat) (run : Nat → List A → List A → Except (PyErr × MemoState) (Nat × MemoState)) (dist : List A → List A → Nat) : Prop :=
  ∀ x y : List A, ∃ m, run L x y = .ok (dist x y, m)

omit [DecidableEq A] in
theorem distanceOr_of {plan : List A → List A → Nat → Nat → EditPlan} {dist : List A → List A → Nat}
    (h : ∀ x y, PlanEval (fun i j => dist (x.drop i) (y.drop j)) (plan x y)) : DistanceOr (fun L x y => computeR (plan x y) L 0 0 ⟨[], 0⟩) dist := by
  intro L x y
  rcases computeR_right (h x y) L 0 0 ⟨[], 0⟩ (fun i j v hv => by simp [Dict.get?] at hv) with ⟨m, e, _⟩ | ⟨m, e, _⟩
  · exact .inl ⟨m, by simpa using e⟩
  · exact .inr ⟨m, e⟩

/-- C151 (right): whatever the limit, the value returned is the distance, and the only exception is `RecursionError`. -/
theorem C151_right : DistanceOr (levenshteinLimited (A := A)) levenshteinDistance ∧ DistanceOr (lcsLimited (A := A)) lcsDistance ∧
    DistanceOr (damerauLevenshteinLimited (A := A)) damerauLevenshteinDistance :=
  ⟨distanceOr_of planEval_lev, distanceOr_of planEval_lcs, distanceOr_of planEval_dl⟩

/-- C151 (reuse): a call to `compute` on an object used before, also when one of its calls was interrupted by `RecursionError`, returns the distance of the
suffixes or raises `RecursionError`, and leaves `self.memoize` in such a state again. -/
theorem C151_reuse (x y : List A) (L i j : Nat) (m : MemoState) (hm : ∀ i j v, m.memo.get? (i, j) = some v → v = levenshteinDistance (x.drop i) (y.drop j)) :
    ∃ m' : MemoState, (∀ i j v, m'.memo.get? (i, j) = some v → v = levenshteinDistance (x.drop i) (y.drop j)) ∧
      (computeR (levPlan x y) L i j m = .ok (levenshteinDistance (x.drop i) (y.drop j), m') ∨ computeR (levPlan x y) L i j m = .error (.runtimeError, m')) := by
  rcases computeR_right (planEval_lev x y) L i j m hm with ⟨m', e, h⟩ | ⟨m', e, h⟩
  · exact ⟨m', h, .inl e⟩
  · exact ⟨m', h, .inr e⟩

/-- C151 (reuse), for `LcsDistance`. -/
theorem C151_reuse_lcs (x y : List A) (L i j : Nat) (m : MemoState) (hm : ∀ i j v, m.memo.get? (i, j) = some v → v = lcsDistance (x.drop i) (y.drop j)) :
    ∃ m' : MemoState, (∀ i j v, m'.memo.get? (i, j) = some v → v = lcsDistance (x.drop i) (y.drop j)) ∧
      (computeR (lcsPlan x y) L i j m = .ok (lcsDistance (x.drop i) (y.drop j), m') ∨ computeR (lcsPlan x y) L i j m = .error (.runtimeError, m')) := by
  rcases computeR_right (planEval_lcs x y) L i j m hm with ⟨m', e, h⟩ | ⟨m', e, h⟩
  · exact ⟨m', h, .inl e⟩
  · exact ⟨m', h, .inr e⟩

/-- C151 (reuse), for `DamerauLevenshteinDistance`. -/
theorem C151_reuse_damerau (x y : List A) (L i j : Nat) (m : MemoState)
    (hm : ∀ i j v, m.memo.get? (i, j) = some v → v = damerauLevenshteinDistance (x.drop i) (y.drop j)) :
    ∃ m' : MemoState, (∀ i j v, m'.memo.get? (i, j) = some v → v = damerauLevenshteinDistance (x.drop i) (y.drop j)) ∧
      (computeR (dlPlan x y) L i j m = .ok (damerauLevenshteinDistance (x.drop i) (y.drop j), m') ∨ computeR (dlPlan x y) L i j m = .error (.runtimeError, m')) := by
  rcases computeR_right (planEval_dl x y) L i j m hm with ⟨m', e, h⟩ | ⟨m', e, h⟩
  · exact ⟨m', h, .inl e⟩
  · exact ⟨m', h, .inr e⟩

omit [DecidableEq A] in
theorem ok_of_distanceOr {run : Nat → List A → List A → Except (PyErr × MemoState) (Nat × MemoState)} {dist : List A → List A → Nat} (h : DistanceOr run dist)
    {L : Nat} {x y : List A} (hok : ∃ r m, run L x y = .ok (r, m)) : ∃ m, run L x y = .ok (dist x y, m) := by
  obtain ⟨r, m, e⟩ := hok
  rcases h L x y with h' | ⟨m', e'⟩
  · exact h'
  · rw [e] at e'; cases e'

/-- C151 (enough, partial: only for a limit of at least `|x| + |y|` nested calls, and one): the distance is returned. -/
theorem C151_enough_partial (L : Nat) (x y : List A) (h1 : 1 ≤ L) (h : x.length + y.length ≤ L) :
    (∃ m, levenshteinLimited L x y = .ok (levenshteinDistance x y, m)) ∧ (∃ m, lcsLimited L x y = .ok (lcsDistance x y, m)) ∧
      (∃ m, damerauLevenshteinLimited L x y = .ok (damerauLevenshteinDistance x y, m)) :=
  ⟨ok_of_distanceOr C151_right.1 (computeR_enough (planOf_lev x y) L 0 0 _ h1 (by omega)),
    ok_of_distanceOr C151_right.2.1 (computeR_enough (planOf_lcs x y) L 0 0 _ h1 (by omega)),
    ok_of_distanceOr C151_right.2.2 (computeR_enough (planOf_dl x y) L 0 0 _ h1 (by omega))⟩

example : (∃ m, levenshteinLimited 4 ['a', 'b'] ['b', 'c'] = .ok (levenshteinDistance ['a', 'b'] ['b', 'c'], m)) := (C151_enough_partial 4 ['a', 'b'] ['b', 'c'] (by decide) (by decide)).1

/-- C151 (short): words that are both at least as long as the limit raise `RecursionError`, whatever their characters. -/
theorem C151_short (L : Nat) (x y : List A) (hx : L ≤ x.length) (hy : L ≤ y.length) :
    (∃ m, levenshteinLimited L x y = .error (.runtimeError, m)) ∧ (∃ m, lcsLimited L x y = .error (.runtimeError, m)) ∧
      (∃ m, damerauLevenshteinLimited L x y = .error (.runtimeError, m)) :=
  ⟨computeR_short (planOf_lev x y) L 0 0 _ (by simpa using hx) (by simpa using hy) (fun _ _ _ => rfl),
    computeR_short (planOf_lcs x y) L 0 0 _ (by simpa using hx) (by simpa using hy) (fun _ _ _ => rfl),
    computeR_short (planOf_dl x y) L 0 0 _ (by simpa using hx) (by simpa using hy) (fun _ _ _ => rfl)⟩

example : ∃ m, damerauLevenshteinLimited 2 ['a', 'b'] ['b', 'a', 'c'] = .error (.runtimeError, m) := (C151_short 2 _ _ (by decide) (by decide)).2.2

/-- C151 (counterexample): whatever the limit, the distance of some words is not returned. -/
theorem C151_always_counterexample [Inhabited A] (L : Nat) : ¬ DistanceAlways L (levenshteinLimited (A := A)) levenshteinDistance ∧
    ¬ DistanceAlways L (lcsLimited (A := A)) lcsDistance ∧ ¬ DistanceAlways L (damerauLevenshteinLimited (A := A)) damerauLevenshteinDistance := by
  have h := C151_short L (List.replicate L (default : A)) (List.replicate L default) (by simp) (by simp)
  refine ⟨fun hc => ?_, fun hc => ?_, fun hc => ?_⟩
  · obtain ⟨m, e⟩ := hc (List.replicate L default) (List.replicate L default)
    obtain ⟨m', e'⟩ := h.1
    rw [e] at e'; cases e'
  · obtain ⟨m, e⟩ := hc (List.replicate L default) (List.replicate L default)
    obtain ⟨m', e'⟩ := h.2.1
    rw [e] at e'; cases e'
  · obtain ⟨m, e⟩ := hc (List.replicate L default) (List.replicate L default)
    obtain ⟨m', e'⟩ := h.2.2
    rw [e] at e'; cases e'

/-- C151 (equal words): a word and itself need one nested call more than the length of the word, no more and no fewer. -/
theorem C151_equal_exact (L : Nat) (x : List A) :
    ((∃ m, levenshteinLimited L x x = .ok (levenshteinDistance x x, m)) ↔ x.length < L) ∧ ((∃ m, lcsLimited L x x = .ok (lcsDistance x x, m)) ↔ x.length < L) ∧
      ((∃ m, damerauLevenshteinLimited L x x = .ok (damerauLevenshteinDistance x x, m)) ↔ x.length < L) := by
  refine ⟨⟨fun ⟨m, e⟩ => ?_, fun h => ok_of_distanceOr C151_right.1 (computeR_equal (planOf_lev x x) L 0 _ (by omega) (by omega))⟩,
    ⟨fun ⟨m, e⟩ => ?_, fun h => ok_of_distanceOr C151_right.2.1 (computeR_equal (planOf_lcs x x) L 0 _ (by omega) (by omega))⟩,
    ⟨fun ⟨m, e⟩ => ?_, fun h => ok_of_distanceOr C151_right.2.2 (computeR_equal (planOf_dl x x) L 0 _ (by omega) (by omega))⟩⟩
  · by_contra hc
    obtain ⟨m', e'⟩ := (C151_short L x x (by omega) (by omega)).1
    rw [e] at e'; cases e'
  · by_contra hc
    obtain ⟨m', e'⟩ := (C151_short L x x (by omega) (by omega)).2.1
    rw [e] at e'; cases e'
  · by_contra hc
    obtain ⟨m', e'⟩ := (C151_short L x x (by omega) (by omega)).2.2
    rw [e] at e'; cases e'

example : (∃ m, lcsLimited 4 ['a', 'b', 'a'] ['a', 'b', 'a'] = .ok (lcsDistance ['a', 'b', 'a'] ['a', 'b', 'a'], m)) :=
  (C151_equal_exact 4 ['a', 'b', 'a']).2.1.mpr (by decide)

/-- C151 (disjoint words): two words that are not empty and have no common character need as many nested calls as the sum of their lengths. -/
theorem C151_disjoint_exact (L : Nat) (x y : List A) (hx : x ≠ []) (hy : y ≠ []) (hd : ∀ a ∈ x, a ∉ y) :
    ((∃ m, levenshteinLimited L x y = .ok (levenshteinDistance x y, m)) ↔ x.length + y.length ≤ L) ∧
      ((∃ m, lcsLimited L x y = .ok (lcsDistance x y, m)) ↔ x.length + y.length ≤ L) ∧
      ((∃ m, damerauLevenshteinLimited L x y = .ok (damerauLevenshteinDistance x y, m)) ↔ x.length + y.length ≤ L) := by
  have h1 : 0 < x.length := List.length_pos_iff.mpr hx
  have h2 : 0 < y.length := List.length_pos_iff.mpr hy
  refine ⟨⟨fun ⟨m, e⟩ => ?_, fun h => (C151_enough_partial L x y (by omega) h).1⟩, ⟨fun ⟨m, e⟩ => ?_, fun h => (C151_enough_partial L x y (by omega) h).2.1⟩,
    ⟨fun ⟨m, e⟩ => ?_, fun h => (C151_enough_partial L x y (by omega) h).2.2⟩⟩
  · by_contra hc
    obtain ⟨m', e'⟩ := computeR_disjoint (planOf_lev x y) hd L 0 ⟨[], 0⟩ h1 h2 (by omega) (fun _ _ _ => rfl)
    unfold levenshteinLimited at e
    rw [e] at e'; cases e'
  · by_contra hc
    obtain ⟨m', e'⟩ := computeR_disjoint (planOf_lcs x y) hd L 0 ⟨[], 0⟩ h1 h2 (by omega) (fun _ _ _ => rfl)
    unfold lcsLimited at e
    rw [e] at e'; cases e'
  · by_contra hc
    obtain ⟨m', e'⟩ := computeR_disjoint (planOf_dl x y) hd L 0 ⟨[], 0⟩ h1 h2 (by omega) (fun _ _ _ => rfl)
    unfold damerauLevenshteinLimited at e
    rw [e] at e'; cases e'

example : ¬ ∃ m, levenshteinLimited 4 ['a', 'b'] ['c', 'd', 'c'] = .ok (levenshteinDistance ['a', 'b'] ['c', 'd', 'c'], m) := fun h =>
  absurd ((C151_disjoint_exact 4 ['a', 'b'] ['c', 'd', 'c'] (by decide) (by decide) (by decide)).1.mp h) (by decide)

/-- The state left by a run, which returned or raised. -/
def stateOf : Except (PyErr × MemoState) (Nat × MemoState) → MemoState
  | .ok (_, m) => m
  | .error (_, m) => m

omit [DecidableEq A] in
theorem calls_of_plan {x y : List A} {plan : Nat → Nat → EditPlan} (hp : PlanOf x y plan) (L : Nat) :
    (stateOf (computeR plan L 0 0 ⟨[], 0⟩)).memo.length ≤ (x.length + 1) * (y.length + 1) ∧
      ((∃ r m, computeR plan L 0 0 ⟨[], 0⟩ = .ok (r, m)) → (stateOf (computeR plan L 0 0 ⟨[], 0⟩)).calls ≤ 1 + 4 * ((x.length + 1) * (y.length + 1))) ∧
      (stateOf (computeR plan L 0 0 ⟨[], 0⟩)).calls ≤ 1 + 4 * L + 4 * ((x.length + 1) * (y.length + 1)) := by
  rcases computeR_calls hp L 0 0 ⟨[], 0⟩ (by omega) (by omega) ⟨by simp [Dict.keys], by simp [Dict.keys]⟩ with ⟨r, m, e, h⟩ | ⟨er, m, e, h, hc⟩
  · have h1 := h.ok.length_le
    have h2 := h.calls
    simp only [List.length_nil] at h2
    rw [e]
    simp only [stateOf]
    exact ⟨h1, fun _ => by omega, by omega⟩
  · have h1 := h.length_le
    simp only [List.length_nil] at hc
    rw [e]
    simp only [stateOf]
    refine ⟨h1, fun ⟨r, m', e'⟩ => (by cases e'), by omega⟩

/-- C151 (calls): a distance that is returned was computed by at most `1 + 4 (|x| + 1) (|y| + 1)` calls to `compute`, and `self.memoize` never has more than
`(|x| + 1) (|y| + 1)` entries. An interrupted computation made at most four calls more for each nested call allowed. -/
theorem C151_calls (L : Nat) (x y : List A) (run : Nat → List A → List A → Except (PyErr × MemoState) (Nat × MemoState))
    (hrun : run = levenshteinLimited ∨ run = lcsLimited ∨ run = damerauLevenshteinLimited) :
    (stateOf (run L x y)).memo.length ≤ (x.length + 1) * (y.length + 1) ∧
      ((∃ r m, run L x y = .ok (r, m)) → (stateOf (run L x y)).calls ≤ 1 + 4 * ((x.length + 1) * (y.length + 1))) ∧
      (stateOf (run L x y)).calls ≤ 1 + 4 * L + 4 * ((x.length + 1) * (y.length + 1)) := by
  rcases hrun with rfl | rfl | rfl
  · exact calls_of_plan (planOf_lev x y) L
  · exact calls_of_plan (planOf_lcs x y) L
  · exact calls_of_plan (planOf_dl x y) L

end PyBGL
