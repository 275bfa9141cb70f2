import Verif.Proofs.Damerau

/-!
# C67–C71: edit distances
-/

namespace PyBGL
variable {A : Type} [DecidableEq A]

/-! ## C67, C68 -/

/-- **C67**: `levenshtein_distance(x, y)` is the least number of single-symbol insertions, deletions and
substitutions turning `x` into `y`. -/
theorem C67_levenshtein (x y : List A) :
    IsLeastNat (fun n => Steps EditStep n x y) (levenshteinDistance x y) := by
  refine ⟨editSteps_of_align (opt_levenshtein x y).1, fun m hm => ?_⟩
  obtain ⟨k, hk, h⟩ := align_of_steps (sub := True) (fun _ _ => align_of_editStep) hm
  exact Nat.le_trans ((opt_levenshtein x y).2 _ h) hk

/-- **C67**: `levenshtein_distance_naive` computes the same number. -/
theorem C67_naive (x y : List A) : levenshteinDistanceNaive x y = levenshteinDistance x y := by
  refine Opt.unique (sub := True) (swap := False) ?_ (opt_levenshtein x y)
  unfold levenshteinDistanceNaive
  split
  · exact opt_right_nil _
  · exact opt_left_nil _
  · split
    · rename_i h; subst h; exact opt_keep _ (opt_levenshtein _ _)
    · rename_i h; exact opt_lev_ne h (opt_levenshtein _ _) (opt_levenshtein _ _) (opt_levenshtein _ _)

/-- **C67**: whatever correct values have been memoized before, `compute(0, 0)` returns the same number. -/
theorem C67_memo (x y : List A) (m : Memo)
    (hm : ∀ i j v, m.get? (i, j) = some v → v = levenshteinDistance (x.drop i) (y.drop j)) :
    (levCompute x y 0 0 m).1 = levenshteinDistance x y := by
  have := (levCompute_spec x y _ 0 0 m rfl (fun i j v h => by rw [hm i j v h]; exact opt_levenshtein _ _)).1
  exact this.unique (opt_levenshtein x y)

/-- **C68**: `levenshtein_distance` is a metric. -/
theorem C68_metric : IsMetric (levenshteinDistance (A := A)) := metric_of_opt opt_levenshtein

example : Steps EditStep 2 "kit".toList "sits".toList :=
  .tail (.tail (.refl _) (.substitute [] "it".toList 'k' 's')) (.insert "sit".toList [] 's')

/-! ## C69 -/

/-- **C69**: `len(x) + len(y) - lcs_distance(x, y)` is twice the length of a longest common
subsequence. -/
theorem C69_lcs (x y : List A) :
    (∃ z : List A, z.Sublist x ∧ z.Sublist y ∧ lcsDistance x y + 2 * z.length = x.length + y.length) ∧
    ∀ z : List A, z.Sublist x → z.Sublist y → lcsDistance x y + 2 * z.length ≤ x.length + y.length := by
  refine ⟨lcs_of_align (opt_lcs x y).1, fun z h1 h2 => ?_⟩
  obtain ⟨k, hk, h⟩ := align_of_common h1 h2
  have := (opt_lcs x y).2 _ h
  omega

/-- **C69**: equivalently, `lcs_distance(x, y)` is the least number of insertions and deletions turning `x`
into `y`. -/
theorem C69_indel (x y : List A) : IsLeastNat (fun n => Steps IndelStep n x y) (lcsDistance x y) := by
  refine ⟨indelSteps_of_align (opt_lcs x y).1, fun m hm => ?_⟩
  obtain ⟨k, hk, h⟩ := align_of_steps (sub := False) (fun _ _ => align_of_indelStep) hm
  exact Nat.le_trans ((opt_lcs x y).2 _ h) hk

/-- **C69**: `lcs_distance` is a metric. -/
theorem C69_metric : IsMetric (lcsDistance (A := A)) := metric_of_opt opt_lcs

/-- **C69**: `lcs_distance_naive` computes the same number. -/
theorem C69_naive (x y : List A) : lcsDistanceNaive x y = lcsDistance x y := by
  refine Opt.unique (sub := False) (swap := False) ?_ (opt_lcs x y)
  unfold lcsDistanceNaive
  split
  · exact opt_right_nil _
  · exact opt_left_nil _
  · split
    · rename_i h; subst h; exact opt_keep _ (opt_lcs _ _)
    · rename_i h; exact opt_lcs_ne h (opt_lcs _ _) (opt_lcs _ _)

example : "ab".toList.Sublist "axb".toList ∧ "ab".toList.Sublist "yab".toList := by decide

/-! ## C70, C71 -/

/-- **C70**: `damerau_levenshtein_distance(x, y)` is the least cost of an alignment of `x` and `y` with
insertions, deletions, substitutions and transpositions of two adjacent symbols, no symbol being edited
twice. -/
theorem C70_damerau (x y : List A) :
    IsLeastNat (fun n => Align True True n x y) (damerauLevenshteinDistance x y) := opt_damerau x y

/-- **C70**: it is symmetric, 0 exactly on equal words, and at most the Levenshtein distance. -/
theorem C70_properties (x y : List A) :
    damerauLevenshteinDistance x y = damerauLevenshteinDistance y x ∧
    (damerauLevenshteinDistance x y = 0 ↔ x = y) ∧
    damerauLevenshteinDistance x y ≤ levenshteinDistance x y := by
  refine ⟨(opt_damerau x y).unique (opt_damerau y x).symm, ⟨(opt_damerau x y).1.eq_of_zero, ?_⟩, ?_⟩
  · rintro rfl; have := (opt_damerau x x).2 0 (Align.refl x); omega
  · exact (opt_damerau x y).2 _ ((opt_levenshtein x y).1.mono id False.elim)

/-- **C70**: `damerau_levenshtein_distance_naive` computes the same number. -/
theorem C70_naive : ∀ x y : List A, damerauLevenshteinDistanceNaive x y = damerauLevenshteinDistance x y := by
  have key : ∀ (N : Nat) (x y : List A), x.length + y.length = N →
      Opt True True x y (damerauLevenshteinDistanceNaive x y) := by
    intro N
    induction N using Nat.strongRecOn with
    | _ N ih =>
      intro x y hN
      match x, y with
      | x, [] => cases x <;> simp only [damerauLevenshteinDistanceNaive] <;> exact opt_right_nil _
      | [], b :: y => simp only [damerauLevenshteinDistanceNaive]; exact opt_left_nil _
      | a :: x, b :: y =>
        rw [damerauLevenshteinDistanceNaive]
        simp only [List.length_cons] at hN
        split
        · rename_i h; subst h; exact opt_keep _ (ih _ (by omega) _ _ rfl)
        · rename_i hab
          have h1 := ih _ (by simp; omega) x (b :: y) rfl
          have h2 := ih _ (by simp; omega) (a :: x) y rfl
          have h3 := ih _ (by omega) x y rfl
          simp only
          split
          · rename_i a' x₂ b' y₂
            split
            · rename_i hs
              obtain ⟨rfl, rfl⟩ := hs
              have h4 := ih _ (by simp at hN; omega) x₂ y₂ rfl
              exact opt_dl_ne_swap hab h1 h2 h3 h4
            · rename_i hs
              refine opt_dl_ne_noswap hab ?_ h1 h2 h3
              rintro x' y' ⟨e1, e2⟩
              injection e1 with e1; injection e2 with e2
              exact hs ⟨e2.symm, e1⟩
          · rename_i hns
            refine opt_dl_ne_noswap hab ?_ h1 h2 h3
            rintro x' y' ⟨e1, e2⟩
            exact hns _ _ _ _ e1 e2
  exact fun x y => (key _ x y rfl).unique (opt_damerau x y)

example : Align True True 1 "abc".toList "bac".toList := .transpose trivial 'a' 'b' (.keep 'c' .nil)

/-- **C71, full statement.** -/
def C71_statement (A : Type) [DecidableEq A] : Prop :=
  ∀ x y z : List A, damerauLevenshteinDistance x z ≤ damerauLevenshteinDistance x y + damerauLevenshteinDistance y z

/-- **C71 is false of the code**: `CA → AC → ABC` costs 1 + 1 but `CA → ABC` costs 3. -/
theorem C71_triangle_counterexample : ¬ C71_statement Char := by
  intro h
  have := h ['C', 'A'] ['A', 'C'] ['A', 'B', 'C']
  simp only [← C70_naive] at this
  simp [damerauLevenshteinDistanceNaive] at this

/-- **C71, partial**: what holds instead: the shorter side counts twice. -/
theorem C71_weak_triangle_partial (x y z : List A) :
    damerauLevenshteinDistance x z ≤ damerauLevenshteinDistance x y + damerauLevenshteinDistance y z +
      min (damerauLevenshteinDistance x y) (damerauLevenshteinDistance y z) := by
  have h1 := damerau_triangle_left x y z
  have h2 := damerau_triangle_left z y x
  rw [(C70_properties z x).1, (C70_properties z y).1, (C70_properties y x).1] at h2
  omega

/-- The bound is reached: 3 = 1 + 1 + 1. -/
example : damerauLevenshteinDistance ['C', 'A'] ['A', 'B', 'C'] = 3 ∧ damerauLevenshteinDistance ['C', 'A'] ['A', 'C'] = 1 ∧
    damerauLevenshteinDistance ['A', 'C'] ['A', 'B', 'C'] = 1 := by
  simp only [← C70_naive]
  simp [damerauLevenshteinDistanceNaive]

end PyBGL
