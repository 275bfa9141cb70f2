import Verif.Props.C67_C71_Distance

/-!
# C120: laws of the edit distances
-/

namespace PyBGL
variable {A B : Type} [DecidableEq A] [DecidableEq B] {sub swap : Prop}

theorem Align.reverse {n : Nat} {x y : List A} (h : Align sub swap n x y) : Align sub swap n x.reverse y.reverse := by
  induction h with
  | nil => exact .nil
  | keep a _ ih => simpa using ih.append (Align.keep a .nil)
  | del a _ ih => simpa using ih.append (Align.del a .nil)
  | ins a _ ih => simpa using ih.append (Align.ins a .nil)
  | subst hs a b _ ih => simpa using ih.append (Align.subst hs a b .nil)
  | transpose hs a b _ ih => simpa using ih.append (Align.transpose hs b a .nil)

theorem Align.map (f : A → B) {n : Nat} {x y : List A} (h : Align sub swap n x y) :
    Align sub swap n (x.map f) (y.map f) := by
  induction h with
  | nil => exact .nil
  | keep a _ ih => exact .keep _ ih
  | del a _ ih => exact .del _ ih
  | ins a _ ih => exact .ins _ ih
  | subst hs a b _ ih => exact .subst hs _ _ ih
  | transpose hs a b _ ih => exact .transpose hs _ _ ih

theorem Align.of_map {f : A → B} (hf : ∀ a b, f a = f b → a = b) {n : Nat} {x y : List A}
    (h : Align sub swap n (x.map f) (y.map f)) : Align sub swap n x y := by
  generalize hX : x.map f = X at h
  generalize hY : y.map f = Y at h
  induction h generalizing x y with
  | nil =>
    obtain rfl := List.map_eq_nil_iff.1 hX
    obtain rfl := List.map_eq_nil_iff.1 hY
    exact .nil
  | keep a _ ih =>
    obtain ⟨a₁, x, rfl, ha, rfl⟩ := List.map_eq_cons_iff.1 hX
    obtain ⟨a₂, y, rfl, ha', rfl⟩ := List.map_eq_cons_iff.1 hY
    obtain rfl := hf _ _ (ha.trans ha'.symm)
    exact .keep _ (ih rfl rfl)
  | del a _ ih =>
    obtain ⟨a₁, x, rfl, ha, rfl⟩ := List.map_eq_cons_iff.1 hX
    exact .del _ (ih rfl hY)
  | ins a _ ih =>
    obtain ⟨a₂, y, rfl, ha', rfl⟩ := List.map_eq_cons_iff.1 hY
    exact .ins _ (ih hX rfl)
  | subst hs a b _ ih =>
    obtain ⟨a₁, x, rfl, ha, rfl⟩ := List.map_eq_cons_iff.1 hX
    obtain ⟨a₂, y, rfl, ha', rfl⟩ := List.map_eq_cons_iff.1 hY
    exact .subst hs _ _ (ih rfl rfl)
  | transpose hs a b _ ih =>
    obtain ⟨a₁, x, rfl, ha, hx⟩ := List.map_eq_cons_iff.1 hX
    obtain ⟨b₁, x, rfl, hb, rfl⟩ := List.map_eq_cons_iff.1 hx
    obtain ⟨b₂, y, rfl, hb', hy⟩ := List.map_eq_cons_iff.1 hY
    obtain ⟨a₂, y, rfl, ha', rfl⟩ := List.map_eq_cons_iff.1 hy
    obtain rfl := hf _ _ (ha.trans ha'.symm)
    obtain rfl := hf _ _ (hb.trans hb'.symm)
    exact .transpose hs _ _ (ih rfl rfl)

/-- Substituting as many symbols as possible. -/
theorem Align.max (hs : sub) : ∀ (x y : List A), Align sub swap (Nat.max x.length y.length) x y
  | [], y => by simpa using Align.insAll y
  | x, [] => by simpa using Align.delAll x
  | a :: x, b :: y => by
    have := Align.subst hs a b (Align.max hs x y)
    rwa [← Nat.succ_eq_add_one, ← Nat.succ_max_succ] at this

/-- A substitution is a deletion and an insertion. -/
theorem Align.noSub {n : Nat} {x y : List A} (h : Align True False n x y) : ∃ k ≤ 2 * n, Align False False k x y := by
  induction h with
  | nil => exact ⟨0, Nat.le_refl _, .nil⟩
  | keep a _ ih => obtain ⟨k, hk, h⟩ := ih; exact ⟨k, hk, .keep a h⟩
  | del a _ ih => obtain ⟨k, hk, h⟩ := ih; exact ⟨k + 1, by omega, .del a h⟩
  | ins a _ ih => obtain ⟨k, hk, h⟩ := ih; exact ⟨k + 1, by omega, .ins a h⟩
  | subst hs a b _ ih => obtain ⟨k, hk, h⟩ := ih; exact ⟨k + 2, by omega, .del a (.ins b h)⟩
  | transpose hs => exact hs.elim

/-- A transposition is two substitutions. -/
theorem Align.noSwap {n : Nat} {x y : List A} (h : Align True True n x y) : ∃ k ≤ 2 * n, Align True False k x y := by
  induction h with
  | nil => exact ⟨0, Nat.le_refl _, .nil⟩
  | keep a _ ih => obtain ⟨k, hk, h⟩ := ih; exact ⟨k, hk, .keep a h⟩
  | del a _ ih => obtain ⟨k, hk, h⟩ := ih; exact ⟨k + 1, by omega, .del a h⟩
  | ins a _ ih => obtain ⟨k, hk, h⟩ := ih; exact ⟨k + 1, by omega, .ins a h⟩
  | subst hs a b _ ih => obtain ⟨k, hk, h⟩ := ih; exact ⟨k + 1, by omega, .subst hs a b h⟩
  | transpose hs a b _ ih =>
    obtain ⟨k, hk, h⟩ := ih
    exact ⟨k + 2, by omega, .subst trivial a b (.subst trivial b a h)⟩

/-- What the laws below need of a distance. -/
theorem laws_of_opt {dA : List A → List A → Nat} {dB : List B → List B → Nat} (hA : ∀ x y, Opt sub swap x y (dA x y))
    (hB : ∀ x y, Opt sub swap x y (dB x y)) :
    (∀ x y : List A, dA x.reverse y.reverse = dA x y) ∧
    (∀ p x y s : List A, dA (p ++ x ++ s) (p ++ y ++ s) = dA x y) ∧
    (∀ x y x' y' : List A, dA (x ++ x') (y ++ y') ≤ dA x y + dA x' y') ∧
    (∀ f : A → B, (∀ a b, f a = f b → a = b) → ∀ x y, dB (x.map f) (y.map f) = dA x y) ∧
    (∀ x y : List A, x.length ≤ dA x y + y.length ∧ y.length ≤ dA x y + x.length) := by
  have hrev : ∀ x y : List A, dA x.reverse y.reverse ≤ dA x y := fun x y => (hA _ _).2 _ (hA x y).1.reverse
  have hrev' : ∀ x y : List A, dA x.reverse y.reverse = dA x y := fun x y =>
    Nat.le_antisymm (hrev x y) (by simpa using hrev x.reverse y.reverse)
  have hpre : ∀ p x y : List A, dA (p ++ x) (p ++ y) = dA x y := by
    intro p x y
    induction p with
    | nil => rfl
    | cons a p ih => rw [← ih]; exact (hA _ _).unique (opt_keep a (hA _ _))
  refine ⟨hrev', ?_, ?_, ?_, fun x y => (hA x y).1.length_le⟩
  · intro p x y s
    rw [List.append_assoc, List.append_assoc, hpre, ← hrev', List.reverse_append, List.reverse_append, hpre, hrev']
  · intro x y x' y'
    exact (hA _ _).2 _ ((hA x y).1.append (hA x' y').1)
  · intro f hf x y
    exact Nat.le_antisymm ((hB _ _).2 _ ((hA x y).1.map f)) ((hA _ _).2 _ ((hB _ _).1.of_map hf))

/-- **C120.** The three distances compare as follows. -/
theorem C120_compare (x y : List A) :
    damerauLevenshteinDistance x y ≤ levenshteinDistance x y ∧ levenshteinDistance x y ≤ lcsDistance x y ∧
    lcsDistance x y ≤ 2 * levenshteinDistance x y ∧ levenshteinDistance x y ≤ 2 * damerauLevenshteinDistance x y := by
  refine ⟨(opt_damerau x y).2 _ ((opt_levenshtein x y).1.mono id False.elim),
    (opt_levenshtein x y).2 _ ((opt_lcs x y).1.mono False.elim id), ?_, ?_⟩
  · obtain ⟨k, hk, h⟩ := (opt_levenshtein x y).1.noSub
    exact Nat.le_trans ((opt_lcs x y).2 _ h) hk
  · obtain ⟨k, hk, h⟩ := (opt_damerau x y).1.noSwap
    exact Nat.le_trans ((opt_levenshtein x y).2 _ h) hk

/-- **C120.** The distances are between the difference of the lengths and the greatest length (or the sum of the lengths). -/
theorem C120_bounds (x y : List A) :
    (max x.length y.length - min x.length y.length ≤ damerauLevenshteinDistance x y) ∧
    levenshteinDistance x y ≤ max x.length y.length ∧ lcsDistance x y ≤ x.length + y.length := by
  refine ⟨?_, (opt_levenshtein x y).2 _ (.max trivial x y), ?_⟩
  · have := (opt_damerau x y).1.length_le
    omega
  · have := (Align.delAll (sub := False) (swap := False) x).append (Align.insAll y)
    rw [List.append_nil, List.nil_append] at this
    exact (opt_lcs x y).2 _ this

/-- **C120.** Reading both words backwards, adding or removing a common prefix and a common suffix, renaming the symbols
one-to-one: nothing changes. Concatenating costs at most the sum. The Levenshtein distance. -/
theorem C120_levenshtein :
    (∀ x y : List A, levenshteinDistance x.reverse y.reverse = levenshteinDistance x y) ∧
    (∀ p x y s : List A, levenshteinDistance (p ++ x ++ s) (p ++ y ++ s) = levenshteinDistance x y) ∧
    (∀ x y x' y' : List A, levenshteinDistance (x ++ x') (y ++ y') ≤ levenshteinDistance x y + levenshteinDistance x' y') ∧
    (∀ f : A → B, (∀ a b, f a = f b → a = b) → ∀ x y,
      levenshteinDistance (x.map f) (y.map f) = levenshteinDistance x y) :=
  have h := laws_of_opt (A := A) (B := B) opt_levenshtein opt_levenshtein
  ⟨h.1, h.2.1, h.2.2.1, h.2.2.2.1⟩

/-- **C120.** The same laws for the LCS distance. -/
theorem C120_lcs :
    (∀ x y : List A, lcsDistance x.reverse y.reverse = lcsDistance x y) ∧
    (∀ p x y s : List A, lcsDistance (p ++ x ++ s) (p ++ y ++ s) = lcsDistance x y) ∧
    (∀ x y x' y' : List A, lcsDistance (x ++ x') (y ++ y') ≤ lcsDistance x y + lcsDistance x' y') ∧
    (∀ f : A → B, (∀ a b, f a = f b → a = b) → ∀ x y, lcsDistance (x.map f) (y.map f) = lcsDistance x y) :=
  have h := laws_of_opt (A := A) (B := B) opt_lcs opt_lcs
  ⟨h.1, h.2.1, h.2.2.1, h.2.2.2.1⟩

/-- **C120.** The same laws for the Damerau-Levenshtein distance. -/
theorem C120_damerau :
    (∀ x y : List A, damerauLevenshteinDistance x.reverse y.reverse = damerauLevenshteinDistance x y) ∧
    (∀ p x y s : List A, damerauLevenshteinDistance (p ++ x ++ s) (p ++ y ++ s) = damerauLevenshteinDistance x y) ∧
    (∀ x y x' y' : List A,
      damerauLevenshteinDistance (x ++ x') (y ++ y') ≤ damerauLevenshteinDistance x y + damerauLevenshteinDistance x' y') ∧
    (∀ f : A → B, (∀ a b, f a = f b → a = b) → ∀ x y,
      damerauLevenshteinDistance (x.map f) (y.map f) = damerauLevenshteinDistance x y) :=
  have h := laws_of_opt (A := A) (B := B) opt_damerau opt_damerau
  ⟨h.1, h.2.1, h.2.2.1, h.2.2.2.1⟩

/-- The bounds are reached: `ab` and `ba`. -/
example : damerauLevenshteinDistance ['a', 'b'] ['b', 'a'] = 1 ∧ levenshteinDistance ['a', 'b'] ['b', 'a'] = 2 ∧
    lcsDistance ['a', 'b'] ['b', 'a'] = 2 ∧ levenshteinDistance ['a'] ['b'] = 1 ∧ lcsDistance ['a'] ['b'] = 2 := by
  simp only [← C70_naive, ← C67_naive, ← C69_naive]
  refine ⟨?_, ?_, ?_, ?_, ?_⟩ <;> simp [damerauLevenshteinDistanceNaive, levenshteinDistanceNaive, lcsDistanceNaive, ← C67_naive, ← C69_naive]

/-- A one-to-one renaming. -/
example : ∀ a b : Char, a.toNat = b.toNat → a = b := fun _ _ h => Char.toNat_inj.1 h

end PyBGL
