import Verif.Model.Distance
import Verif.Spec.Edit
import Verif.Proofs.PyLemmas
import Mathlib.Data.List.Basic

/-!
# Proofs about the edit distances
-/

namespace PyBGL
variable {A : Type} [DecidableEq A] {sub swap : Prop}

/-! ## Alignments -/

theorem Align.refl (x : List A) : Align sub swap 0 x x := by
  induction x with
  | nil => exact .nil
  | cons a x ih => exact .keep a ih

theorem Align.symm {n : Nat} {x y : List A} (h : Align sub swap n x y) : Align sub swap n y x := by
  induction h with
  | nil => exact .nil
  | keep a _ ih => exact .keep a ih
  | del a _ ih => exact .ins a ih
  | ins a _ ih => exact .del a ih
  | subst hs a b _ ih => exact .subst hs b a ih
  | transpose hs a b _ ih => exact .transpose hs b a ih

theorem Align.eq_of_zero {n : Nat} {x y : List A} (h : Align sub swap n x y) (hn : n = 0) : x = y := by
  induction h with
  | nil => rfl
  | keep a _ ih => rw [ih hn]
  | del | ins | subst | transpose => omega

theorem Align.mono {sub' swap' : Prop} (h1 : sub → sub') (h2 : swap → swap') {n : Nat} {x y : List A}
    (h : Align sub swap n x y) : Align sub' swap' n x y := by
  induction h with
  | nil => exact .nil
  | keep a _ ih => exact .keep a ih
  | del a _ ih => exact .del a ih
  | ins a _ ih => exact .ins a ih
  | subst hs a b _ ih => exact .subst (h1 hs) a b ih
  | transpose hs a b _ ih => exact .transpose (h2 hs) a b ih

theorem Align.delAll (x : List A) : Align sub swap x.length x [] := by
  induction x with
  | nil => exact .nil
  | cons a x ih => exact .del a ih

theorem Align.insAll (x : List A) : Align sub swap x.length [] x := (Align.delAll x).symm

theorem Align.append {n m : Nat} {x y x' y' : List A} (h : Align sub swap n x y) (h' : Align sub swap m x' y') :
    Align sub swap (n + m) (x ++ x') (y ++ y') := by
  induction h with
  | nil => simpa using h'
  | keep a _ ih => exact .keep a ih
  | del a _ ih => rw [Nat.add_right_comm]; exact .del a ih
  | ins a _ ih => rw [Nat.add_right_comm]; exact .ins a ih
  | subst hs a b _ ih => rw [Nat.add_right_comm]; exact .subst hs a b ih
  | transpose hs a b _ ih => rw [Nat.add_right_comm]; exact .transpose hs a b ih

/-- Dropping the first symbol of the second word costs at most one. -/
theorem Align.dropRight {n : Nat} {x y : List A} {b : A} (h : Align sub swap n x (b :: y)) :
    ∃ k ≤ n + 1, Align sub swap k x y := by
  generalize hz : b :: y = z at h
  induction h generalizing y b with
  | nil => cases hz
  | keep a h _ => cases hz; exact ⟨_, Nat.le_refl _, .del _ h⟩
  | del a _ ih =>
    obtain ⟨k, hk, h⟩ := ih hz
    exact ⟨k + 1, by omega, .del a h⟩
  | ins a h _ => cases hz; exact ⟨_, by omega, h⟩
  | subst hs a b h _ => cases hz; exact ⟨_, by omega, .del _ h⟩
  | transpose hs a b h _ => cases hz; exact ⟨_, Nat.le_succ _, .keep _ (.del _ h)⟩

theorem Align.dropLeft {n : Nat} {x y : List A} {a : A} (h : Align sub swap n (a :: x) y) :
    ∃ k ≤ n + 1, Align sub swap k x y := by
  obtain ⟨k, hk, h'⟩ := h.symm.dropRight
  exact ⟨k, hk, h'.symm⟩

/-- Equal first symbols can be matched. -/
theorem Align.unkeep {n : Nat} {x y : List A} {a : A} (h : Align sub swap n (a :: x) (a :: y)) :
    ∃ k ≤ n, Align sub swap k x y := by
  cases h with
  | keep _ h => exact ⟨_, Nat.le_refl _, h⟩
  | del _ h => exact h.dropRight
  | ins _ h => exact h.dropLeft
  | subst hs _ _ h => exact ⟨_, Nat.le_succ _, h⟩
  | transpose hs _ _ h => exact ⟨_, Nat.le_succ _, .keep _ h⟩

theorem Align.length_le {n : Nat} {x y : List A} (h : Align sub swap n x y) :
    x.length ≤ n + y.length ∧ y.length ≤ n + x.length := by
  induction h <;> simp_all <;> omega

/-- The words at distance given by the least cost of an alignment. -/
abbrev Opt (sub swap : Prop) (x y : List A) (n : Nat) : Prop := IsLeastNat (fun n => Align sub swap n x y) n

theorem Opt.unique {x y : List A} {n m : Nat} (h : Opt sub swap x y n) (h' : Opt sub swap x y m) : n = m :=
  Nat.le_antisymm (h.2 _ h'.1) (h'.2 _ h.1)

theorem Opt.symm {x y : List A} {n : Nat} (h : Opt sub swap x y n) : Opt sub swap y x n :=
  ⟨h.1.symm, fun _ hm => h.2 _ hm.symm⟩

theorem opt_right_nil (x : List A) : Opt sub swap x [] x.length :=
  ⟨.delAll x, fun m h => by have := h.length_le.1; simpa using this⟩

theorem opt_left_nil (y : List A) : Opt sub swap [] y y.length := (opt_right_nil y).symm

theorem opt_keep {x y : List A} {n : Nat} (a : A) (h : Opt sub swap x y n) : Opt sub swap (a :: x) (a :: y) n :=
  ⟨.keep a h.1, fun m hm => by
    obtain ⟨k, hk, hk'⟩ := hm.unkeep
    exact Nat.le_trans (h.2 _ hk') hk⟩

theorem Align.head_ne {n : Nat} {a b : A} {x y : List A} (hab : a ≠ b) (h : Align sub swap n (a :: x) (b :: y)) :
    ∃ m, n = m + 1 ∧ (Align sub swap m x (b :: y) ∨ Align sub swap m (a :: x) y ∨
      (sub ∧ Align sub swap m x y) ∨
      (swap ∧ ∃ x' y', x = b :: x' ∧ y = a :: y' ∧ Align sub swap m x' y')) := by
  cases h with
  | keep _ h => exact absurd rfl hab
  | del _ h => exact ⟨_, rfl, .inl h⟩
  | ins _ h => exact ⟨_, rfl, .inr (.inl h)⟩
  | subst hs _ _ h => exact ⟨_, rfl, .inr (.inr (.inl ⟨hs, h⟩))⟩
  | transpose hs _ _ h => exact ⟨_, rfl, .inr (.inr (.inr ⟨hs, _, _, rfl, rfl, h⟩))⟩

/-! ## The memoized recursions compute the cheapest alignment -/

/-- Every memoized value is right. -/
def MemoOK (sub swap : Prop) (x y : List A) (m : Memo) : Prop :=
  ∀ i j v, m.get? (i, j) = some v → Opt sub swap (x.drop i) (y.drop j) v

theorem MemoOK.nil (x y : List A) : MemoOK sub swap x y [] := fun _ _ _ h => by cases h

theorem MemoOK.set {x y : List A} {m : Memo} (h : MemoOK sub swap x y m) {i j v : Nat}
    (hv : Opt sub swap (x.drop i) (y.drop j) v) : MemoOK sub swap x y (m.set (i, j) v) := by
  intro i' j' v' h'
  rw [Dict.get?_set] at h'
  split at h'
  · rename_i e; cases e; cases h'; exact hv
  · exact h _ _ _ h'

theorem opt_lev_ne {a b : A} {x y : List A} {n₁ n₂ n₃ : Nat} (hab : a ≠ b)
    (h₁ : Opt True False x (b :: y) n₁) (h₂ : Opt True False (a :: x) y n₂) (h₃ : Opt True False x y n₃) :
    Opt True False (a :: x) (b :: y) (1 + min (min n₁ n₂) n₃) := by
  refine ⟨?_, ?_⟩
  · rw [Nat.add_comm]
    rcases Nat.le_total (min n₁ n₂) n₃ with h | h
    · rw [Nat.min_eq_left h]
      rcases Nat.le_total n₁ n₂ with h' | h'
      · rw [Nat.min_eq_left h']; exact .del _ h₁.1
      · rw [Nat.min_eq_right h']; exact .ins _ h₂.1
    · rw [Nat.min_eq_right h]; exact .subst trivial _ _ h₃.1
  · intro m hm
    obtain ⟨k, rfl, h | h | ⟨_, h⟩ | ⟨hf, _⟩⟩ := hm.head_ne hab
    · have := h₁.2 _ h; omega
    · have := h₂.2 _ h; omega
    · have := h₃.2 _ h; omega
    · exact hf.elim

theorem opt_lcs_ne {a b : A} {x y : List A} {n₁ n₂ : Nat} (hab : a ≠ b)
    (h₁ : Opt False False x (b :: y) n₁) (h₂ : Opt False False (a :: x) y n₂) :
    Opt False False (a :: x) (b :: y) (1 + min n₁ n₂) := by
  refine ⟨?_, ?_⟩
  · rw [Nat.add_comm]
    rcases Nat.le_total n₁ n₂ with h' | h'
    · rw [Nat.min_eq_left h']; exact .del _ h₁.1
    · rw [Nat.min_eq_right h']; exact .ins _ h₂.1
  · intro m hm
    obtain ⟨k, rfl, h | h | ⟨hf, _⟩ | ⟨hf, _⟩⟩ := hm.head_ne hab
    · have := h₁.2 _ h; omega
    · have := h₂.2 _ h; omega
    · exact hf.elim
    · exact hf.elim

theorem opt_dl_ne_noswap {a b : A} {x y : List A} {n₁ n₂ n₃ : Nat} (hab : a ≠ b)
    (hns : ∀ x' y', ¬ (x = b :: x' ∧ y = a :: y'))
    (h₁ : Opt True True x (b :: y) n₁) (h₂ : Opt True True (a :: x) y n₂) (h₃ : Opt True True x y n₃) :
    Opt True True (a :: x) (b :: y) (1 + min (min n₁ n₂) n₃) := by
  refine ⟨?_, ?_⟩
  · rw [Nat.add_comm]
    rcases Nat.le_total (min n₁ n₂) n₃ with h | h
    · rw [Nat.min_eq_left h]
      rcases Nat.le_total n₁ n₂ with h' | h'
      · rw [Nat.min_eq_left h']; exact .del _ h₁.1
      · rw [Nat.min_eq_right h']; exact .ins _ h₂.1
    · rw [Nat.min_eq_right h]; exact .subst trivial _ _ h₃.1
  · intro m hm
    obtain ⟨k, rfl, h | h | ⟨_, h⟩ | ⟨_, x', y', h1, h2, _⟩⟩ := hm.head_ne hab
    · have := h₁.2 _ h; omega
    · have := h₂.2 _ h; omega
    · have := h₃.2 _ h; omega
    · exact absurd ⟨h1, h2⟩ (hns x' y')

theorem opt_dl_ne_swap {a b : A} {x y : List A} {n₁ n₂ n₃ n₄ : Nat} (hab : a ≠ b)
    (h₁ : Opt True True (b :: x) (b :: a :: y) n₁) (h₂ : Opt True True (a :: b :: x) (a :: y) n₂)
    (h₃ : Opt True True (b :: x) (a :: y) n₃) (h₄ : Opt True True x y n₄) :
    Opt True True (a :: b :: x) (b :: a :: y) (1 + min (min (min n₁ n₂) n₃) n₄) := by
  refine ⟨?_, ?_⟩
  · rw [Nat.add_comm]
    rcases Nat.le_total (min (min n₁ n₂) n₃) n₄ with h | h
    · rw [Nat.min_eq_left h]
      rcases Nat.le_total (min n₁ n₂) n₃ with h | h
      · rw [Nat.min_eq_left h]
        rcases Nat.le_total n₁ n₂ with h' | h'
        · rw [Nat.min_eq_left h']; exact .del _ h₁.1
        · rw [Nat.min_eq_right h']; exact .ins _ h₂.1
      · rw [Nat.min_eq_right h]; exact .subst trivial _ _ h₃.1
    · rw [Nat.min_eq_right h]; exact .transpose trivial _ _ h₄.1
  · intro m hm
    obtain ⟨k, rfl, h | h | ⟨_, h⟩ | ⟨_, x', y', h1, h2, h⟩⟩ := hm.head_ne hab
    · have := h₁.2 _ h; omega
    · have := h₂.2 _ h; omega
    · have := h₃.2 _ h; omega
    · cases h1; cases h2; have := h₄.2 _ h; omega

theorem levCompute_spec (x y : List A) : ∀ (n i j : Nat) (m : Memo), x.length - i + (y.length - j) = n →
    MemoOK True False x y m →
    Opt True False (x.drop i) (y.drop j) (levCompute x y i j m).1 ∧ MemoOK True False x y (levCompute x y i j m).2 := by
  intro n
  induction n using Nat.strongRecOn with
  | _ n ih =>
    intro i j m hn hm
    rw [levCompute]
    cases hg : m.get? (i, j) with
    | some r => exact ⟨hm _ _ _ hg, hm⟩
    | none =>
      simp only
      split
      · rename_i hj
        have : Opt True False (x.drop i) (y.drop j) (x.length - i) := by
          rw [List.drop_eq_nil_of_le (as := y) (by omega), ← List.length_drop]; exact opt_right_nil _
        exact ⟨this, hm.set this⟩
      · rename_i hj
        split
        · rename_i hi
          have : Opt True False (x.drop i) (y.drop j) (y.length - j) := by
            rw [List.drop_eq_nil_of_le (as := x) (by omega), ← List.length_drop]; exact opt_left_nil _
          exact ⟨this, hm.set this⟩
        · rename_i hi
          have hi' : i < x.length := by omega
          have hj' : j < y.length := by omega
          rw [List.drop_eq_getElem_cons hi', List.drop_eq_getElem_cons hj']
          split
          · rename_i he
            obtain ⟨h1, h2⟩ := ih _ (by omega) (i + 1) (j + 1) m rfl hm
            have h := opt_keep x[i] h1
            rw [he] at h
            rw [he]
            refine ⟨h, h2.set ?_⟩
            rw [List.drop_eq_getElem_cons hi', List.drop_eq_getElem_cons hj', he]; exact h
          · rename_i hne
            obtain ⟨a1, a2⟩ := ih _ (by omega) (i + 1) j m rfl hm
            obtain ⟨b1, b2⟩ := ih _ (by omega) i (j + 1) _ rfl a2
            obtain ⟨c1, c2⟩ := ih _ (by omega) (i + 1) (j + 1) _ rfl b2
            rw [List.drop_eq_getElem_cons hj'] at a1
            rw [List.drop_eq_getElem_cons hi'] at b1
            have h := opt_lev_ne hne a1 b1 c1
            refine ⟨h, c2.set ?_⟩
            rw [List.drop_eq_getElem_cons hi', List.drop_eq_getElem_cons hj']; exact h

theorem lcsCompute_spec (x y : List A) : ∀ (n i j : Nat) (m : Memo), x.length - i + (y.length - j) = n →
    MemoOK False False x y m →
    Opt False False (x.drop i) (y.drop j) (lcsCompute x y i j m).1 ∧
      MemoOK False False x y (lcsCompute x y i j m).2 := by
  intro n
  induction n using Nat.strongRecOn with
  | _ n ih =>
    intro i j m hn hm
    rw [lcsCompute]
    cases hg : m.get? (i, j) with
    | some r => exact ⟨hm _ _ _ hg, hm⟩
    | none =>
      simp only
      split
      · rename_i hj
        have : Opt False False (x.drop i) (y.drop j) (x.length - i) := by
          rw [List.drop_eq_nil_of_le (as := y) (by omega), ← List.length_drop]; exact opt_right_nil _
        exact ⟨this, hm.set this⟩
      · rename_i hj
        split
        · rename_i hi
          have : Opt False False (x.drop i) (y.drop j) (y.length - j) := by
            rw [List.drop_eq_nil_of_le (as := x) (by omega), ← List.length_drop]; exact opt_left_nil _
          exact ⟨this, hm.set this⟩
        · rename_i hi
          have hi' : i < x.length := by omega
          have hj' : j < y.length := by omega
          rw [List.drop_eq_getElem_cons hi', List.drop_eq_getElem_cons hj']
          split
          · rename_i he
            obtain ⟨h1, h2⟩ := ih _ (by omega) (i + 1) (j + 1) m rfl hm
            have h := opt_keep x[i] h1
            rw [he] at h
            rw [he]
            refine ⟨h, h2.set ?_⟩
            rw [List.drop_eq_getElem_cons hi', List.drop_eq_getElem_cons hj', he]; exact h
          · rename_i hne
            obtain ⟨a1, a2⟩ := ih _ (by omega) (i + 1) j m rfl hm
            obtain ⟨b1, b2⟩ := ih _ (by omega) i (j + 1) _ rfl a2
            rw [List.drop_eq_getElem_cons hj'] at a1
            rw [List.drop_eq_getElem_cons hi'] at b1
            have h := opt_lcs_ne hne a1 b1
            refine ⟨h, b2.set ?_⟩
            rw [List.drop_eq_getElem_cons hi', List.drop_eq_getElem_cons hj']; exact h

theorem swapped_iff (x y : List A) {i j : Nat} (hi : i < x.length) (hj : j < y.length) :
    swapped x y i j = true ↔ ∃ x' y', x.drop (i + 1) = y[j] :: x' ∧ y.drop (j + 1) = x[i] :: y' := by
  unfold swapped
  rw [List.getElem?_eq_getElem hi, List.getElem?_eq_getElem hj]
  by_cases h1 : i + 1 < x.length
  · by_cases h2 : j + 1 < y.length
    · rw [List.getElem?_eq_getElem h1, List.getElem?_eq_getElem h2]
      simp only [decide_eq_true_eq]
      rw [List.drop_eq_getElem_cons h1, List.drop_eq_getElem_cons h2]
      constructor
      · rintro ⟨e1, e2⟩; exact ⟨_, _, by rw [e2], by rw [e1]⟩
      · rintro ⟨x', y', e1, e2⟩
        injection e1 with e1; injection e2 with e2; exact ⟨e2.symm, e1⟩
    · rw [List.getElem?_eq_none (l := y) (by omega), List.drop_eq_nil_of_le (as := y) (by omega)]
      simp [List.getElem?_eq_getElem h1]
  · rw [List.getElem?_eq_none (l := x) (by omega), List.drop_eq_nil_of_le (as := x) (by omega)]
    simp

theorem dlCompute_spec (x y : List A) : ∀ (n i j : Nat) (m : Memo), x.length - i + (y.length - j) = n →
    MemoOK True True x y m →
    Opt True True (x.drop i) (y.drop j) (dlCompute x y i j m).1 ∧
      MemoOK True True x y (dlCompute x y i j m).2 := by
  intro n
  induction n using Nat.strongRecOn with
  | _ n ih =>
    intro i j m hn hm
    rw [dlCompute]
    cases hg : m.get? (i, j) with
    | some r => exact ⟨hm _ _ _ hg, hm⟩
    | none =>
      simp only
      split
      · rename_i hj
        have : Opt True True (x.drop i) (y.drop j) (x.length - i) := by
          rw [List.drop_eq_nil_of_le (as := y) (by omega), ← List.length_drop]; exact opt_right_nil _
        exact ⟨this, hm.set this⟩
      · rename_i hj
        split
        · rename_i hi
          have : Opt True True (x.drop i) (y.drop j) (y.length - j) := by
            rw [List.drop_eq_nil_of_le (as := x) (by omega), ← List.length_drop]; exact opt_left_nil _
          exact ⟨this, hm.set this⟩
        · rename_i hi
          have hi' : i < x.length := by omega
          have hj' : j < y.length := by omega
          rw [List.drop_eq_getElem_cons hi', List.drop_eq_getElem_cons hj']
          split
          · rename_i he
            obtain ⟨h1, h2⟩ := ih _ (by omega) (i + 1) (j + 1) m rfl hm
            have h := opt_keep x[i] h1
            rw [he] at h
            rw [he]
            refine ⟨h, h2.set ?_⟩
            rw [List.drop_eq_getElem_cons hi', List.drop_eq_getElem_cons hj', he]; exact h
          · rename_i hne
            obtain ⟨a1, a2⟩ := ih _ (by omega) (i + 1) j m rfl hm
            obtain ⟨b1, b2⟩ := ih _ (by omega) i (j + 1) _ rfl a2
            obtain ⟨c1, c2⟩ := ih _ (by omega) (i + 1) (j + 1) _ rfl b2
            rw [List.drop_eq_getElem_cons hj'] at a1
            rw [List.drop_eq_getElem_cons hi'] at b1
            split
            · rename_i hsw
              obtain ⟨x', y', e1, e2⟩ := (swapped_iff x y hi' hj').1 hsw
              obtain ⟨d1, d2⟩ := ih _ (by omega) (i + 2) (j + 2) _ rfl c2
              have e1' : x.drop (i + 2) = x' := by
                have := congrArg (List.drop 1) e1
                rwa [List.drop_drop] at this
              have e2' : y.drop (j + 2) = y' := by
                have := congrArg (List.drop 1) e2
                rwa [List.drop_drop] at this
              rw [e1', e2'] at d1
              rw [e1, e2] at c1
              rw [e1, e2] at a1
              rw [e1, e2] at b1
              have h := opt_dl_ne_swap hne a1 b1 c1 d1
              rw [e1, e2]
              refine ⟨h, d2.set ?_⟩
              rw [List.drop_eq_getElem_cons hi', List.drop_eq_getElem_cons hj', e1, e2]; exact h
            · rename_i hsw
              have h := opt_dl_ne_noswap hne (fun x' y' e => hsw ((swapped_iff x y hi' hj').2 ⟨x', y', e⟩)) a1 b1 c1
              refine ⟨h, c2.set ?_⟩
              rw [List.drop_eq_getElem_cons hi', List.drop_eq_getElem_cons hj']; exact h

theorem opt_levenshtein (x y : List A) : Opt True False x y (levenshteinDistance x y) := by
  exact (levCompute_spec x y _ 0 0 [] rfl (.nil x y)).1

theorem opt_lcs (x y : List A) : Opt False False x y (lcsDistance x y) := by
  exact (lcsCompute_spec x y _ 0 0 [] rfl (.nil x y)).1

theorem opt_damerau (x y : List A) : Opt True True x y (damerauLevenshteinDistance x y) := by
  exact (dlCompute_spec x y _ 0 0 [] rfl (.nil x y)).1

/-! ## Triangle inequality without transpositions -/

theorem Align.trans : ∀ (N : Nat) {n m : Nat} {x y z : List A}, x.length + y.length + z.length = N →
    Align sub False n x y → Align sub False m y z → ∃ k ≤ n + m, Align sub False k x z := by
  intro N
  induction N using Nat.strongRecOn with
  | _ N ih =>
    intro n m x y z hN h1 h2
    cases h1 with
    | nil => exact ⟨m, by omega, h2⟩
    | del a h =>
      obtain ⟨k, hk, h'⟩ := ih _ (by simp at hN; omega) rfl h h2
      exact ⟨k + 1, by omega, .del a h'⟩
    | transpose hs => exact hs.elim
    | keep a h =>
      cases h2 with
      | keep _ h' =>
        obtain ⟨k, hk, h''⟩ := ih _ (by simp at hN; omega) rfl h h'
        exact ⟨k, by omega, .keep a h''⟩
      | del _ h' =>
        obtain ⟨k, hk, h''⟩ := ih _ (by simp at hN; omega) rfl h h'
        exact ⟨k + 1, by omega, .del a h''⟩
      | ins c h' =>
        obtain ⟨k, hk, h''⟩ := ih _ (by simp at hN; simp; omega) rfl (.keep a h) h'
        exact ⟨k + 1, by omega, .ins c h''⟩
      | subst hs _ c h' =>
        obtain ⟨k, hk, h''⟩ := ih _ (by simp at hN; omega) rfl h h'
        exact ⟨k + 1, by omega, .subst hs a c h''⟩
      | transpose hs => exact hs.elim
    | ins b h =>
      cases h2 with
      | keep _ h' =>
        obtain ⟨k, hk, h''⟩ := ih _ (by simp at hN; omega) rfl h h'
        exact ⟨k + 1, by omega, .ins b h''⟩
      | del _ h' =>
        obtain ⟨k, hk, h''⟩ := ih _ (by simp at hN; omega) rfl h h'
        exact ⟨k, by omega, h''⟩
      | ins c h' =>
        obtain ⟨k, hk, h''⟩ := ih _ (by simp at hN; simp; omega) rfl (.ins b h) h'
        exact ⟨k + 1, by omega, .ins c h''⟩
      | subst hs _ c h' =>
        obtain ⟨k, hk, h''⟩ := ih _ (by simp at hN; omega) rfl h h'
        exact ⟨k + 1, by omega, .ins c h''⟩
      | transpose hs => exact hs.elim
    | subst hs a b h =>
      cases h2 with
      | keep _ h' =>
        obtain ⟨k, hk, h''⟩ := ih _ (by simp at hN; omega) rfl h h'
        exact ⟨k + 1, by omega, .subst hs a b h''⟩
      | del _ h' =>
        obtain ⟨k, hk, h''⟩ := ih _ (by simp at hN; omega) rfl h h'
        exact ⟨k + 1, by omega, .del a h''⟩
      | ins c h' =>
        obtain ⟨k, hk, h''⟩ := ih _ (by simp at hN; simp; omega) rfl (.subst hs a b h) h'
        exact ⟨k + 1, by omega, .ins c h''⟩
      | subst hs _ c h' =>
        obtain ⟨k, hk, h''⟩ := ih _ (by simp at hN; omega) rfl h h'
        exact ⟨k + 1, by omega, .subst hs a c h''⟩
      | transpose hs => exact hs.elim

/-- A function giving the least alignment cost, without transpositions, is a metric. -/
theorem metric_of_opt {d : List A → List A → Nat} (h : ∀ x y, Opt sub False x y (d x y)) : IsMetric d where
  zero_iff x y := by
    constructor
    · intro h0; exact (h x y).1.eq_of_zero h0
    · rintro rfl; have := (h x x).2 0 (Align.refl x); omega
  symm x y := (h x y).unique (h y x).symm
  triangle x y z := by
    obtain ⟨k, hk, hk'⟩ := Align.trans _ rfl (h x y).1 (h y z).1
    exact Nat.le_trans ((h x z).2 _ hk') hk

/-! ## Alignments and scripts of edit steps -/

theorem Steps.head {X : Type} {R : X → X → Prop} {n : Nat} {x y z : X} (s : R x y) (h : Steps R n y z) :
    Steps R (n + 1) x z := by
  induction h with
  | refl => exact .tail (.refl _) s
  | tail _ s' ih => exact .tail (ih s) s'

theorem Steps.map {X : Type} {R : X → X → Prop} (f : X → X) (hf : ∀ x y, R x y → R (f x) (f y)) {n : Nat} {x y : X}
    (h : Steps R n x y) : Steps R n (f x) (f y) := by
  induction h with
  | refl => exact .refl _
  | tail _ s ih => exact .tail ih (hf _ _ s)

theorem EditStep.cons (a : A) {x y : List A} (h : EditStep x y) : EditStep (a :: x) (a :: y) := by
  cases h with
  | insert u v c => exact .insert (a :: u) v c
  | delete u v c => exact .delete (a :: u) v c
  | substitute u v c d => exact .substitute (a :: u) v c d

theorem IndelStep.cons (a : A) {x y : List A} (h : IndelStep x y) : IndelStep (a :: x) (a :: y) := by
  cases h with
  | insert u v c => exact .insert (a :: u) v c
  | delete u v c => exact .delete (a :: u) v c

theorem editSteps_of_align {n : Nat} {x y : List A} (h : Align True False n x y) : Steps EditStep n x y := by
  induction h with
  | nil => exact .refl _
  | keep a _ ih => exact ih.map (a :: ·) (fun _ _ h => EditStep.cons a h)
  | del a _ ih => exact .head (.delete [] _ a) ih
  | ins b _ ih => exact .tail ih (.insert [] _ b)
  | subst _ a b _ ih => exact .head (.substitute [] _ a b) (ih.map (b :: ·) (fun _ _ h => EditStep.cons b h))
  | transpose hs => exact hs.elim

theorem indelSteps_of_align {n : Nat} {x y : List A} (h : Align False False n x y) : Steps IndelStep n x y := by
  induction h with
  | nil => exact .refl _
  | keep a _ ih => exact ih.map (a :: ·) (fun _ _ h => IndelStep.cons a h)
  | del a _ ih => exact .head (.delete [] _ a) ih
  | ins b _ ih => exact .tail ih (.insert [] _ b)
  | subst hs => exact hs.elim
  | transpose hs => exact hs.elim

theorem align_of_editStep {x y : List A} (h : EditStep x y) : Align True False 1 x y := by
  cases h with
  | insert u v c => exact (Align.refl u).append (.ins c (.refl v))
  | delete u v c => exact (Align.refl u).append (.del c (.refl v))
  | substitute u v c d => exact (Align.refl u).append (.subst trivial c d (.refl v))

theorem align_of_indelStep {x y : List A} (h : IndelStep x y) : Align False False 1 x y := by
  cases h with
  | insert u v c => exact (Align.refl u).append (.ins c (.refl v))
  | delete u v c => exact (Align.refl u).append (.del c (.refl v))

theorem align_of_steps {R : List A → List A → Prop} (hR : ∀ x y, R x y → Align sub False 1 x y) {n : Nat}
    {x y : List A} (h : Steps R n x y) : ∃ k ≤ n, Align sub False k x y := by
  induction h with
  | refl x => exact ⟨0, Nat.le_refl _, .refl x⟩
  | tail _ s ih =>
    obtain ⟨k, hk, h'⟩ := ih
    obtain ⟨l, hl, h''⟩ := h'.trans _ rfl (hR _ _ s)
    exact ⟨l, by omega, h''⟩

/-! ## Longest common subsequences -/

/-- An alignment without substitution exhibits a common subsequence. -/
theorem lcs_of_align {n : Nat} {x y : List A} (h : Align False False n x y) :
    ∃ z : List A, z.Sublist x ∧ z.Sublist y ∧ n + 2 * z.length = x.length + y.length := by
  induction h with
  | nil => exact ⟨[], .slnil, .slnil, rfl⟩
  | keep a _ ih =>
    obtain ⟨z, h1, h2, h3⟩ := ih
    exact ⟨a :: z, h1.cons_cons a, h2.cons_cons a, by simp; omega⟩
  | del a _ ih =>
    obtain ⟨z, h1, h2, h3⟩ := ih
    exact ⟨z, h1.cons a, h2, by simp; omega⟩
  | ins a _ ih =>
    obtain ⟨z, h1, h2, h3⟩ := ih
    exact ⟨z, h1, h2.cons a, by simp; omega⟩
  | subst hs => exact hs.elim
  | transpose hs => exact hs.elim

theorem align_del_of_sublist {z x : List A} (h : z.Sublist x) : Align sub swap (x.length - z.length) x z := by
  induction h with
  | slnil => exact .nil
  | cons a h ih =>
    have := h.length_le
    rw [List.length_cons, show ∀ a b : Nat, b ≤ a → a + 1 - b = (a - b) + 1 by omega]
    · exact .del a ih
    · exact this
  | cons_cons a _ ih => simpa using Align.keep a ih

theorem align_of_common {z x y : List A} (h1 : z.Sublist x) (h2 : z.Sublist y) :
    ∃ k, k + 2 * z.length ≤ x.length + y.length ∧ Align False False k x y := by
  obtain ⟨k, hk, h⟩ := Align.trans _ rfl (align_del_of_sublist h1) (align_del_of_sublist h2).symm
  have := h1.length_le
  have := h2.length_le
  exact ⟨k, by omega, h⟩

end PyBGL
