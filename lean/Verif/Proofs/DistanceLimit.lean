import Verif.Proofs.Distance
import Verif.Model.DistanceLimit
import Mathlib.Data.List.Perm.Subperm

/-!
# The edit distances within a limit of recursion
-/

namespace PyBGL
variable {A : Type} [DecidableEq A]

/-- What the three plans have in common. -/
structure PlanOf (x y : List A) (plan : Nat → Nat → EditPlan) : Prop where
  right : ∀ i j, ¬ j < y.length → plan i j = .value (x.length - i)
  left : ∀ i j, j < y.length → ¬ i < x.length → plan i j = .value (y.length - j)
  same : ∀ i j, i < x.length → j < y.length → x[i]? = y[j]? → plan i j = .same (i + 1) (j + 1)
  diff : ∀ i j, i < x.length → j < y.length → x[i]? ≠ y[j]? →
    ∃ rest, plan i j = .oneMore ((i + 1, j) :: (i, j + 1) :: rest) ∧ rest.length ≤ 2 ∧ ∀ c ∈ rest, i < c.1 ∧ c.1 ≤ x.length ∧ j < c.2 ∧ c.2 ≤ y.length

theorem planOf_lev (x y : List A) : PlanOf x y (levPlan x y) := by
  refine ⟨fun i j h => ?_, fun i j h1 h2 => ?_, fun i j h1 h2 h3 => ?_, fun i j h1 h2 h3 => ⟨[(i + 1, j + 1)], ?_, by simp, ?_⟩⟩
  · unfold levPlan; rw [if_pos h]
  · unfold levPlan; rw [if_neg (by simpa using h1), if_pos h2]
  · unfold levPlan; rw [if_neg (by simpa using h2), if_neg (by simpa using h1), if_pos h3]
  · unfold levPlan; rw [if_neg (by simpa using h2), if_neg (by simpa using h1), if_neg h3]
  · intro c hc; simp at hc; subst hc; dsimp only; omega

theorem planOf_lcs (x y : List A) : PlanOf x y (lcsPlan x y) := by
  refine ⟨fun i j h => ?_, fun i j h1 h2 => ?_, fun i j h1 h2 h3 => ?_, fun i j h1 h2 h3 => ⟨[], ?_, by simp, by simp⟩⟩
  · unfold lcsPlan; rw [if_pos h]
  · unfold lcsPlan; rw [if_neg (by simpa using h1), if_pos h2]
  · unfold lcsPlan; rw [if_neg (by simpa using h2), if_neg (by simpa using h1), if_pos h3]
  · unfold lcsPlan; rw [if_neg (by simpa using h2), if_neg (by simpa using h1), if_neg h3]

theorem planOf_dl (x y : List A) : PlanOf x y (dlPlan x y) := by
  refine ⟨fun i j h => ?_, fun i j h1 h2 => ?_, fun i j h1 h2 h3 => ?_,
    fun i j h1 h2 h3 => ⟨(i + 1, j + 1) :: if swapped x y i j then [(i + 2, j + 2)] else [], ?_, ?_, ?_⟩⟩
  · unfold dlPlan; rw [if_pos h]
  · unfold dlPlan; rw [if_neg (by simpa using h1), if_pos h2]
  · unfold dlPlan; rw [if_neg (by simpa using h2), if_neg (by simpa using h1), if_pos h3]
  · unfold dlPlan; rw [if_neg (by simpa using h2), if_neg (by simpa using h1), if_neg h3]; rfl
  · split <;> simp
  · intro c hc
    rcases List.mem_cons.mp hc with rfl | hc
    · dsimp only; omega
    · split at hc
      · rename_i hs
        simp at hc
        obtain ⟨x', y', e1, e2⟩ := (swapped_iff x y h1 h2).mp hs
        have l1 := congrArg List.length e1
        have l2 := congrArg List.length e2
        simp at l1 l2
        subst hc; dsimp only; omega
      · simp at hc

/-- The values that the plan defines. -/
structure PlanEval (f : Nat → Nat → Nat) (plan : Nat → Nat → EditPlan) : Prop where
  value : ∀ i j r, plan i j = .value r → f i j = r
  same : ∀ i j i' j', plan i j = .same i' j' → f i j = f i' j'
  oneMore : ∀ i j cs, plan i j = .oneMore cs → f i j = 1 + minOf (cs.map (fun c => f c.1 c.2))

/-- The entries of `self.memoize` are right. -/
def RightMemo (f : Nat → Nat → Nat) (m : Memo) : Prop := ∀ i j v, m.get? (i, j) = some v → v = f i j

theorem RightMemo.set {f : Nat → Nat → Nat} {m : Memo} (h : RightMemo f m) {i j v : Nat} (hv : v = f i j) : RightMemo f (m.set (i, j) v) := by
  intro i' j' v' h'
  rw [Dict.get?_set] at h'
  split at h'
  · rename_i e; cases e; cases h'; exact hv
  · exact h _ _ _ h'

/-- Whatever the limit, a value returned is right, the only exception is `RecursionError`, and the memoized entries stay right. -/
theorem computeR_right {f : Nat → Nat → Nat} {plan : Nat → Nat → EditPlan} (hp : PlanEval f plan) : ∀ (L i j : Nat) (m : MemoState), RightMemo f m.memo →
    (∃ m', computeR plan L i j m = .ok (f i j, m') ∧ RightMemo f m'.memo) ∨ (∃ m', computeR plan L i j m = .error (.runtimeError, m') ∧ RightMemo f m'.memo) := by
  intro L
  induction L with
  | zero => intro i j m hm; exact .inr ⟨m, rfl, hm⟩
  | succ L ih =>
    intro i j m hm
    have hall : ∀ (cs : List (Nat × Nat)) (m : MemoState), RightMemo f m.memo →
        (∃ m', computeAll (computeR plan L) cs m = .ok (cs.map (fun c => f c.1 c.2), m') ∧ RightMemo f m'.memo) ∨
        (∃ m', computeAll (computeR plan L) cs m = .error (.runtimeError, m') ∧ RightMemo f m'.memo) := by
      intro cs
      induction cs with
      | nil => intro m hm; exact .inl ⟨m, rfl, hm⟩
      | cons c cs ihc =>
        intro m hm
        obtain ⟨i', j'⟩ := c
        rw [computeAll]
        rcases ih i' j' m hm with ⟨m1, e1, h1⟩ | ⟨m1, e1, h1⟩
        · rw [e1]
          dsimp only
          rcases ihc m1 h1 with ⟨m2, e2, h2⟩ | ⟨m2, e2, h2⟩
          · rw [e2]; exact .inl ⟨m2, rfl, h2⟩
          · rw [e2]; exact .inr ⟨m2, rfl, h2⟩
        · rw [e1]; exact .inr ⟨m1, rfl, h1⟩
    rw [computeR]
    dsimp only
    cases hg : m.memo.get? (i, j) with
    | some r =>
      rw [hm _ _ _ hg]
      exact .inl ⟨_, rfl, hm⟩
    | none =>
      dsimp only
      cases hpl : plan i j with
      | value r => exact .inl ⟨_, by rw [hp.value _ _ _ hpl], hm.set (hp.value _ _ _ hpl).symm⟩
      | same i' j' =>
        dsimp only
        rcases ih i' j' ⟨m.memo, m.calls + 1⟩ hm with ⟨m1, e1, h1⟩ | ⟨m1, e1, h1⟩
        · rw [e1]; exact .inl ⟨_, by rw [hp.same _ _ _ _ hpl], h1.set (hp.same _ _ _ _ hpl).symm⟩
        · rw [e1]; exact .inr ⟨m1, rfl, h1⟩
      | oneMore cs =>
        dsimp only
        rcases hall cs ⟨m.memo, m.calls + 1⟩ hm with ⟨m1, e1, h1⟩ | ⟨m1, e1, h1⟩
        · rw [e1]; exact .inl ⟨_, by rw [hp.oneMore _ _ _ hpl], h1.set (hp.oneMore _ _ _ hpl).symm⟩
        · rw [e1]; exact .inr ⟨m1, rfl, h1⟩

/-- As many nested calls as there are characters are enough. -/
theorem computeR_enough {x y : List A} {plan : Nat → Nat → EditPlan} (hp : PlanOf x y plan) : ∀ (L i j : Nat) (m : MemoState),
    1 ≤ L → (x.length - i) + (y.length - j) ≤ L → ∃ r m', computeR plan L i j m = .ok (r, m') := by
  intro L
  induction L with
  | zero => intro i j m h; omega
  | succ L ih =>
    intro i j m _ hL
    rw [computeR]
    dsimp only
    cases hg : m.memo.get? (i, j) with
    | some r => exact ⟨_, _, rfl⟩
    | none =>
      dsimp only
      by_cases hj : j < y.length
      · by_cases hi : i < x.length
        · by_cases he : x[i]? = y[j]?
          · rw [hp.same i j hi hj he]
            dsimp only
            obtain ⟨r, m', e⟩ := ih (i + 1) (j + 1) ⟨m.memo, m.calls + 1⟩ (by omega) (by omega)
            rw [e]; exact ⟨_, _, rfl⟩
          · obtain ⟨rest, e, _, hr⟩ := hp.diff i j hi hj he
            rw [e]
            dsimp only
            have hall : ∀ (cs : List (Nat × Nat)) (m : MemoState), (∀ c ∈ cs, (x.length - c.1) + (y.length - c.2) ≤ L) →
                ∃ rs m', computeAll (computeR plan L) cs m = .ok (rs, m') := by
              intro cs
              induction cs with
              | nil => intro m _; exact ⟨_, _, rfl⟩
              | cons c cs ihc =>
                intro m hc
                rw [computeAll]
                obtain ⟨r, m1, e1⟩ := ih c.1 c.2 m (by omega) (hc c (by simp))
                rw [e1]
                dsimp only
                obtain ⟨rs, m2, e2⟩ := ihc m1 (fun c' h' => hc c' (by simp [h']))
                rw [e2]; exact ⟨_, _, rfl⟩
            obtain ⟨rs, m1, e1⟩ := hall ((i + 1, j) :: (i, j + 1) :: rest) ⟨m.memo, m.calls + 1⟩ (by
              intro c hc
              simp only [List.mem_cons] at hc
              rcases hc with rfl | rfl | hc
              · dsimp only; omega
              · dsimp only; omega
              · have := hr c hc; omega)
            rw [e1]; exact ⟨_, _, rfl⟩
        · rw [hp.left i j hj hi]; exact ⟨_, _, rfl⟩
      · rw [hp.right i j hj]; exact ⟨_, _, rfl⟩

/-- The first calls follow the shorter word. -/
theorem computeR_short {x y : List A} {plan : Nat → Nat → EditPlan} (hp : PlanOf x y plan) : ∀ (L i j : Nat) (m : MemoState),
    L ≤ x.length - i → L ≤ y.length - j → (∀ i' j', i ≤ i' → m.memo.get? (i', j') = none) → ∃ m', computeR plan L i j m = .error (.runtimeError, m') := by
  intro L
  induction L with
  | zero => intro i j m _ _ _; exact ⟨m, rfl⟩
  | succ L ih =>
    intro i j m h1 h2 hm
    rw [computeR]
    dsimp only
    rw [hm i j (Nat.le_refl _)]
    dsimp only
    have hi : i < x.length := by omega
    have hj : j < y.length := by omega
    by_cases he : x[i]? = y[j]?
    · rw [hp.same i j hi hj he]
      dsimp only
      obtain ⟨m', e⟩ := ih (i + 1) (j + 1) ⟨m.memo, m.calls + 1⟩ (by omega) (by omega) (fun i' j' h => hm i' j' (by omega))
      rw [e]; exact ⟨_, rfl⟩
    · obtain ⟨rest, e, _, _⟩ := hp.diff i j hi hj he
      rw [e]
      dsimp only
      rw [computeAll]
      obtain ⟨m', e⟩ := ih (i + 1) j ⟨m.memo, m.calls + 1⟩ (by omega) (by omega) (fun i' j' h => hm i' j' (by omega))
      rw [e]; exact ⟨_, rfl⟩

omit [DecidableEq A] in
/-- When the words have no common character, fewer nested calls than there are characters are not enough. -/
theorem computeR_disjoint {x y : List A} {plan : Nat → Nat → EditPlan} (hp : PlanOf x y plan) (hd : ∀ a ∈ x, a ∉ y) :
    ∀ (L i : Nat) (m : MemoState), i < x.length → 0 < y.length → L < (x.length - i) + y.length → (∀ i' j', i ≤ i' → m.memo.get? (i', j') = none) →
      ∃ m', computeR plan L i 0 m = .error (.runtimeError, m') := by
  have hne : ∀ i j, i < x.length → j < y.length → x[i]? ≠ y[j]? := by
    intro i j hi hj he
    rw [List.getElem?_eq_getElem hi, List.getElem?_eq_getElem hj, Option.some.injEq] at he
    exact hd x[i] (List.getElem_mem hi) (he ▸ List.getElem_mem hj)
  -- the last row
  have hrow : ∀ (L j : Nat) (m : MemoState), 0 < x.length → L < 1 + (y.length - j) → (∀ j', j ≤ j' → m.memo.get? (x.length - 1, j') = none) →
      ∃ m', computeR plan L (x.length - 1) j m = .error (.runtimeError, m') := by
    intro L
    induction L with
    | zero => intro j m _ _ _; exact ⟨m, rfl⟩
    | succ L ih =>
      intro j m hx hL hm
      rw [computeR]
      dsimp only
      rw [hm j (Nat.le_refl _)]
      dsimp only
      have hj : j < y.length := by omega
      obtain ⟨rest, e, _, _⟩ := hp.diff (x.length - 1) j (by omega) hj (hne _ _ (by omega) hj)
      rw [e]
      dsimp only
      rw [computeAll]
      cases L with
      | zero => exact ⟨_, rfl⟩
      | succ L =>
        have hleaf : ∃ r m1, computeR plan (L + 1) (x.length - 1 + 1) j ⟨m.memo, m.calls + 1⟩ = .ok (r, m1) ∧
            ∀ j', j + 1 ≤ j' → m1.memo.get? (x.length - 1, j') = none := by
          rw [computeR]
          dsimp only
          cases hg : m.memo.get? (x.length - 1 + 1, j) with
          | some r => exact ⟨_, _, rfl, fun j' h => hm j' (by omega)⟩
          | none =>
            dsimp only
            rw [hp.left _ j hj (by omega)]
            refine ⟨_, _, rfl, fun j' h => ?_⟩
            dsimp only
            rw [Dict.get?_set, if_neg (by simp only [Prod.mk.injEq]; omega)]
            exact hm j' (by omega)
        obtain ⟨r, m1, e1, hm1⟩ := hleaf
        rw [e1]
        dsimp only
        rw [computeAll]
        obtain ⟨m2, e2⟩ := ih (j + 1) m1 hx (by omega) hm1
        rw [e2]
        exact ⟨_, rfl⟩
  intro L
  induction L with
  | zero => intro i m _ _ _ _; exact ⟨m, rfl⟩
  | succ L ih =>
    intro i m hi hy hL hm
    by_cases hlast : i + 1 < x.length
    · rw [computeR]
      dsimp only
      rw [hm i 0 (Nat.le_refl _)]
      dsimp only
      obtain ⟨rest, e, _, _⟩ := hp.diff i 0 hi hy (hne _ _ hi hy)
      rw [e]
      dsimp only
      rw [computeAll]
      obtain ⟨m', e⟩ := ih (i + 1) ⟨m.memo, m.calls + 1⟩ hlast hy (by omega) (fun i' j' h => hm i' j' (by omega))
      rw [e]; exact ⟨_, rfl⟩
    · have hix : i = x.length - 1 := by omega
      subst hix
      exact hrow (L + 1) 0 m (by omega) (by omega) (fun j' _ => hm _ j' (Nat.le_refl _))

omit [DecidableEq A] in
/-- When the words are equal, `|x| + 1` nested calls are enough. -/
theorem computeR_equal {x : List A} {plan : Nat → Nat → EditPlan} (hp : PlanOf x x plan) : ∀ (L i : Nat) (m : MemoState),
    i ≤ x.length → x.length - i < L → ∃ r m', computeR plan L i i m = .ok (r, m') := by
  intro L
  induction L with
  | zero => intro i m _ h; omega
  | succ L ih =>
    intro i m hi hL
    rw [computeR]
    dsimp only
    split
    · exact ⟨_, _, rfl⟩
    · by_cases hj : i < x.length
      · rw [hp.same i i hj hj rfl]
        obtain ⟨r, m', e⟩ := ih (i + 1) ⟨m.memo, m.calls + 1⟩ (by omega) (by omega)
        dsimp only
        rw [e]
        exact ⟨_, _, rfl⟩
      · rw [hp.right i i hj]
        exact ⟨_, _, rfl⟩

/-! ## The number of calls -/

/-- The entries of `self.memoize` are indexed by positions, each of them once. -/
structure CellsOK (x y : List A) (m : Memo) : Prop where
  nodup : (Dict.keys m).Nodup
  range : ∀ k ∈ Dict.keys m, k.1 ≤ x.length ∧ k.2 ≤ y.length

omit [DecidableEq A] in
theorem CellsOK.length_le {x y : List A} {m : Memo} (h : CellsOK x y m) : m.length ≤ (x.length + 1) * (y.length + 1) := by
  have hsub : ∀ k ∈ Dict.keys m, k ∈ (List.range (x.length + 1)).flatMap (fun i => (List.range (y.length + 1)).map (fun j => (i, j))) := by
    intro k hk
    obtain ⟨h1, h2⟩ := h.range k hk
    rw [List.mem_flatMap]
    exact ⟨k.1, List.mem_range.mpr (by omega), List.mem_map.mpr ⟨k.2, List.mem_range.mpr (by omega), rfl⟩⟩
  have := (List.subperm_of_subset h.nodup hsub).length_le
  rw [List.length_flatMap] at this
  simpa [Dict.keys] using this

theorem memo_set_length {m : Memo} {k : Nat × Nat} {v : Nat} (h : m.get? k = none) : (m.set k v).length = m.length + 1 := by
  induction m with
  | nil => rfl
  | cons p m ih =>
    obtain ⟨a, b⟩ := p
    rw [Dict.get?] at h
    split at h
    · cases h
    · rename_i hne
      rw [Dict.set, if_neg hne]
      simp [ih h]

/-- What a call does to the state. -/
structure Grows (x y : List A) (s k : Nat) (m m' : MemoState) : Prop where
  ok : CellsOK x y m'.memo
  calls : m'.calls + 4 * m.memo.length ≤ m.calls + k + 4 * m'.memo.length
  fresh : ∀ i j, i + j < s → m.memo.get? (i, j) = none → m'.memo.get? (i, j) = none

omit [DecidableEq A] in
theorem CellsOK.set {x y : List A} {m : Memo} (h : CellsOK x y m) {i j v : Nat} (hi : i ≤ x.length) (hj : j ≤ y.length) : CellsOK x y (m.set (i, j) v) := by
  refine ⟨Dict.nodupKeys_set (d := m) h.nodup _ _, fun k hk => ?_⟩
  rcases (Dict.mem_keys_set _ _ _ _).mp hk with rfl | hk
  · exact ⟨hi, hj⟩
  · exact h.range k hk

omit [DecidableEq A] in
/-- The number of calls made by `compute`: at most four for each entry written, and for each call in progress when the exception is raised. -/
theorem computeR_calls {x y : List A} {plan : Nat → Nat → EditPlan} (hp : PlanOf x y plan) : ∀ (L i j : Nat) (m : MemoState),
    i ≤ x.length → j ≤ y.length → CellsOK x y m.memo →
    (∃ r m', computeR plan L i j m = .ok (r, m') ∧ Grows x y (i + j) 1 m m') ∨
    (∃ e m', computeR plan L i j m = .error (e, m') ∧ CellsOK x y m'.memo ∧ m'.calls + 4 * m.memo.length ≤ m.calls + 4 * L + 4 * m'.memo.length) := by
  intro L
  induction L with
  | zero => intro i j m _ _ hm; exact .inr ⟨_, m, rfl, hm, by omega⟩
  | succ L ih =>
    intro i j m hi hj hm
    have hall : ∀ (cs : List (Nat × Nat)) (m : MemoState), (∀ c ∈ cs, c.1 ≤ x.length ∧ c.2 ≤ y.length ∧ i + j < c.1 + c.2) → CellsOK x y m.memo →
        (∃ rs m', computeAll (computeR plan L) cs m = .ok (rs, m') ∧ Grows x y (i + j + 1) cs.length m m') ∨
        (∃ e m', computeAll (computeR plan L) cs m = .error (e, m') ∧ CellsOK x y m'.memo ∧
          m'.calls + 4 * m.memo.length + 1 ≤ m.calls + cs.length + 4 * L + 4 * m'.memo.length) := by
      intro cs
      induction cs with
      | nil => intro m _ hm; exact .inl ⟨_, m, rfl, hm, by simp, fun _ _ _ h => h⟩
      | cons c cs ihc =>
        intro m hc hm
        rw [computeAll]
        obtain ⟨c1, c2, c3⟩ := hc c (by simp)
        rcases ih c.1 c.2 m c1 c2 hm with ⟨r, m1, e1, h1⟩ | ⟨er, m1, e1, h1, h2⟩
        · rw [e1]
          dsimp only
          rcases ihc m1 (fun c' h' => hc c' (by simp [h'])) h1.ok with ⟨rs, m2, e2, h2⟩ | ⟨er, m2, e2, h2, h3⟩
          · rw [e2]
            refine .inl ⟨_, m2, rfl, h2.ok, ?_, fun i' j' hl hn => h2.fresh i' j' hl (h1.fresh i' j' (by omega) hn)⟩
            have a1 := h1.calls
            have a2 := h2.calls
            simp only [List.length_cons]
            omega
          · rw [e2]
            refine .inr ⟨er, m2, rfl, h2, ?_⟩
            have a1 := h1.calls
            simp only [List.length_cons]
            omega
        · rw [e1]
          refine .inr ⟨er, m1, rfl, h1, ?_⟩
          simp only [List.length_cons]
          omega
    rw [computeR]
    dsimp only
    cases hg : m.memo.get? (i, j) with
    | some r => exact .inl ⟨r, _, rfl, hm, by dsimp only; omega, fun _ _ _ h => h⟩
    | none =>
      dsimp only
      have hend : ∀ (r k : Nat) (m1 : MemoState), Grows x y (i + j + 1) k ⟨m.memo, m.calls + 1⟩ m1 → k ≤ 4 →
          Grows x y (i + j) 1 m ⟨m1.memo.set (i, j) r, m1.calls⟩ := by
        intro r k m1 h hk
        have hn := h.fresh i j (by omega) hg
        refine ⟨h.ok.set hi hj, ?_, fun i' j' hl hn' => ?_⟩
        · have := h.calls
          dsimp only at this ⊢
          rw [memo_set_length hn]
          omega
        · dsimp only
          rw [Dict.get?_set, if_neg (by simp only [Prod.mk.injEq]; omega)]
          exact h.fresh i' j' (by omega) hn'
      have hvalue : ∀ r, Grows x y (i + j) 1 m ⟨m.memo.set (i, j) r, m.calls + 1⟩ := fun r =>
        hend r 0 ⟨m.memo, m.calls + 1⟩ ⟨hm, by simp, fun _ _ _ h => h⟩ (by omega)
      by_cases hj' : j < y.length
      · by_cases hi' : i < x.length
        · by_cases he : x[i]? = y[j]?
          · rw [hp.same i j hi' hj' he]
            dsimp only
            rcases ih (i + 1) (j + 1) ⟨m.memo, m.calls + 1⟩ (by omega) (by omega) hm with ⟨r, m1, e1, h1⟩ | ⟨er, m1, e1, h1, h2⟩
            · rw [e1]
              exact .inl ⟨r, _, rfl, hend r 1 m1 ⟨h1.ok, h1.calls, fun i' j' hl => h1.fresh i' j' (by omega)⟩ (by omega)⟩
            · rw [e1]
              refine .inr ⟨er, m1, rfl, h1, ?_⟩
              dsimp only at h2
              omega
          · obtain ⟨rest, e, hlen, hr⟩ := hp.diff i j hi' hj' he
            rw [e]
            dsimp only
            have hcs : ∀ c ∈ (i + 1, j) :: (i, j + 1) :: rest, c.1 ≤ x.length ∧ c.2 ≤ y.length ∧ i + j < c.1 + c.2 := by
              intro c hc
              simp only [List.mem_cons] at hc
              rcases hc with rfl | rfl | hc
              · dsimp only; omega
              · dsimp only; omega
              · have := hr c hc; omega
            rcases hall _ ⟨m.memo, m.calls + 1⟩ hcs hm with ⟨rs, m1, e1, h1⟩ | ⟨er, m1, e1, h1, h2⟩
            · rw [e1]
              exact .inl ⟨_, _, rfl, hend _ _ m1 h1 (by simp; omega)⟩
            · rw [e1]
              refine .inr ⟨er, m1, rfl, h1, ?_⟩
              simp only [List.length_cons] at h2
              omega
        · rw [hp.left i j hj' hi']; exact .inl ⟨_, _, rfl, hvalue _⟩
      · rw [hp.right i j hj']; exact .inl ⟨_, _, rfl, hvalue _⟩

/-! ## The three distances -/

omit [DecidableEq A] in
theorem getElem?_eq_iff {x y : List A} {i j : Nat} (hi : i < x.length) (hj : j < y.length) : x[i]? = y[j]? ↔ x[i] = y[j] := by
  rw [List.getElem?_eq_getElem hi, List.getElem?_eq_getElem hj, Option.some.injEq]

theorem planEval_of {x y : List A} {plan : Nat → Nat → EditPlan} (hp : PlanOf x y plan) {sub swap : Prop} {f : Nat → Nat → Nat}
    (hf : ∀ i j, Opt sub swap (x.drop i) (y.drop j) (f i j))
    (hdiff : ∀ i j (hi : i < x.length) (hj : j < y.length), x[i] ≠ y[j] → ∀ cs, plan i j = .oneMore cs → f i j = 1 + minOf (cs.map (fun c => f c.1 c.2))) :
    PlanEval f plan := by
  have hcase : ∀ i j, (plan i j = .value (f i j)) ∨ (plan i j = .same (i + 1) (j + 1) ∧ f i j = f (i + 1) (j + 1)) ∨
      (∃ hi : i < x.length, ∃ hj : j < y.length, x[i] ≠ y[j] ∧ ∃ cs, plan i j = .oneMore cs) := by
    intro i j
    by_cases hj : j < y.length
    · by_cases hi : i < x.length
      · by_cases he : x[i]? = y[j]?
        · refine .inr (.inl ⟨hp.same i j hi hj he, ?_⟩)
          have h1 := opt_keep x[i] (hf (i + 1) (j + 1))
          have h2 := hf i j
          rw [List.drop_eq_getElem_cons hi, List.drop_eq_getElem_cons hj, ← (getElem?_eq_iff hi hj).mp he] at h2
          exact h2.unique h1
        · obtain ⟨rest, e, _, _⟩ := hp.diff i j hi hj he
          exact .inr (.inr ⟨hi, hj, fun h => he ((getElem?_eq_iff hi hj).mpr h), _, e⟩)
      · left
        rw [hp.left i j hj hi]
        have h2 := hf i j
        rw [List.drop_eq_nil_of_le (as := x) (by omega)] at h2
        rw [h2.unique (opt_left_nil _), List.length_drop]
    · left
      rw [hp.right i j hj]
      have h2 := hf i j
      rw [List.drop_eq_nil_of_le (as := y) (by omega)] at h2
      rw [h2.unique (opt_right_nil _), List.length_drop]
  refine ⟨fun i j r h => ?_, fun i j i' j' h => ?_, fun i j cs h => ?_⟩
  · rcases hcase i j with h' | ⟨h', _⟩ | ⟨_, _, _, _, h'⟩ <;> rw [h'] at h <;> cases h
    rfl
  · rcases hcase i j with h' | ⟨h', e⟩ | ⟨_, _, _, _, h'⟩ <;> rw [h'] at h <;> cases h
    exact e
  · rcases hcase i j with h' | ⟨h', e⟩ | ⟨hi, hj, hne, _, h'⟩
    · rw [h'] at h; cases h
    · rw [h'] at h; cases h
    · exact hdiff i j hi hj hne cs h

theorem planEval_lev (x y : List A) : PlanEval (fun i j => levenshteinDistance (x.drop i) (y.drop j)) (levPlan x y) := by
  refine planEval_of (planOf_lev x y) (sub := True) (swap := False) (fun i j => opt_levenshtein _ _) ?_
  intro i j hi hj hne cs h
  have e : levPlan x y i j = .oneMore [(i + 1, j), (i, j + 1), (i + 1, j + 1)] := by
    unfold levPlan
    rw [if_neg (by simpa using hj), if_neg (by simpa using hi), if_neg (fun h => hne ((getElem?_eq_iff hi hj).mp h))]
  rw [e] at h
  cases h
  have h1 := opt_levenshtein (x.drop i) (y.drop j)
  rw [List.drop_eq_getElem_cons hi, List.drop_eq_getElem_cons hj] at h1
  have a := opt_levenshtein (x.drop (i + 1)) (y.drop j)
  have b := opt_levenshtein (x.drop i) (y.drop (j + 1))
  rw [List.drop_eq_getElem_cons hj] at a
  rw [List.drop_eq_getElem_cons hi] at b
  have := h1.unique (opt_lev_ne hne a b (opt_levenshtein (x.drop (i + 1)) (y.drop (j + 1))))
  simp only [List.map_cons, List.map_nil, minOf]
  rw [List.drop_eq_getElem_cons hi, List.drop_eq_getElem_cons hj, this, Nat.min_assoc]

theorem planEval_lcs (x y : List A) : PlanEval (fun i j => lcsDistance (x.drop i) (y.drop j)) (lcsPlan x y) := by
  refine planEval_of (planOf_lcs x y) (sub := False) (swap := False) (fun i j => opt_lcs _ _) ?_
  intro i j hi hj hne cs h
  have e : lcsPlan x y i j = .oneMore [(i + 1, j), (i, j + 1)] := by
    unfold lcsPlan
    rw [if_neg (by simpa using hj), if_neg (by simpa using hi), if_neg (fun h => hne ((getElem?_eq_iff hi hj).mp h))]
  rw [e] at h
  cases h
  have h1 := opt_lcs (x.drop i) (y.drop j)
  rw [List.drop_eq_getElem_cons hi, List.drop_eq_getElem_cons hj] at h1
  have a := opt_lcs (x.drop (i + 1)) (y.drop j)
  have b := opt_lcs (x.drop i) (y.drop (j + 1))
  rw [List.drop_eq_getElem_cons hj] at a
  rw [List.drop_eq_getElem_cons hi] at b
  have := h1.unique (opt_lcs_ne hne a b)
  simp only [List.map_cons, List.map_nil, minOf]
  rw [List.drop_eq_getElem_cons hi, List.drop_eq_getElem_cons hj, this]

theorem planEval_dl (x y : List A) : PlanEval (fun i j => damerauLevenshteinDistance (x.drop i) (y.drop j)) (dlPlan x y) := by
  refine planEval_of (planOf_dl x y) (sub := True) (swap := True) (fun i j => opt_damerau _ _) ?_
  intro i j hi hj hne cs h
  have e : dlPlan x y i j = .oneMore ([(i + 1, j), (i, j + 1), (i + 1, j + 1)] ++ if swapped x y i j then [(i + 2, j + 2)] else []) := by
    unfold dlPlan
    rw [if_neg (by simpa using hj), if_neg (by simpa using hi), if_neg (fun h => hne ((getElem?_eq_iff hi hj).mp h))]
  rw [e] at h
  cases h
  have h1 := opt_damerau (x.drop i) (y.drop j)
  have a := opt_damerau (x.drop (i + 1)) (y.drop j)
  have b := opt_damerau (x.drop i) (y.drop (j + 1))
  have c := opt_damerau (x.drop (i + 1)) (y.drop (j + 1))
  by_cases hs : swapped x y i j = true
  · rw [if_pos hs]
    simp only [List.cons_append, List.nil_append, List.map_cons, List.map_nil, minOf]
    obtain ⟨x', y', e1, e2⟩ := (swapped_iff x y hi hj).mp hs
    have e1' : x.drop (i + 2) = x' := by
      have := congrArg (List.drop 1) e1
      rwa [List.drop_drop] at this
    have e2' : y.drop (j + 2) = y' := by
      have := congrArg (List.drop 1) e2
      rwa [List.drop_drop] at this
    have hx : x.drop i = x[i] :: y[j] :: x' := by rw [List.drop_eq_getElem_cons hi, e1]
    have hy : y.drop j = y[j] :: x[i] :: y' := by rw [List.drop_eq_getElem_cons hj, e2]
    rw [hx, hy] at h1
    rw [hy, e1] at a
    rw [hx, e2] at b
    rw [e1, e2] at c
    have := h1.unique (opt_dl_ne_swap hne a b c (opt_damerau x' y'))
    rw [hx, hy, e1, e2, e1', e2', this]
    omega
  · rw [if_neg hs]
    simp only [List.append_nil, List.map_cons, List.map_nil, minOf]
    have hx := List.drop_eq_getElem_cons hi
    have hy := List.drop_eq_getElem_cons hj
    rw [hx, hy] at h1
    rw [hy] at a
    rw [hx] at b
    have := h1.unique (opt_dl_ne_noswap hne (fun x' y' e => hs ((swapped_iff x y hi hj).2 ⟨x', y', e⟩)) a b c)
    rw [hx, hy, this, Nat.min_assoc]

end PyBGL
