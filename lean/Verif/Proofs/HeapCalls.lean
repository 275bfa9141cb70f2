import Verif.Model.HeapCalls
import Mathlib.Data.Nat.Log
import Mathlib.Data.List.Basic

/-!
# Comparisons of `heap.py` that raise or have side effects
-/

namespace PyBGL
namespace Heapq
variable {α S : Type}

/-! ## No entry is lost or duplicated -/

theorem swapAt_perm {l : List α} {i j : Nat} {x y : α} (hi : l[i]? = some x) (hj : l[j]? = some y) : (swapAt l i x j y).Perm l := by
  obtain ⟨h1, rfl⟩ := List.getElem?_eq_some_iff.1 hi
  obtain ⟨h2, rfl⟩ := List.getElem?_eq_some_iff.1 hj
  exact List.set_set_perm h1 h2

theorem siftdownM_perm (lt : α → α → PyM S Bool) (start fuel pos : Nat) (s : List α × S) : (siftdownM lt start fuel pos s).2.1.Perm s.1 := by
  induction fuel generalizing pos s with
  | zero => exact .refl _
  | succ fuel ih =>
    unfold siftdownM
    split
    · split
      · next x p hx hp =>
        split
        · exact .refl _
        · exact .refl _
        · exact (ih _ _).trans (swapAt_perm hx hp)
      · exact .refl _
    · exact .refl _

theorem siftupLoopM_perm (lt : α → α → PyM S Bool) (fuel pos : Nat) (s : List α × S) : (siftupLoopM lt fuel pos s).2.1.Perm s.1 := by
  induction fuel generalizing pos s with
  | zero => exact .refl _
  | succ fuel ih =>
    unfold siftupLoopM
    split
    · next x left hx hl =>
      split
      · exact (ih _ _).trans (swapAt_perm hx hl)
      · next right hr =>
        split
        · exact .refl _
        · exact (ih _ _).trans (swapAt_perm hx hl)
        · exact (ih _ _).trans (swapAt_perm hx hr)
    · exact .refl _

theorem siftupM_perm (lt : α → α → PyM S Bool) (pos : Nat) (s : List α × S) : (siftupM lt pos s).2.1.Perm s.1 := by
  have h := siftupLoopM_perm lt s.1.length pos s
  unfold siftupM PyM.bind
  split
  · next q s' e => rw [e] at h; exact (siftdownM_perm lt pos q q s').trans h
  · next e s' he => rw [he] at h; exact h

theorem each_perm (lt : α → α → PyM S Bool) (l : List Nat) (s : List α × S) : (PyM.each (siftupM lt) l s).2.1.Perm s.1 := by
  induction l generalizing s with
  | nil => exact .refl _
  | cons i l ih =>
    have h := siftupM_perm lt i s
    unfold PyM.each PyM.bind
    split
    · next q s' e => rw [e] at h; exact (ih s').trans h
    · next e s' he => rw [he] at h; exact h

theorem heapifyM_perm (lt : α → α → PyM S Bool) (s : List α × S) : (heapifyM lt s).2.1.Perm s.1 := each_perm lt _ s

theorem heappushM_perm (lt : α → α → PyM S Bool) (x : α) (s : List α × S) : (heappushM lt x s).2.1.Perm (x :: s.1) :=
  (siftdownM_perm lt 0 _ _ _).trans (List.perm_append_singleton x s.1)

theorem heappopM_perm (lt : α → α → PyM S Bool) (x : α) (rest : List α) (w : S) :
    (heappopM lt (x :: rest, w)).2.1.Perm rest ∧ ((heappopM lt (x :: rest, w)).1 = .ok x ∨ ∃ e, (heappopM lt (x :: rest, w)).1 = .error e) := by
  unfold heappopM
  have hl : (x :: rest).getLast? = some ((x :: rest).getLast (by simp)) := List.getLast?_eq_some_getLast (by simp)
  simp only [hl]
  cases rest with
  | nil => exact ⟨.refl _, .inl rfl⟩
  | cons y r =>
    simp only [List.dropLast_cons_cons]
    have h := siftupM_perm lt 0 ((x :: y :: r).getLast (by simp) :: (y :: r).dropLast, w)
    have hp : ((x :: y :: r).getLast (by simp) :: (y :: r).dropLast).Perm (y :: r) := by
      rw [List.getLast_cons (by simp)]
      have := List.dropLast_append_getLast (l := y :: r) (by simp)
      conv_rhs => rw [← this]
      exact (List.perm_append_singleton _ _).symm
    unfold PyM.bind
    split
    · next q s' e => rw [e] at h; exact ⟨h.trans hp, .inl rfl⟩
    · next e s' he => rw [he] at h; exact ⟨h.trans hp, .inr ⟨e, rfl⟩⟩

/-! ## Comparisons without side effects: the model used elsewhere -/

/-- The comparison returns `b x y`, whatever it does to the rest of the world. -/
def Answers (lt : α → α → PyM S Bool) (b : α → α → Bool) : Prop := ∀ x y s, (lt x y s).1 = .ok (b x y)

theorem swapAt_set {l : List α} {i j : Nat} {x y : α} : swapAt (l.set i x) i x j y = (l.set i y).set j x := by
  unfold swapAt; rw [List.set_set]

theorem siftdownM_eq {lt : α → α → PyM S Bool} {b : α → α → Bool} (hb : Answers lt b) (start : Nat) (x : α) (fuel : Nat) (l : List α) (pos : Nat)
    (hp : pos < l.length) (w : S) :
    (siftdownM lt start fuel pos (l.set pos x, w)).1 = .ok () ∧
      (siftdownM lt start fuel pos (l.set pos x, w)).2.1 = (siftdownLoop b start x fuel l pos).1.set (siftdownLoop b start x fuel l pos).2 x := by
  induction fuel generalizing l pos w with
  | zero => exact ⟨rfl, rfl⟩
  | succ fuel ih =>
    unfold siftdownM siftdownLoop
    by_cases hs : start < pos
    · have hlt : (pos - 1) / 2 < l.length := by omega
      have hne : pos ≠ (pos - 1) / 2 := by omega
      simp only [hs, if_true]
      rw [List.getElem?_set_self hp, List.getElem?_set_ne hne, List.getElem?_eq_getElem hlt]
      have ha := hb x l[(pos - 1) / 2] w
      cases hc : lt x l[(pos - 1) / 2] w with
      | mk r w' =>
        rw [hc] at ha
        simp only at ha
        subst ha
        cases hbx : b x l[(pos - 1) / 2] with
        | false => simp [hc, hbx]
        | true =>
          simp only [hc, hbx, if_true, swapAt_set]
          exact ih (l.set pos l[(pos - 1) / 2]) ((pos - 1) / 2) (by simpa using hlt) w'
    · simp only [hs, if_false]
      exact ⟨trivial, trivial⟩

theorem siftdownLoop_length (b : α → α → Bool) (start : Nat) (x : α) (fuel : Nat) (l : List α) (pos : Nat) :
    (siftdownLoop b start x fuel l pos).1.length = l.length := by
  induction fuel generalizing l pos with
  | zero => rfl
  | succ fuel ih =>
    unfold siftdownLoop
    split
    · split
      · rfl
      · split
        · rw [ih]; simp
        · rfl
    · rfl

theorem siftupLoopM_eq {lt : α → α → PyM S Bool} {b : α → α → Bool} (hb : Answers lt b) (x : α) (fuel : Nat) (l : List α) (pos : Nat)
    (hp : pos < l.length) (w : S) :
    (siftupLoopM lt fuel pos (l.set pos x, w)).1 = .ok (siftupLoop b fuel l pos).2 ∧
      (siftupLoopM lt fuel pos (l.set pos x, w)).2.1 = (siftupLoop b fuel l pos).1.set (siftupLoop b fuel l pos).2 x ∧
      (siftupLoop b fuel l pos).2 < (siftupLoop b fuel l pos).1.length ∧ (siftupLoop b fuel l pos).1.length = l.length := by
  induction fuel generalizing l pos w with
  | zero => exact ⟨rfl, rfl, hp, rfl⟩
  | succ fuel ih =>
    have h1 : pos ≠ 2 * pos + 1 := by omega
    have h2 : pos ≠ 2 * pos + 2 := by omega
    unfold siftupLoopM siftupLoop
    simp only [List.getElem?_set_self hp, List.getElem?_set_ne h1, List.getElem?_set_ne h2]
    cases hl : l[2 * pos + 1]? with
    | none => exact ⟨rfl, rfl, hp, rfl⟩
    | some left =>
      have hll := (List.getElem?_eq_some_iff.1 hl).1
      simp only
      cases hr : l[2 * pos + 2]? with
      | none =>
        simp only [swapAt_set]
        obtain ⟨a1, a2, a3, a4⟩ := ih (l.set pos left) (2 * pos + 1) (by simpa using hll) w
        exact ⟨a1, a2, a3, a4.trans (by simp)⟩
      | some right =>
        have hrl := (List.getElem?_eq_some_iff.1 hr).1
        have ha := hb left right w
        cases hc : lt left right w with
        | mk r w' =>
          rw [hc] at ha
          simp only at ha
          subst ha
          cases hbx : b left right with
          | false =>
            simp only [hc, hbx, swapAt_set, Bool.false_eq_true, if_false]
            obtain ⟨a1, a2, a3, a4⟩ := ih (l.set pos right) (2 * pos + 2) (by simpa using hrl) w'
            exact ⟨a1, a2, a3, a4.trans (by simp)⟩
          | true =>
            simp only [hc, hbx, swapAt_set, if_true]
            obtain ⟨a1, a2, a3, a4⟩ := ih (l.set pos left) (2 * pos + 1) (by simpa using hll) w'
            exact ⟨a1, a2, a3, a4.trans (by simp)⟩

theorem siftupM_eq {lt : α → α → PyM S Bool} {b : α → α → Bool} (hb : Answers lt b) (l : List α) (pos : Nat) (hp : pos < l.length) (w : S) :
    (siftupM lt pos (l, w)).1 = .ok () ∧ (siftupM lt pos (l, w)).2.1 = siftup b l pos := by
  obtain ⟨a1, a2, a3, a4⟩ := siftupLoopM_eq hb l[pos] l.length l pos hp w
  have hset : l.set pos l[pos] = l := List.set_getElem_self hp
  rw [hset] at a1 a2
  unfold siftupM siftup PyM.bind
  simp only [List.getElem?_eq_getElem hp]
  generalize siftupLoopM lt l.length pos (l, w) = r at a1 a2
  obtain ⟨r, l', w'⟩ := r
  simp only at a1 a2
  subst a1 a2
  simp only
  have k := siftdownM_eq hb pos l[pos] (siftupLoop b l.length l pos).2 ((siftupLoop b l.length l pos).1.set (siftupLoop b l.length l pos).2 l[pos])
    (siftupLoop b l.length l pos).2 (by simpa using a3) w'
  rw [List.set_set] at k
  refine ⟨k.1, k.2.trans ?_⟩
  unfold siftdown
  rw [List.getElem?_set_self a3]

theorem siftup_len (b : α → α → Bool) (l : List α) (pos : Nat) : (siftup b l pos).length = l.length := by
  by_cases hp : pos < l.length
  · have := (siftupM_eq (S := Unit) (lt := fun x y s => (.ok (b x y), s)) (b := b) (fun _ _ _ => rfl) l pos hp ()).2
    rw [← this]
    exact (siftupM_perm _ pos (l, ())).length_eq
  · unfold siftup
    rw [List.getElem?_eq_none (by omega)]

theorem each_eq {lt : α → α → PyM S Bool} {b : α → α → Bool} (hb : Answers lt b) (is : List Nat) (l : List α) (w : S) (h : ∀ i ∈ is, i < l.length) :
    (PyM.each (siftupM lt) is (l, w)).1 = .ok () ∧ (PyM.each (siftupM lt) is (l, w)).2.1 = is.foldl (siftup b) l := by
  induction is generalizing l w with
  | nil => exact ⟨rfl, rfl⟩
  | cons i is ih =>
    obtain ⟨a1, a2⟩ := siftupM_eq hb l i (h i List.mem_cons_self) w
    unfold PyM.each PyM.bind
    generalize siftupM lt i (l, w) = r at a1 a2
    obtain ⟨r, l', w'⟩ := r
    simp only at a1 a2
    subst a1 a2
    exact ih _ w' (fun j hj => by rw [siftup_len]; exact h j (List.mem_cons_of_mem _ hj))

theorem heapifyM_eq {lt : α → α → PyM S Bool} {b : α → α → Bool} (hb : Answers lt b) (l : List α) (w : S) :
    (heapifyM lt (l, w)).1 = .ok () ∧ (heapifyM lt (l, w)).2.1 = heapify b l :=
  each_eq hb _ l w (fun i hi => by simp only [List.mem_reverse, List.mem_range] at hi; omega)

theorem heappushM_eq {lt : α → α → PyM S Bool} {b : α → α → Bool} (hb : Answers lt b) (x : α) (l : List α) (w : S) :
    (heappushM lt x (l, w)).1 = .ok () ∧ (heappushM lt x (l, w)).2.1 = heappush b l x := by
  have k := siftdownM_eq hb 0 x l.length (l ++ [x]) l.length (by simp) w
  have e : (l ++ [x]).set l.length x = l ++ [x] := by simp
  rw [e] at k
  refine ⟨k.1, k.2.trans ?_⟩
  unfold heappush siftdown
  rw [List.getElem?_append_right (Nat.le_refl _)]
  simp

theorem heappopM_eq {lt : α → α → PyM S Bool} {b : α → α → Bool} (hb : Answers lt b) (l : List α) (w : S) :
    match heappop b l with
    | .ok (x, l') => (heappopM lt (l, w)).1 = .ok x ∧ (heappopM lt (l, w)).2.1 = l'
    | .error e => heappopM lt (l, w) = (.error e, l, w) := by
  unfold heappop heappopM
  cases hl : l.getLast? with
  | none => rfl
  | some last =>
    simp only
    cases hd : l.dropLast with
    | nil => exact ⟨rfl, rfl⟩
    | cons x rest =>
      obtain ⟨a1, a2⟩ := siftupM_eq hb (last :: rest) 0 (by simp) w
      simp only [PyM.bind]
      generalize siftupM lt 0 (last :: rest, w) = r at a1 a2
      obtain ⟨r, l', w'⟩ := r
      simp only at a1 a2
      subst a1 a2
      exact ⟨rfl, rfl⟩

/-! ## Number of comparisons -/

/-- A comparison costs at most `c`. -/
def Costs {X Y : Type} (cost : S → Nat) (c : Nat) (lt : X → X → PyM S Y) : Prop := ∀ x y s, cost (lt x y s).2 ≤ cost s + c

theorem siftdownM_cost {lt : α → α → PyM S Bool} {cost : S → Nat} {c : Nat} (h : Costs cost c lt) (start k : Nat) (fuel pos : Nat)
    (hk : (pos + 1) / 2 ^ k = start + 1) (s : List α × S) : cost (siftdownM lt start fuel pos s).2.2 ≤ cost s.2 + k * c := by
  induction fuel generalizing k pos s with
  | zero => exact Nat.le_add_right _ _
  | succ fuel ih =>
    unfold siftdownM
    by_cases hs : start < pos
    · simp only [hs, if_true]
      cases k with
      | zero => simp at hk; omega
      | succ k =>
        have hk' : ((pos - 1) / 2 + 1) / 2 ^ k = start + 1 := by
          rw [Nat.pow_succ, Nat.mul_comm, ← Nat.div_div_eq_div_mul] at hk
          have : (pos - 1) / 2 + 1 = (pos + 1) / 2 := by omega
          rw [this]; exact hk
        have e : (k + 1) * c = c + k * c := by rw [Nat.succ_mul]; omega
        rw [e]
        split
        · next x p hx hp =>
          have hc := h x p s.2
          split
          · next er w he => rw [he] at hc; simp only at hc ⊢; omega
          · next w he => rw [he] at hc; simp only at hc ⊢; omega
          · next w he =>
            rw [he] at hc
            have := ih k ((pos - 1) / 2) hk' (swapAt s.1 pos x ((pos - 1) / 2) p, w)
            simp only at hc this ⊢
            omega
        · simp only; omega
    · simp only [hs, if_false]; omega

theorem log_child {n pos child : Nat} (h : child = 2 * pos + 1 ∨ child = 2 * pos + 2) (hc : child < n) :
    Nat.log 2 (n / (child + 1)) + 1 ≤ Nat.log 2 (n / (pos + 1)) := by
  have h2 : 2 ≤ n / (pos + 1) := by
    rw [Nat.le_div_iff_mul_le (by omega)]; omega
  rw [Nat.log_of_one_lt_of_le (by omega) h2]
  have : n / (child + 1) ≤ n / (pos + 1) / 2 := by
    rw [Nat.div_div_eq_div_mul]
    exact Nat.div_le_div_left (by omega) (by omega)
  exact Nat.succ_le_succ (Nat.log_mono_right this)

theorem swapAt_length (l : List α) (i : Nat) (x : α) (j : Nat) (y : α) : (swapAt l i x j y).length = l.length := by simp [swapAt]

theorem siftupLoopM_cost {lt : α → α → PyM S Bool} {cost : S → Nat} {c : Nat} (h : Costs cost c lt) (fuel pos : Nat) (s : List α × S) :
    cost (siftupLoopM lt fuel pos s).2.2 ≤ cost s.2 + Nat.log 2 (s.1.length / (pos + 1)) * c ∧
      ∀ q, (siftupLoopM lt fuel pos s).1 = .ok q → ∃ k ≤ Nat.log 2 (s.1.length / (pos + 1)), (q + 1) / 2 ^ k = pos + 1 := by
  induction fuel generalizing pos s with
  | zero =>
    refine ⟨Nat.le_add_right _ _, fun q hq => ⟨0, Nat.zero_le _, ?_⟩⟩
    cases hq; simp
  | succ fuel ih =>
    have step : ∀ (child : Nat) (x y : α) (w : S), (child = 2 * pos + 1 ∨ child = 2 * pos + 2) → child < s.1.length → cost w ≤ cost s.2 + c →
        cost (siftupLoopM lt fuel child (swapAt s.1 pos x child y, w)).2.2 ≤ cost s.2 + Nat.log 2 (s.1.length / (pos + 1)) * c ∧
          ∀ q, (siftupLoopM lt fuel child (swapAt s.1 pos x child y, w)).1 = .ok q →
            ∃ k ≤ Nat.log 2 (s.1.length / (pos + 1)), (q + 1) / 2 ^ k = pos + 1 := by
      intro child x y w hc hlt hw
      have hlog := log_child hc hlt
      obtain ⟨a, b⟩ := ih child (swapAt s.1 pos x child y, w)
      simp only [swapAt_length] at a b
      refine ⟨?_, fun q hq => ?_⟩
      · have := Nat.mul_le_mul_right c hlog
        rw [Nat.succ_mul] at this
        omega
      · obtain ⟨k, hk, e⟩ := b q hq
        refine ⟨k + 1, by omega, ?_⟩
        rw [Nat.pow_succ, ← Nat.div_div_eq_div_mul, e]
        omega
    unfold siftupLoopM
    split
    · next x left hx hl =>
      have hll := (List.getElem?_eq_some_iff.1 hl).1
      split
      · exact step _ _ _ _ (.inl rfl) hll (Nat.le_add_right _ _)
      · next right hr =>
        have hrl := (List.getElem?_eq_some_iff.1 hr).1
        have hc := h left right s.2
        split
        · next er w he =>
          rw [he] at hc
          refine ⟨?_, fun q hq => by cases hq⟩
          have := Nat.mul_le_mul_right c (log_child (.inl rfl) hll)
          rw [Nat.succ_mul] at this
          simp only at hc ⊢
          omega
        · next w he => rw [he] at hc; exact step _ _ _ _ (.inl rfl) hll hc
        · next w he => rw [he] at hc; exact step _ _ _ _ (.inr rfl) hrl hc
    · refine ⟨Nat.le_add_right _ _, fun q hq => ⟨0, Nat.zero_le _, ?_⟩⟩
      cases hq; simp

theorem siftupM_cost {lt : α → α → PyM S Bool} {cost : S → Nat} {c : Nat} (h : Costs cost c lt) (pos : Nat) (s : List α × S) :
    cost (siftupM lt pos s).2.2 ≤ cost s.2 + 2 * Nat.log 2 (s.1.length / (pos + 1)) * c := by
  obtain ⟨a, b⟩ := siftupLoopM_cost h s.1.length pos s
  have e : 2 * Nat.log 2 (s.1.length / (pos + 1)) * c = Nat.log 2 (s.1.length / (pos + 1)) * c + Nat.log 2 (s.1.length / (pos + 1)) * c := by
    rw [Nat.mul_assoc, Nat.two_mul]
  rw [e]
  unfold siftupM PyM.bind
  split
  · next q s' he =>
    rw [he] at a b
    obtain ⟨k, hk, hq⟩ := b q rfl
    have k1 := siftdownM_cost h pos k q q hq s'
    have k2 := Nat.mul_le_mul_right c hk
    simp only at a ⊢
    omega
  · next er s' he => rw [he] at a; simp only at a ⊢; omega

theorem sum_log_le (n : Nat) : ∀ m, ((List.range m).map fun i => Nat.log 2 (n / (i + 1))).sum ≤ n := by
  induction n using Nat.strong_induction_on with
  | _ n ih =>
    intro m
    by_cases hn : n < 2
    · have : ((List.range m).map fun i => Nat.log 2 (n / (i + 1))) = (List.range m).map fun _ => 0 := by
        apply List.map_congr_left
        intro i _
        exact Nat.log_of_lt (Nat.lt_of_le_of_lt (Nat.div_le_self _ _) hn)
      rw [this]
      simp
    · have h1 : ∀ m, ((List.range m).map fun i => Nat.log 2 (n / (i + 1))).sum ≤
          min m (n / 2) + ((List.range m).map fun i => Nat.log 2 (n / 2 / (i + 1))).sum := by
        intro m
        induction m with
        | zero => simp
        | succ m ihm =>
          simp only [List.range_succ, List.map_append, List.sum_append, List.map_cons, List.map_nil, List.sum_cons, List.sum_nil, Nat.add_zero]
          by_cases hm : m < n / 2
          · have h2 : 2 ≤ n / (m + 1) := by rw [Nat.le_div_iff_mul_le (by omega)]; omega
            rw [Nat.log_of_one_lt_of_le (by omega) h2, Nat.div_div_eq_div_mul, Nat.mul_comm (m + 1) 2, ← Nat.div_div_eq_div_mul]
            omega
          · have h2 : n / (m + 1) < 2 := by rw [Nat.div_lt_iff_lt_mul (by omega)]; omega
            rw [Nat.log_of_lt h2]
            omega
      have := ih (n / 2) (by omega) m
      have := h1 m
      omega

theorem each_cost {lt : α → α → PyM S Bool} {cost : S → Nat} {c : Nat} (h : Costs cost c lt) (is : List Nat) (s : List α × S) :
    cost (PyM.each (siftupM lt) is s).2.2 ≤ cost s.2 + 2 * (is.map fun i => Nat.log 2 (s.1.length / (i + 1))).sum * c := by
  induction is generalizing s with
  | nil => exact Nat.le_add_right _ _
  | cons i is ih =>
    have a := siftupM_cost h i s
    have hp := (siftupM_perm lt i s).length_eq
    have e : 2 * ((i :: is).map fun i => Nat.log 2 (s.1.length / (i + 1))).sum * c =
        2 * Nat.log 2 (s.1.length / (i + 1)) * c + 2 * (is.map fun i => Nat.log 2 (s.1.length / (i + 1))).sum * c := by
      rw [List.map_cons, List.sum_cons, Nat.mul_add, Nat.add_mul]
    rw [e]
    unfold PyM.each PyM.bind
    split
    · next q s' he =>
      rw [he] at a hp
      have := ih s'
      simp only at hp a
      rw [hp] at this
      simp only
      omega
    · next er s' he => rw [he] at a; simp only at a ⊢; omega

theorem heapifyM_cost {lt : α → α → PyM S Bool} {cost : S → Nat} {c : Nat} (h : Costs cost c lt) (s : List α × S) :
    cost (heapifyM lt s).2.2 ≤ cost s.2 + 2 * s.1.length * c := by
  have a := each_cost h (List.range (s.1.length / 2)).reverse s
  rw [List.map_reverse, List.sum_reverse] at a
  have := Nat.mul_le_mul_right c (Nat.mul_le_mul_left 2 (sum_log_le s.1.length (s.1.length / 2)))
  exact Nat.le_trans a (Nat.add_le_add_left this _)

theorem heappushM_cost {lt : α → α → PyM S Bool} {cost : S → Nat} {c : Nat} (h : Costs cost c lt) (x : α) (s : List α × S) :
    cost (heappushM lt x s).2.2 ≤ cost s.2 + Nat.log 2 (s.1.length + 1) * c :=
  siftdownM_cost h 0 _ _ _ (by
    have h1 := Nat.pow_log_le_self 2 (x := s.1.length + 1) (by omega)
    have h2 := Nat.lt_pow_succ_log_self (b := 2) (by omega) (s.1.length + 1)
    rw [Nat.pow_succ] at h2
    have hpos : 0 < 2 ^ Nat.log 2 (s.1.length + 1) := Nat.pow_pos (by omega)
    apply Nat.le_antisymm
    · rw [Nat.zero_add]; exact Nat.le_of_lt_succ ((Nat.div_lt_iff_lt_mul hpos).2 (by omega))
    · exact (Nat.le_div_iff_mul_le hpos).2 (by omega)) _

theorem heappopM_cost {lt : α → α → PyM S Bool} {cost : S → Nat} {c : Nat} (h : Costs cost c lt) (s : List α × S) :
    cost (heappopM lt s).2.2 ≤ cost s.2 + 2 * Nat.log 2 (s.1.length - 1) * c := by
  unfold heappopM
  cases hl : s.1.getLast? with
  | none => exact Nat.le_add_right _ _
  | some last =>
    simp only
    cases hd : s.1.dropLast with
    | nil => exact Nat.le_add_right _ _
    | cons x rest =>
      have a := siftupM_cost h 0 (last :: rest, s.2)
      have hlen : rest.length + 1 = s.1.length - 1 := by
        have := congrArg List.length hd
        simpa using this.symm
      simp only [List.length_cons, Nat.zero_add, Nat.div_one, hlen] at a
      simp only [PyM.bind]
      split
      · next q s' he => rw [he] at a; exact a
      · next er s' he => rw [he] at a; exact a

end Heapq
end PyBGL
