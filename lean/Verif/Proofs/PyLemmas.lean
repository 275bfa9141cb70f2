import Verif.Prelude.Py
import Mathlib.Data.List.Basic
import Mathlib.Data.List.Nodup

namespace PyBGL

namespace Dict
variable {K V : Type} [DecidableEq K]

@[simp] theorem get?_nil (k : K) : get? ([] : Dict K V) k = none := rfl

@[simp] theorem get?_cons (k x : K) (v : V) (d : Dict K V) :
    get? ((k, v) :: d) x = if k = x then some v else get? d x := rfl

theorem get?_set (d : Dict K V) (k x : K) (v : V) :
    get? (set d k v) x = if k = x then some v else get? d x := by
  induction d with
  | nil => simp [set]
  | cons p d ih =>
    obtain ⟨k', v'⟩ := p
    by_cases h : k' = k
    · subst h
      simp only [set, if_true, get?_cons]
      split <;> rfl
    · simp only [set, h, if_false, get?_cons, ih]
      by_cases h2 : k' = x
      · subst h2; simp [Ne.symm h]
      · simp [h2]

@[simp] theorem get?_set_self (d : Dict K V) (k : K) (v : V) : get? (set d k v) k = some v := by
  simp [get?_set]

theorem get?_set_ne (d : Dict K V) {k x : K} (v : V) (h : k ≠ x) :
    get? (set d k v) x = get? d x := by
  simp [get?_set, h]

theorem get?_eq_none_iff (d : Dict K V) (k : K) : get? d k = none ↔ k ∉ keys d := by
  induction d with
  | nil => simp [keys]
  | cons p d ih =>
    obtain ⟨k', v'⟩ := p
    simp only [get?_cons, keys, List.map_cons, List.mem_cons, not_or]
    by_cases h : k' = k
    · simp [h]
    · simp only [h, if_false, ih]
      constructor
      · intro hh; exact ⟨fun e => h e.symm, hh⟩
      · intro hh; exact hh.2

theorem mem_keys_iff (d : Dict K V) (k : K) : k ∈ keys d ↔ ∃ v, get? d k = some v := by
  have := get?_eq_none_iff d k
  cases h : get? d k with
  | none => simp [h] at this; simp [this]
  | some v => simp [h] at this; simp [this]

theorem mem_of_get? {d : Dict K V} {k : K} {v : V} (h : get? d k = some v) : (k, v) ∈ d := by
  induction d with
  | nil => simp at h
  | cons p d ih =>
    obtain ⟨k', v'⟩ := p
    simp only [get?_cons] at h
    split at h
    · simp_all
    · simp [ih h]

theorem get?_of_mem {d : Dict K V} (hd : NodupKeys d) {k : K} {v : V} (h : (k, v) ∈ d) :
    get? d k = some v := by
  induction d with
  | nil => simp at h
  | cons p d ih =>
    obtain ⟨k', v'⟩ := p
    simp only [NodupKeys, List.map_cons, List.nodup_cons] at hd
    simp only [List.mem_cons, Prod.mk.injEq] at h
    simp only [get?_cons]
    rcases h with ⟨rfl, rfl⟩ | h
    · simp
    · have : k' ≠ k := by
        rintro rfl
        exact hd.1 (List.mem_map.2 ⟨_, h, rfl⟩)
      simp [this, ih hd.2 h]

theorem mem_iff {d : Dict K V} (hd : NodupKeys d) {k : K} {v : V} :
    (k, v) ∈ d ↔ get? d k = some v :=
  ⟨get?_of_mem hd, mem_of_get?⟩

theorem mem_keys_set (d : Dict K V) (k x : K) (v : V) :
    x ∈ keys (set d k v) ↔ x = k ∨ x ∈ keys d := by
  rw [mem_keys_iff, mem_keys_iff, get?_set]
  by_cases h : k = x
  · simp [h]
  · simp [h, Ne.symm h]

theorem keys_set_of_mem (d : Dict K V) (k : K) (v : V) (h : k ∈ keys d) :
    keys (set d k v) = keys d := by
  induction d with
  | nil => simp [keys] at h
  | cons p d ih =>
    obtain ⟨k', v'⟩ := p
    by_cases hk : k' = k
    · simp [set, hk, keys]
    · have hk2 : k ≠ k' := fun e => hk e.symm
      simp only [keys, List.map_cons, List.mem_cons, hk2, false_or] at h
      have := ih h
      simp only [keys] at this
      simp [set, hk, keys, this]

theorem keys_set_of_not_mem (d : Dict K V) (k : K) (v : V) (h : k ∉ keys d) :
    keys (set d k v) = keys d ++ [k] := by
  induction d with
  | nil => simp [keys, set]
  | cons p d ih =>
    obtain ⟨k', v'⟩ := p
    simp only [keys, List.map_cons, List.mem_cons, not_or] at h
    have hk : k' ≠ k := fun e => h.1 e.symm
    have := ih h.2
    simp only [keys] at this
    simp [set, hk, keys, this]

theorem set_of_not_mem (d : Dict K V) (k : K) (v : V) (h : k ∉ keys d) :
    set d k v = d ++ [(k, v)] := by
  induction d with
  | nil => simp [set]
  | cons p d ih =>
    obtain ⟨k', v'⟩ := p
    simp only [keys, List.map_cons, List.mem_cons, not_or] at h
    have hk : k' ≠ k := fun e => h.1 e.symm
    simp [set, hk, ih h.2]

omit [DecidableEq K] in
theorem nodupKeys_nil : NodupKeys ([] : Dict K V) := by simp [NodupKeys]

theorem nodupKeys_set {d : Dict K V} (hd : NodupKeys d) (k : K) (v : V) : NodupKeys (set d k v) := by
  show (keys (set d k v)).Nodup
  by_cases h : k ∈ keys d
  · rw [keys_set_of_mem d k v h]; exact hd
  · rw [keys_set_of_not_mem d k v h]
    exact List.nodup_append.2 ⟨hd, by simp, by
      intro a ha b hb; simp at hb; subst hb; rintro rfl; exact h ha⟩

theorem erase_sublist (d : Dict K V) (k : K) : List.Sublist (erase d k) d := by
  induction d with
  | nil => simp [erase]
  | cons p d ih =>
    obtain ⟨k', v'⟩ := p
    by_cases hk : k' = k
    · simp [erase, hk]
    · simp only [erase, hk, if_false]; exact ih.cons_cons _

theorem nodupKeys_erase {d : Dict K V} (hd : NodupKeys d) (k : K) : NodupKeys (erase d k) :=
  List.Nodup.sublist ((erase_sublist d k).map _) hd

theorem get?_erase {d : Dict K V} (hd : NodupKeys d) (k x : K) :
    get? (erase d k) x = if k = x then none else get? d x := by
  induction d with
  | nil => simp [erase]
  | cons p d ih =>
    obtain ⟨k', v'⟩ := p
    simp only [NodupKeys, List.map_cons, List.nodup_cons] at hd
    by_cases hk : k' = k
    · subst hk
      simp only [erase, if_true, get?_cons]
      by_cases h : k' = x
      · subst h; simp only [if_true]; exact (get?_eq_none_iff d k').2 hd.1
      · simp [h]
    · simp only [erase, hk, if_false, get?_cons, ih hd.2]
      by_cases h : k' = x
      · subst h; simp [Ne.symm hk]
      · simp [h]

theorem contains_iff (d : Dict K V) (k : K) : contains d k = true ↔ ∃ v, get? d k = some v := by
  simp [contains, Option.isSome_iff_exists]

theorem contains_iff_mem (d : Dict K V) (k : K) : contains d k = true ↔ k ∈ keys d := by
  rw [contains_iff, mem_keys_iff]

theorem getE_ok_iff (d : Dict K V) (k : K) (v : V) : getE d k = .ok v ↔ get? d k = some v := by
  unfold getE; cases h : get? d k <;> simp

theorem getE_of_get? {d : Dict K V} {k : K} {v : V} (h : get? d k = some v) : getE d k = .ok v :=
  (getE_ok_iff d k v).2 h

theorem delE_ok_iff (d d' : Dict K V) (k : K) :
    delE d k = .ok d' ↔ (k ∈ keys d ∧ d' = erase d k) := by
  unfold delE
  rw [← contains_iff_mem]
  by_cases h : contains d k = true
  · simp [h, eq_comm]
  · simp [h]

theorem getD_eq (d : Dict K V) (k : K) (x : V) : getD d k x = (get? d k).getD x := rfl

theorem getD_set (d : Dict K V) (k x : K) (v w : V) :
    getD (set d k v) x w = if k = x then v else getD d x w := by
  simp only [getD, get?_set]; split <;> rfl

theorem get?_append (d d' : Dict K V) (x : K) :
    get? (d ++ d') x = (get? d x).orElse (fun _ => get? d' x) := by
  induction d with
  | nil => simp
  | cons p d ih =>
    obtain ⟨k', v'⟩ := p
    simp only [List.cons_append, get?_cons, ih]
    split <;> simp

end Dict

section sets
variable {α : Type} [DecidableEq α]

@[simp] theorem mem_setAdd (s : List α) (x y : α) : y ∈ setAdd s x ↔ y ∈ s ∨ y = x := by
  unfold setAdd; split
  · constructor
    · exact Or.inl
    · rintro (h | rfl) <;> assumption
  · simp

theorem nodup_setAdd {s : List α} (h : s.Nodup) (x : α) : (setAdd s x).Nodup := by
  unfold setAdd; split
  · exact h
  · rename_i hx
    exact List.nodup_append.2 ⟨h, by simp, by
      intro a ha b hb; simp at hb; subst hb; rintro rfl; exact hx ha⟩

@[simp] theorem mem_setDiscard (s : List α) (x y : α) : y ∈ setDiscard s x ↔ y ∈ s ∧ y ≠ x := by
  simp [setDiscard]

theorem nodup_setDiscard {s : List α} (h : s.Nodup) (x : α) : (setDiscard s x).Nodup :=
  h.filter _

theorem setRemoveE_ok_iff (s t : List α) (x : α) :
    setRemoveE s x = .ok t ↔ x ∈ s ∧ t = setDiscard s x := by
  unfold setRemoveE
  split
  · simp [*, eq_comm]
  · simp [*]

@[simp] theorem mem_setUnion (s t : List α) (x : α) : x ∈ setUnion s t ↔ x ∈ s ∨ x ∈ t := by
  unfold setUnion
  induction t generalizing s with
  | nil => simp
  | cons a t ih => simp [ih, or_assoc]

theorem nodup_setUnion {s : List α} (h : s.Nodup) (t : List α) : (setUnion s t).Nodup := by
  unfold setUnion
  induction t generalizing s with
  | nil => exact h
  | cons a t ih => exact ih (nodup_setAdd h a)

@[simp] theorem mem_mkSet (l : List α) (x : α) : x ∈ mkSet l ↔ x ∈ l := by
  have := mem_setUnion [] l x
  simpa [setUnion, mkSet] using this

theorem nodup_mkSet (l : List α) : (mkSet l).Nodup :=
  nodup_setUnion (s := []) List.nodup_nil l

end sets

/-! ## Loops -/

section loops
variable {S R : Type}

theorem loop_mono (step : Nat → S → Step S R) {n m t : Nat} {s : S} {r : Except PyErr R}
    (h : loop step n t s = some r) (hnm : n ≤ m) : loop step m t s = some r := by
  induction n generalizing m t s with
  | zero => simp [loop] at h
  | succ n ih =>
    obtain ⟨m', rfl⟩ : ∃ m', m = m' + 1 := ⟨m - 1, by omega⟩
    simp only [loop] at h ⊢
    split
    · rename_i s' hs; rw [hs] at h; exact ih h (by omega)
    · rename_i r' hs; rw [hs] at h; exact h
    · rename_i e hs; rw [hs] at h; exact h

/-- Total correctness of a loop from an invariant and a variant, with the fuel given by the variant. -/
theorem loop_total_fuel (step : Nat → S → Step S R) (Inv : S → Prop) (μ : S → Nat)
    (Post : Except PyErr R → Prop)
    (hnext : ∀ t s s', Inv s → step t s = .next s' → Inv s' ∧ μ s' < μ s)
    (hdone : ∀ t s r, Inv s → step t s = .done r → Post (.ok r))
    (hfail : ∀ t s e, Inv s → step t s = .fail e → Post (.error e)) :
    ∀ n t s, Inv s → μ s ≤ n → ∃ r, loop step (n + 1) t s = some r ∧ Post r := by
  intro n
  induction n with
  | zero =>
    intro t s hs hn
    simp only [loop]
    cases h : step t s with
    | next s' => exact absurd (hnext t s s' hs h).2 (by omega)
    | done r => exact ⟨_, rfl, hdone t s r hs h⟩
    | fail e => exact ⟨_, rfl, hfail t s e hs h⟩
  | succ n ih =>
    intro t s hs hn
    rw [loop]
    cases h : step t s with
    | next s' =>
      have := hnext t s s' hs h
      exact ih (t + 1) s' this.1 (by omega)
    | done r => exact ⟨_, rfl, hdone t s r hs h⟩
    | fail e => exact ⟨_, rfl, hfail t s e hs h⟩

/-- Total correctness of a loop from an invariant and a variant. -/
theorem loop_total (step : Nat → S → Step S R) (Inv : S → Prop) (μ : S → Nat)
    (Post : Except PyErr R → Prop)
    (hnext : ∀ t s s', Inv s → step t s = .next s' → Inv s' ∧ μ s' < μ s)
    (hdone : ∀ t s r, Inv s → step t s = .done r → Post (.ok r))
    (hfail : ∀ t s e, Inv s → step t s = .fail e → Post (.error e))
    {s : S} (hs : Inv s) (t : Nat) :
    ∃ r, Returns (fun fuel => loop step fuel t s) r ∧ Post r := by
  obtain ⟨r, hr, hp⟩ := loop_total_fuel step Inv μ Post hnext hdone hfail (μ s) t s hs (Nat.le_refl _)
  exact ⟨r, ⟨_, fun fuel hf => loop_mono step hr hf⟩, hp⟩

/-- Partial correctness: an invariant holds whenever the loop ends. -/
theorem loop_partial (step : Nat → S → Step S R) (Inv : S → Prop)
    (Post : Except PyErr R → Prop)
    (hnext : ∀ t s s', Inv s → step t s = .next s' → Inv s')
    (hdone : ∀ t s r, Inv s → step t s = .done r → Post (.ok r))
    (hfail : ∀ t s e, Inv s → step t s = .fail e → Post (.error e))
    {s : S} (hs : Inv s) {fuel t : Nat} {r : Except PyErr R}
    (h : loop step fuel t s = some r) : Post r := by
  induction fuel generalizing t s with
  | zero => simp [loop] at h
  | succ n ih =>
    rw [loop] at h
    cases h' : step t s with
    | next s' => rw [h'] at h; exact ih (hnext t s s' hs h') h
    | done r => rw [h'] at h; simp at h; subst h; exact hdone t s r hs h'
    | fail e => rw [h'] at h; simp at h; subst h; exact hfail t s e hs h'

theorem returns_unique {run : Nat → Option R} {r r' : R} (h : Returns run r) (h' : Returns run r') :
    r = r' := by
  obtain ⟨N, hN⟩ := h
  obtain ⟨M, hM⟩ := h'
  have a := hN (max N M) (Nat.le_max_left _ _)
  have b := hM (max N M) (Nat.le_max_right _ _)
  simpa using a.symm.trans b

end loops

end PyBGL
