import Mathlib.Data.List.Basic
import Mathlib.Data.List.Nodup
import Verif.Model.Heap

/-!
# The binary heap of `heapq`
-/

namespace PyBGL.Heapq
variable {α : Type}

/-- `<` and a preorder agree as far as heaps are concerned: this holds of the strict order of a total preorder, and also of the preorder itself. -/
structure Ord (lt : α → α → Bool) (le : α → α → Prop) : Prop where
  refl : ∀ x, le x x
  trans : ∀ x y z, le x y → le y z → le x z
  pos : ∀ x y, lt x y = true → le x y
  neg : ∀ x y, lt x y = false → le y x

variable {lt : α → α → Bool} {le : α → α → Prop}

/-- `l` is a heap below the position `s`. -/
def Below (le : α → α → Prop) (s : Nat) (l : List α) : Prop :=
  ∀ i, 1 ≤ i → s ≤ (i - 1) / 2 → ∀ x y, l[(i - 1) / 2]? = some x → l[i]? = some y → le x y

/-- `l` is a heap. -/
def IsHeap (le : α → α → Prop) (l : List α) : Prop := Below le 0 l

/-- `c` is `s` or below it. -/
inductive Desc (s : Nat) : Nat → Prop
  | refl : Desc s s
  | left {p : Nat} (h : Desc s p) : Desc s (2 * p + 1)
  | right {p : Nat} (h : Desc s p) : Desc s (2 * p + 2)

theorem Desc.ge {s c : Nat} (h : Desc s c) : s ≤ c := by induction h <;> omega

theorem Desc.parent {s c : Nat} (h : Desc s c) (hc : s < c) : Desc s ((c - 1) / 2) := by
  cases h with
  | refl => omega
  | @left p h => rwa [show (2 * p + 1 - 1) / 2 = p by omega]
  | @right p h => rwa [show (2 * p + 2 - 1) / 2 = p by omega]

theorem desc_zero (c : Nat) : Desc 0 c := by
  induction c using Nat.strongRecOn with
  | _ c ih =>
    rcases Nat.eq_zero_or_pos c with rfl | h
    · exact .refl
    · have := ih ((c - 1) / 2) (by omega)
      rcases Nat.mod_two_eq_zero_or_one c with e | e
      · have h2 := Desc.right this
        rwa [show 2 * ((c - 1) / 2) + 2 = c by omega] at h2
      · have h2 := Desc.left this
        rwa [show 2 * ((c - 1) / 2) + 1 = c by omega] at h2

/-! ## Permutations -/

theorem set_perm {l : List α} {i : Nat} {y : α} (h : l[i]? = some y) (x : α) : (y :: l.set i x).Perm (x :: l) := by
  induction l generalizing i with
  | nil => simp at h
  | cons z l ih =>
    cases i with
    | zero => simp at h; subst h; simpa using List.Perm.swap x z l
    | succ i =>
      have := ih (i := i) (by simpa using h)
      simp only [List.set_cons_succ]
      exact (List.Perm.swap z y _).trans ((this.cons z).trans (List.Perm.swap x z l))

theorem set_set_perm {l : List α} {i j : Nat} {y : α} (hi : i < l.length) (hj : l[j]? = some y) (hij : i ≠ j) (x : α) :
    ((l.set i y).set j x).Perm (l.set i x) := by
  obtain ⟨z, hz⟩ : ∃ z, l[i]? = some z := ⟨l[i], by simp [hi]⟩
  have h1 := set_perm (l := l.set i y) (i := j) (y := y) (by rw [List.getElem?_set_ne hij]; exact hj) x
  have h2 := set_perm hz y
  have h3 := set_perm hz x
  -- y :: (set set) ~ x :: set i y ; z :: set i y ~ y :: l ; z :: set i x ~ x :: l
  have h4 : (z :: y :: (l.set i y).set j x).Perm (z :: y :: l.set i x) := by
    refine (h1.cons z).trans ?_
    refine (List.Perm.swap x z _).trans ?_
    refine (h2.cons x).trans ?_
    refine (List.Perm.swap y x _).trans ?_
    refine (h3.symm.cons y).trans ?_
    exact List.Perm.swap z y _
  exact (List.perm_cons _).mp ((List.perm_cons _).mp h4)

/-! ## `_siftdown` -/

/-- The heap is right except between `pos` and its parent, provided `x` is put at `pos`. -/
structure DownInv (le : α → α → Prop) (s : Nat) (x : α) (l : List α) (pos : Nat) : Prop where
  lt : pos < l.length
  desc : Desc s pos
  other : ∀ i, 1 ≤ i → s ≤ (i - 1) / 2 → i ≠ pos → ∀ y z, (l.set pos x)[(i - 1) / 2]? = some y → (l.set pos x)[i]? = some z → le y z
  skip : s < pos → ∀ i, 1 ≤ i → (i - 1) / 2 = pos → ∀ y z, l[(pos - 1) / 2]? = some y → l[i]? = some z → le y z

theorem siftdownLoop_spec (o : Ord lt le) {s : Nat} {x : α} : ∀ (fuel : Nat) {l : List α} {pos : Nat}, pos ≤ fuel → DownInv le s x l pos →
    Below le s ((siftdownLoop lt s x fuel l pos).1.set (siftdownLoop lt s x fuel l pos).2 x) ∧
    ((siftdownLoop lt s x fuel l pos).1.set (siftdownLoop lt s x fuel l pos).2 x).Perm (l.set pos x) := by
  intro fuel
  induction fuel with
  | zero =>
    intro l pos hf h
    have : pos = 0 := by omega
    subst this
    refine ⟨?_, .refl _⟩
    intro i hi hs
    exact h.other i hi hs (by omega)
  | succ fuel ih =>
    intro l pos hf h
    have hlen := h.lt
    unfold siftdownLoop
    by_cases hpos : s < pos
    · rw [if_pos hpos]
      obtain ⟨p, hp⟩ : ∃ p, l[(pos - 1) / 2]? = some p := ⟨l[(pos - 1) / 2]'(by omega), by simp⟩
      rw [hp]
      simp only
      have hne : (pos - 1) / 2 ≠ pos := by omega
      have hds := (h.desc.parent hpos).ge
      by_cases hlt : lt x p = true
      · rw [if_pos hlt]
        suffices hinv : DownInv le s x (l.set pos p) ((pos - 1) / 2) by
          obtain ⟨k1, k2⟩ := ih (by omega) hinv
          exact ⟨k1, k2.trans (set_set_perm hlen hp (Ne.symm hne) x)⟩
        refine ⟨by rw [List.length_set]; omega, h.desc.parent hpos, ?_, ?_⟩
        · intro i hi hs hip y z hy hz
          rw [List.getElem?_set, List.getElem?_set] at hy hz
          simp only [List.length_set] at hy hz
          by_cases hi1 : i = pos
          · subst hi1
            rw [if_pos rfl, if_pos (by omega)] at hy
            rw [if_neg hne, if_pos rfl, if_pos hlen] at hz
            cases hy; cases hz
            exact o.pos _ _ hlt
          · by_cases hi2 : (i - 1) / 2 = pos
            · rw [if_neg (by omega), if_pos hi2.symm, if_pos hlen] at hy
              rw [if_neg (Ne.symm hip), if_neg (Ne.symm hi1)] at hz
              cases hy
              exact h.skip hpos i hi hi2 _ _ hp hz
            · rw [if_neg (Ne.symm hip), if_neg (Ne.symm hi1)] at hz
              by_cases hi3 : (i - 1) / 2 = (pos - 1) / 2
              · rw [if_pos hi3.symm, if_pos (by omega)] at hy
                cases hy
                refine o.trans _ _ _ (o.pos _ _ hlt) (h.other i hi hs hi1 _ _ ?_ ?_)
                · rw [hi3, List.getElem?_set_ne (Ne.symm hne)]; exact hp
                · rw [List.getElem?_set_ne (Ne.symm hi1)]; exact hz
              · rw [if_neg (Ne.symm hi3), if_neg (Ne.symm hi2)] at hy
                refine h.other i hi hs hi1 _ _ ?_ ?_
                · rw [List.getElem?_set_ne (Ne.symm hi2)]; exact hy
                · rw [List.getElem?_set_ne (Ne.symm hi1)]; exact hz
        · intro hs' i hi hip y z hy hz
          have h1 : le y p := by
            refine h.other ((pos - 1) / 2) (by omega) ?_ hne _ _ ?_ ?_
            · exact ((h.desc.parent hpos).parent hs').ge
            · rw [List.getElem?_set_ne (by omega)] at hy ⊢; exact hy
            · rw [List.getElem?_set_ne (by omega)]; exact hp
          by_cases hi1 : i = pos
          · subst hi1
            rw [List.getElem?_set_self hlen] at hz
            cases hz; exact h1
          · rw [List.getElem?_set_ne (Ne.symm hi1)] at hz
            refine o.trans _ _ _ h1 (h.other i hi (by omega) hi1 _ _ ?_ ?_)
            · rw [hip, List.getElem?_set_ne (Ne.symm hne)]; exact hp
            · rw [List.getElem?_set_ne (Ne.symm hi1)]; exact hz
      · rw [if_neg hlt]
        refine ⟨?_, .refl _⟩
        intro i hi hs y z hy hz
        by_cases hi1 : i = pos
        · subst hi1
          rw [List.getElem?_set_self hlen] at hz
          rw [List.getElem?_set_ne (Ne.symm hne), hp] at hy
          cases hy; cases hz
          exact o.neg _ _ (by simpa using hlt)
        · exact h.other i hi hs hi1 y z hy hz
    · rw [if_neg hpos]
      refine ⟨?_, .refl _⟩
      intro i hi hs
      have := h.desc.ge
      exact h.other i hi hs (by omega)

theorem siftdown_spec (o : Ord lt le) {s pos : Nat} {x : α} {l : List α} (hx : l[pos]? = some x) (h : DownInv le s x l pos) :
    Below le s (siftdown lt l s pos) ∧ (siftdown lt l s pos).Perm l := by
  unfold siftdown
  rw [hx]
  simp only
  obtain ⟨h1, h2⟩ := siftdownLoop_spec o pos (Nat.le_refl _) h
  refine ⟨h1, ?_⟩
  have : l.set pos x = l := by
    obtain ⟨h, e⟩ := List.getElem?_eq_some_iff.mp hx
    rw [← e, List.set_getElem_self]
  rwa [this] at h2

/-! ## `_siftup` -/

/-- The heap is right except between `pos` and its children. -/
structure UpInv (le : α → α → Prop) (s : Nat) (l : List α) (pos : Nat) : Prop where
  lt : pos < l.length
  desc : Desc s pos
  other : ∀ i, 1 ≤ i → s ≤ (i - 1) / 2 → (i - 1) / 2 ≠ pos → ∀ y z, l[(i - 1) / 2]? = some y → l[i]? = some z → le y z
  skip : s < pos → ∀ i, 1 ≤ i → (i - 1) / 2 = pos → ∀ y z, l[(pos - 1) / 2]? = some y → l[i]? = some z → le y z

theorem UpInv.move (o : Ord lt le) {s pos c : Nat} {l : List α} (h : UpInv le s l pos) {v : α} (hc : c = 2 * pos + 1 ∨ c = 2 * pos + 2)
    (hv : l[c]? = some v) (hmin : ∀ i, (i = 2 * pos + 1 ∨ i = 2 * pos + 2) → ∀ z, l[i]? = some z → le v z) : UpInv le s (l.set pos v) c := by
  have hcl : c < l.length := (List.getElem?_eq_some_iff.mp hv).1
  have hds := h.desc.ge
  refine ⟨by rw [List.length_set]; exact hcl, ?_, ?_, ?_⟩
  · rcases hc with rfl | rfl
    · exact .left h.desc
    · exact .right h.desc
  · intro i hi hs hip y z hy hz
    rw [List.getElem?_set] at hy hz
    by_cases hi1 : i = pos
    · subst hi1
      rw [if_neg (by omega)] at hy
      rw [if_pos rfl, if_pos h.lt] at hz
      cases hz
      exact h.skip (by omega) c (by omega) (by omega) _ _ hy hv
    · rw [if_neg (Ne.symm hi1)] at hz
      by_cases hi2 : (i - 1) / 2 = pos
      · rw [if_pos hi2.symm, if_pos h.lt] at hy
        cases hy
        exact hmin i (by omega) z hz
      · rw [if_neg (Ne.symm hi2)] at hy
        exact h.other i hi hs hi2 y z hy hz
  · intro _ i hi hip y z hy hz
    rw [show (c - 1) / 2 = pos by omega, List.getElem?_set_self h.lt] at hy
    cases hy
    rw [List.getElem?_set_ne (by omega)] at hz
    exact h.other i hi (by omega) (by omega) _ _ (by rw [hip]; exact hv) hz

theorem siftupLoop_spec (o : Ord lt le) {s : Nat} (x : α) : ∀ (fuel : Nat) {l : List α} {pos : Nat}, l.length ≤ fuel + pos → UpInv le s l pos →
    UpInv le s (siftupLoop lt fuel l pos).1 (siftupLoop lt fuel l pos).2 ∧
    (siftupLoop lt fuel l pos).1.length ≤ 2 * (siftupLoop lt fuel l pos).2 + 1 ∧
    ((siftupLoop lt fuel l pos).1.set (siftupLoop lt fuel l pos).2 x).Perm (l.set pos x) := by
  intro fuel
  induction fuel with
  | zero =>
    intro l pos hf h
    have := h.lt
    omega
  | succ fuel ih =>
    intro l pos hf h
    unfold siftupLoop
    cases hl : l[2 * pos + 1]? with
    | none => exact ⟨h, by rw [List.getElem?_eq_none_iff] at hl; exact hl, .refl _⟩
    | some left =>
      simp only
      cases hr : l[2 * pos + 2]? with
      | none =>
        simp only
        have hm := h.move o (c := 2 * pos + 1) (.inl rfl) hl (by
          rintro i (rfl | rfl) z hz
          · rw [hl] at hz; cases hz; exact o.refl _
          · rw [hr] at hz; cases hz)
        obtain ⟨k1, k2, k3⟩ := ih (by rw [List.length_set]; omega) hm
        exact ⟨k1, k2, k3.trans (set_set_perm h.lt hl (by omega) x)⟩
      | some right =>
        simp only
        by_cases hlt : lt left right = true
        · rw [if_pos hlt]
          have hm := h.move o (c := 2 * pos + 1) (.inl rfl) hl (by
            rintro i (rfl | rfl) z hz
            · rw [hl] at hz; cases hz; exact o.refl _
            · rw [hr] at hz; cases hz; exact o.pos _ _ hlt)
          obtain ⟨k1, k2, k3⟩ := ih (by rw [List.length_set]; omega) hm
          exact ⟨k1, k2, k3.trans (set_set_perm h.lt hl (by omega) x)⟩
        · rw [if_neg hlt]
          have hm := h.move o (c := 2 * pos + 2) (.inr rfl) hr (by
            rintro i (rfl | rfl) z hz
            · rw [hl] at hz; cases hz; exact o.neg _ _ (by simpa using hlt)
            · rw [hr] at hz; cases hz; exact o.refl _)
          obtain ⟨k1, k2, k3⟩ := ih (by rw [List.length_set]; omega) hm
          exact ⟨k1, k2, k3.trans (set_set_perm h.lt hr (by omega) x)⟩

theorem siftup_spec (o : Ord lt le) {s : Nat} {l : List α} (h : Below le (s + 1) l) (hs : s < l.length) :
    Below le s (siftup lt l s) ∧ (siftup lt l s).Perm l := by
  obtain ⟨x, hx⟩ : ∃ x, l[s]? = some x := ⟨l[s], by simp [hs]⟩
  unfold siftup
  rw [hx]
  simp only
  have h0 : UpInv le s l s := ⟨hs, .refl, fun i hi h1 h2 => h i hi (by omega), fun h => absurd h (Nat.lt_irrefl _)⟩
  obtain ⟨k1, k2, k3⟩ := siftupLoop_spec o x l.length (by omega) h0
  generalize siftupLoop lt l.length l s = r at k1 k2 k3
  obtain ⟨l', pos⟩ := r
  simp only at k1 k2 k3 ⊢
  have hself : l.set s x = l := by
    obtain ⟨h, e⟩ := List.getElem?_eq_some_iff.mp hx
    rw [← e, List.set_getElem_self]
  rw [hself] at k3
  have hx' : (l'.set pos x)[pos]? = some x := List.getElem?_set_self k1.lt
  obtain ⟨d1, d2⟩ := siftdown_spec o (s := s) hx' ⟨by rw [List.length_set]; exact k1.lt, k1.desc, by
    intro i hi hsi hip y z hy hz
    rw [List.set_set] at hy hz
    have hil : i < l'.length := by
      have := (List.getElem?_eq_some_iff.mp hz).1
      rwa [List.length_set] at this
    rw [List.getElem?_set_ne (by omega)] at hy
    rw [List.getElem?_set_ne (by omega)] at hz
    exact k1.other i hi hsi (by omega) y z hy hz, by
    intro _ i hi hip y z _ hz
    have hil : i < l'.length := by
      have := (List.getElem?_eq_some_iff.mp hz).1
      rwa [List.length_set] at this
    omega⟩
  exact ⟨d1, d2.trans k3⟩

theorem siftup_length (o : Ord lt le) {s : Nat} {l : List α} (h : Below le (s + 1) l) (hs : s < l.length) : (siftup lt l s).length = l.length :=
  (siftup_spec o h hs).2.length_eq

/-! ## The functions of the module -/

theorem heapify_spec (o : Ord lt le) (l : List α) : IsHeap le (heapify lt l) ∧ (heapify lt l).Perm l := by
  unfold heapify
  have key : ∀ (n : Nat) (l : List α), n ≤ l.length → Below le n l →
      Below le 0 ((List.range n).reverse.foldl (siftup lt) l) ∧ ((List.range n).reverse.foldl (siftup lt) l).Perm l := by
    intro n
    induction n with
    | zero => intro l _ h; exact ⟨h, .refl _⟩
    | succ n ih =>
      intro l hn h
      rw [List.range_succ, List.reverse_append, List.reverse_singleton, List.singleton_append, List.foldl_cons]
      obtain ⟨h1, h2⟩ := siftup_spec o h (by omega)
      obtain ⟨h3, h4⟩ := ih (siftup lt l n) (by rw [h2.length_eq]; omega) h1
      exact ⟨h3, h4.trans h2⟩
  refine key (l.length / 2) l (by omega) ?_
  intro i hi hs x y _ hy
  have := (List.getElem?_eq_some_iff.mp hy).1
  omega

theorem heappush_spec (o : Ord lt le) {l : List α} (h : IsHeap le l) (x : α) :
    IsHeap le (heappush lt l x) ∧ (heappush lt l x).Perm (x :: l) := by
  unfold heappush
  have hx : (l ++ [x])[l.length]? = some x := by simp
  obtain ⟨h1, h2⟩ := siftdown_spec o (s := 0) hx ⟨by simp, desc_zero _, by
    intro i hi _ hip y z hy hz
    have hset : (l ++ [x]).set l.length x = l ++ [x] := by simp
    rw [hset] at hy hz
    have hil : i < l.length := by
      have := (List.getElem?_eq_some_iff.mp hz).1
      simp at this; omega
    rw [List.getElem?_append_left (by omega)] at hy hz
    exact h i hi (Nat.zero_le _) y z hy hz, by
    intro hpos i hi hip y z _ hz
    have := (List.getElem?_eq_some_iff.mp hz).1
    simp at this
    omega⟩
  refine ⟨h1, h2.trans ?_⟩
  exact List.perm_append_singleton x l

theorem IsHeap.root (o : Ord lt le) {x : α} {l : List α} (h : IsHeap le (x :: l)) : ∀ y ∈ x :: l, le x y := by
  have key : ∀ (i : Nat) y, (x :: l)[i]? = some y → le x y := by
    intro i
    induction i using Nat.strongRecOn with
    | _ i ih =>
      intro y hy
      rcases Nat.eq_zero_or_pos i with rfl | hi
      · simp at hy; subst hy; exact o.refl _
      · have hil := (List.getElem?_eq_some_iff.mp hy).1
        obtain ⟨p, hp⟩ : ∃ p, (x :: l)[(i - 1) / 2]? = some p := ⟨(x :: l)[(i - 1) / 2]'(by omega), by rw [List.getElem?_eq_getElem]⟩
        exact o.trans _ _ _ (ih _ (by omega) p hp) (h i hi (Nat.zero_le _) p y hp hy)
  intro y hy
  obtain ⟨i, hi, e⟩ := List.getElem_of_mem hy
  exact key i y (by rw [List.getElem?_eq_getElem hi, e])

theorem heappop_nil : heappop lt ([] : List α) = .error .indexError := rfl

theorem heappop_spec (o : Ord lt le) {l : List α} (h : IsHeap le l) (hl : l ≠ []) :
    ∃ x l', heappop lt l = .ok (x, l') ∧ IsHeap le l' ∧ (x :: l').Perm l ∧ ∀ y ∈ l, le x y := by
  unfold heappop
  obtain ⟨init, z, rfl⟩ := (List.eq_nil_or_concat l).resolve_left hl
  rw [List.concat_eq_append] at h hl ⊢
  rw [List.getLast?_concat, List.dropLast_concat]
  cases init with
  | nil =>
    refine ⟨z, _, rfl, ?_, .refl _, ?_⟩
    · intro i hi _ x y _ hy; simp at hy
    · intro y hy
      simp at hy
      rw [hy]; exact o.refl _
  | cons x rest =>
    simp only
    have hb : Below le (0 + 1) (z :: rest) := by
      intro i hi hs y w hy hw
      have hil := (List.getElem?_eq_some_iff.mp hw).1
      simp at hil
      refine h i hi (Nat.zero_le _) y w ?_ ?_
      · rw [List.getElem?_append_left (by simp; omega)]
        rw [show (i - 1) / 2 = ((i - 1) / 2 - 1) + 1 by omega] at hy ⊢
        simpa using hy
      · rw [List.getElem?_append_left (by simp; omega)]
        rw [show i = (i - 1) + 1 by omega] at hw ⊢
        simpa using hw
    obtain ⟨h1, h2⟩ := siftup_spec o hb (by simp)
    refine ⟨x, _, rfl, h1, ?_, ?_⟩
    · refine (h2.cons x).trans ?_
      rw [List.cons_append]
      exact (List.perm_append_singleton z rest).symm.cons x
    · rw [List.cons_append] at h ⊢
      exact h.root o

end PyBGL.Heapq
