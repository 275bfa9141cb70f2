import Mathlib.Data.List.Nodup
import Mathlib.Data.List.Perm.Subperm
import Verif.Model.Hopcroft
import Verif.Proofs.IncidenceAutomaton

/-!
# The partition refinement of `hopcroft_agglomerate_states`
-/

namespace PyBGL.Hopcroft
open Automaton
variable {A : Type} [DecidableEq A]

abbrev Block := List Nat

/-! ## Partitions -/

/-- `P` is a partition of `V`, possibly with one empty block; blocks are listed in the order of `V`. -/
structure Part (V : List Nat) (P : List Block) : Prop where
  nodup : P.Nodup
  sub : ∀ B ∈ P, B.Sublist V
  cover : ∀ q ∈ V, ∃ B ∈ P, q ∈ B
  disj : ∀ B ∈ P, ∀ B' ∈ P, ∀ q, q ∈ B → q ∈ B' → B = B'

@[simp] theorem mem_and {x y : Block} {q : Nat} : q ∈ blockAnd x y ↔ q ∈ y ∧ q ∈ x := by simp [blockAnd]
@[simp] theorem mem_diff {x y : Block} {q : Nat} : q ∈ blockDiff x y ↔ q ∈ y ∧ q ∉ x := by simp [blockDiff]

/-- `y` is cut by `x`. -/
def Cuts (x y : Block) : Prop := 0 < (blockAnd x y).length ∧ 0 < (blockDiff x y).length

theorem Cuts.exists_and {x y : Block} (h : Cuts x y) : ∃ q, q ∈ blockAnd x y := List.exists_mem_of_length_pos h.1
theorem Cuts.exists_diff {x y : Block} (h : Cuts x y) : ∃ q, q ∈ blockDiff x y := List.exists_mem_of_length_pos h.2

theorem Cuts.and_ne {x y : Block} (h : Cuts x y) : blockAnd x y ≠ blockDiff x y := by
  obtain ⟨q, hq⟩ := h.exists_and
  intro e
  have := hq
  rw [e] at this
  exact (mem_diff.mp this).2 (mem_and.mp hq).2

theorem Cuts.ne_nil {x y : Block} (h : Cuts x y) : y ≠ [] := by
  rintro rfl
  exact absurd h.1 (by simp [blockAnd])

theorem not_cuts {x y : Block} (h : ¬Cuts x y) : (∀ q ∈ y, q ∉ x) ∨ (∀ q ∈ y, q ∈ x) := by
  by_cases h1 : 0 < (blockAnd x y).length
  · right
    intro q hq
    by_contra hx
    exact h ⟨h1, List.length_pos_of_mem (mem_diff.mpr ⟨hq, hx⟩)⟩
  · left
    intro q hq hx
    exact h1 (List.length_pos_of_mem (mem_and.mpr ⟨hq, hx⟩))

theorem length_discard {P : List Block} (hP : P.Nodup) {y : Block} (hy : y ∈ P) : (setDiscard P y).length + 1 = P.length := by
  unfold setDiscard
  have : P.filter (fun z => decide (z ≠ y)) = P.erase y := by
    rw [hP.erase_eq_filter]
    congr 1
    funext z
    by_cases h : z = y <;> simp [h]
  rw [this, List.length_erase_of_mem hy]
  have := List.length_pos_of_mem hy
  omega

theorem setUnion_pair {P : List Block} {i d : Block} (hi : i ∉ P) (hd : d ∉ P) (hne : i ≠ d) : setUnion P [i, d] = P ++ [i, d] := by
  have hd' : d ∉ P ++ [i] := by simp [hd, hne.symm]
  simp [setUnion, setAdd, hi, hd, hne.symm]

variable {V : List Nat}

/-- The pieces of a block are not blocks. -/
theorem Part.fresh {P : List Block} (h : Part V P) {x y : Block} (hy : y ∈ P) (hc : Cuts x y) :
    blockAnd x y ∉ P ∧ blockDiff x y ∉ P := by
  obtain ⟨q, hq⟩ := hc.exists_and
  obtain ⟨r, hr⟩ := hc.exists_diff
  constructor
  · intro hm
    have e := h.disj _ hm _ hy q hq (mem_and.mp hq).1
    have : r ∈ blockAnd x y := by rw [e]; exact (mem_diff.mp hr).1
    exact (mem_diff.mp hr).2 (mem_and.mp this).2
  · intro hm
    have e := h.disj _ hm _ hy r hr (mem_diff.mp hr).1
    have : q ∈ blockDiff x y := by rw [e]; exact (mem_and.mp hq).1
    exact (mem_diff.mp this).2 (mem_and.mp hq).2

/-- `P` after the split of `y`. -/
def split (x : Block) (P : List Block) (y : Block) : List Block := setUnion (setDiscard P y) [blockAnd x y, blockDiff x y]

theorem mem_split {x : Block} {P : List Block} {y B : Block} :
    B ∈ split x P y ↔ (B ∈ P ∧ B ≠ y) ∨ B = blockAnd x y ∨ B = blockDiff x y := by
  unfold split; simp

theorem length_split {P : List Block} (hP : P.Nodup) {x y : Block} (hy : y ∈ P) (hc : Cuts x y) (h1 : blockAnd x y ∉ P) (h2 : blockDiff x y ∉ P) :
    (split x P y).length = P.length + 1 := by
  unfold split
  rw [setUnion_pair (by simp [h1]) (by simp [h2]) hc.and_ne]
  have := length_discard hP hy
  simp
  omega

theorem Part.split {P : List Block} (h : Part V P) {x y : Block} (hy : y ∈ P) : Part V (split x P y) := by
  refine ⟨nodup_setUnion (nodup_setDiscard h.nodup y) _, ?_, ?_, ?_⟩
  · intro B hB
    rcases mem_split.mp hB with ⟨hB, _⟩ | rfl | rfl
    · exact h.sub B hB
    · exact List.filter_sublist.trans (h.sub y hy)
    · exact List.filter_sublist.trans (h.sub y hy)
  · intro q hq
    obtain ⟨B, hB, hqB⟩ := h.cover q hq
    by_cases e : B = y
    · subst e
      by_cases hx : q ∈ x
      · exact ⟨_, mem_split.mpr (.inr (.inl rfl)), mem_and.mpr ⟨hqB, hx⟩⟩
      · exact ⟨_, mem_split.mpr (.inr (.inr rfl)), mem_diff.mpr ⟨hqB, hx⟩⟩
    · exact ⟨B, mem_split.mpr (.inl ⟨hB, e⟩), hqB⟩
  · intro B hB B' hB' q hq hq'
    have key : ∀ C, C ∈ Hopcroft.split x P y → q ∈ C → (C ∈ P ∧ C ≠ y ∧ q ∉ y) ∨ (C = blockAnd x y ∧ q ∈ y ∧ q ∈ x) ∨ (C = blockDiff x y ∧ q ∈ y ∧ q ∉ x) := by
      intro C hC hqC
      rcases mem_split.mp hC with ⟨h1, h2⟩ | rfl | rfl
      · exact .inl ⟨h1, h2, fun hy' => h2 (h.disj _ h1 _ hy q hqC hy')⟩
      · exact .inr (.inl ⟨rfl, mem_and.mp hqC⟩)
      · exact .inr (.inr ⟨rfl, mem_diff.mp hqC⟩)
    rcases key B hB hq with ⟨a1, a2, a3⟩ | ⟨a1, a2, a3⟩ | ⟨a1, a2, a3⟩ <;> rcases key B' hB' hq' with ⟨b1, b2, b3⟩ | ⟨b1, b2, b3⟩ | ⟨b1, b2, b3⟩
    · exact h.disj _ a1 _ b1 q hq hq'
    · exact absurd b2 a3
    · exact absurd b2 a3
    · exact absurd a2 b3
    · rw [a1, b1]
    · exact absurd a3 b3
    · exact absurd a2 b3
    · exact absurd b3 a3
    · rw [a1, b1]

theorem Part.length_le {P : List Block} (h : Part V P) (hV : V.Nodup) : P.length ≤ V.length + 1 := by
  have h1 : (setDiscard P []).length ≤ V.length := by
    have hn : ((setDiscard P []).map fun B => B.headD 0).Nodup := by
      refine List.Nodup.map_on ?_ (nodup_setDiscard h.nodup _)
      intro B hB B' hB' e
      rw [mem_setDiscard] at hB hB'
      cases B with
      | nil => exact absurd rfl hB.2
      | cons b B =>
        cases B' with
        | nil => exact absurd rfl hB'.2
        | cons b' B' =>
          simp only [List.headD_cons] at e
          subst e
          exact h.disj _ hB.1 _ hB'.1 b (by simp) (by simp)
    have hs : ∀ q ∈ ((setDiscard P []).map fun B => B.headD 0), q ∈ V := by
      intro q hq
      obtain ⟨B, hB, rfl⟩ := List.mem_map.mp hq
      rw [mem_setDiscard] at hB
      cases B with
      | nil => exact absurd rfl hB.2
      | cons b B => exact (h.sub _ hB.1).subset (by simp)
    have := (List.subperm_of_subset hn hs).length_le
    simpa using this
  by_cases hm : [] ∈ P
  · have := length_discard h.nodup hm; omega
  · have : setDiscard P [] = P := by
      unfold setDiscard
      rw [List.filter_eq_self]
      intro B hB
      have : B ≠ [] := fun e => hm (e ▸ hB)
      simpa using this
    rw [this] at h1; omega

/-! ## Separation -/

/-- `o` is a state of `C`. -/
def In (o : Option Nat) (C : Block) : Prop := ∃ q, o = some q ∧ q ∈ C

/-- Both undefined, or in the same block. -/
def Same (P : List Block) (o o' : Option Nat) : Prop := (o = none ∧ o' = none) ∨ ∃ B ∈ P, In o B ∧ In o' B

/-- Some set of `W` contains exactly one of `o` and `o'`. -/
def Sep (W : List Block) (o o' : Option Nat) : Prop := ∃ C ∈ W, ¬(In o C ↔ In o' C)

/-- Whatever gets separated in `P'` is separated by `W'`, and `W'` separates what `W` separated. -/
structure Trans (P W P' W' : List Block) : Prop where
  new : ∀ o o', ¬Same P' o o' → Same P o o' → Sep W' o o'
  old : ∀ o o', Sep W o o' → Sep W' o o'

theorem Trans.refl (P W : List Block) : Trans P W P W := ⟨fun _ _ h h' => absurd h' h, fun _ _ h => h⟩

theorem Trans.trans {P W P' W' P'' W'' : List Block} (h : Trans P W P' W') (h' : Trans P' W' P'' W'') : Trans P W P'' W'' := by
  refine ⟨fun o o' h1 h2 => ?_, fun o o' h1 => h'.old _ _ (h.old _ _ h1)⟩
  by_cases hs : Same P' o o'
  · exact h'.new _ _ h1 hs
  · exact h'.old _ _ (h.new _ _ hs h2)

theorem in_and {o : Option Nat} {x y : Block} : In o (blockAnd x y) ↔ In o y ∧ In o x := by
  unfold In
  constructor
  · rintro ⟨q, e, h⟩; exact ⟨⟨q, e, (mem_and.mp h).1⟩, q, e, (mem_and.mp h).2⟩
  · rintro ⟨⟨q, e, h⟩, q', e', h'⟩
    rw [e] at e'; cases e'
    exact ⟨q, e, mem_and.mpr ⟨h, h'⟩⟩

theorem in_diff {o : Option Nat} {x y : Block} : In o (blockDiff x y) ↔ In o y ∧ ¬In o x := by
  unfold In
  constructor
  · rintro ⟨q, e, h⟩
    refine ⟨⟨q, e, (mem_diff.mp h).1⟩, ?_⟩
    rintro ⟨q', e', h'⟩
    rw [e] at e'; cases e'
    exact (mem_diff.mp h).2 h'
  · rintro ⟨⟨q, e, h⟩, h'⟩
    exact ⟨q, e, mem_diff.mpr ⟨h, fun hx => h' ⟨q, e, hx⟩⟩⟩

/-- A split of `y` is recorded as soon as one of the pieces is in `W'`, or both when `y` was in `W`. -/
theorem trans_split {P W W' : List Block} {x y : Block}
    (hk : ∀ C ∈ W, C ≠ y → C ∈ W') (h1 : blockAnd x y ∈ W' ∨ blockDiff x y ∈ W')
    (h2 : y ∈ W → blockAnd x y ∈ W' ∧ blockDiff x y ∈ W') : Trans P W (split x P y) W' := by
  constructor
  · intro o o' hn hs
    rcases hs with ⟨e, e'⟩ | ⟨B, hB, i, i'⟩
    · exact absurd (.inl ⟨e, e'⟩) hn
    by_cases e : B = y
    · subst e
      by_cases hx : In o x <;> by_cases hx' : In o' x
      · exact absurd (.inr ⟨_, mem_split.mpr (.inr (.inl rfl)), in_and.mpr ⟨i, hx⟩, in_and.mpr ⟨i', hx'⟩⟩) hn
      · rcases h1 with h1 | h1
        · exact ⟨_, h1, fun h => hx' (in_and.mp (h.mp (in_and.mpr ⟨i, hx⟩))).2⟩
        · exact ⟨_, h1, fun h => (in_diff.mp (h.mpr (in_diff.mpr ⟨i', hx'⟩))).2 hx⟩
      · rcases h1 with h1 | h1
        · exact ⟨_, h1, fun h => hx (in_and.mp (h.mpr (in_and.mpr ⟨i', hx'⟩))).2⟩
        · exact ⟨_, h1, fun h => (in_diff.mp (h.mp (in_diff.mpr ⟨i, hx⟩))).2 hx'⟩
      · exact absurd (.inr ⟨_, mem_split.mpr (.inr (.inr rfl)), in_diff.mpr ⟨i, hx⟩, in_diff.mpr ⟨i', hx'⟩⟩) hn
    · exact absurd (.inr ⟨B, mem_split.mpr (.inl ⟨hB, e⟩), i, i'⟩) hn
  · rintro o o' ⟨C, hC, hs⟩
    by_cases e : C = y
    · subst e
      obtain ⟨m1, m2⟩ := h2 hC
      by_cases hi : In o C
      · have hi' : ¬In o' C := fun h => hs ⟨fun _ => h, fun _ => hi⟩
        by_cases hx : In o x
        · exact ⟨_, m1, fun h => hi' (in_and.mp (h.mp (in_and.mpr ⟨hi, hx⟩))).1⟩
        · exact ⟨_, m2, fun h => hi' (in_diff.mp (h.mp (in_diff.mpr ⟨hi, hx⟩))).1⟩
      · have hi' : In o' C := by
          by_contra h
          exact hs ⟨fun h' => absurd h' hi, fun h' => absurd h' h⟩
        by_cases hx : In o' x
        · exact ⟨_, m1, fun h => hi (in_and.mp (h.mpr (in_and.mpr ⟨hi', hx⟩))).1⟩
        · exact ⟨_, m2, fun h => hi (in_diff.mp (h.mpr (in_diff.mpr ⟨hi', hx⟩))).1⟩
    · exact ⟨C, hk C hC e, hs⟩

/-! ## The loop over the blocks -/

/-- What a series of splits by `x` preserves. -/
structure Refines (x : Block) (P W P' W' : List Block) : Prop where
  part : Part V P'
  sub : ∀ B ∈ W', B ∈ P'
  nodup : W'.Nodup
  len : P'.length + W.length = P.length + W'.length
  trans : Trans P W P' W'
  fine : ∀ B' ∈ P', ∃ B ∈ P, ∀ q ∈ B', q ∈ B
  closed : ∀ R : Nat → Nat → Prop, (∀ q r, R q r → (q ∈ x ↔ r ∈ x)) → (∀ B ∈ P, ∀ q r, R q r → (q ∈ B ↔ r ∈ B)) →
    ∀ B ∈ P', ∀ q r, R q r → (q ∈ B ↔ r ∈ B)
  nil : [] ∈ P' → [] ∈ P
  nilW : [] ∈ W → [] ∈ W'

theorem split_spec {P W : List Block} (hP : Part V P) (hW : ∀ B ∈ W, B ∈ P) (hWn : W.Nodup) {x y : Block} (hy : y ∈ P) :
    ∃ P' W', hopcroftSplit x (P, W) y = .ok (P', W') ∧ Refines (V := V) x P W P' W' ∧ (∀ B ∈ P, B ≠ y → B ∈ P') ∧
      (∀ B ∈ P', (B ∈ P ∧ B ≠ y) ∨ (∀ q ∈ B, q ∈ x) ∨ (∀ q ∈ B, q ∉ x)) := by
  unfold hopcroftSplit
  by_cases hc : Cuts x y
  · rw [if_pos (show 0 < (blockAnd x y).length ∧ 0 < (blockDiff x y).length from hc)]
    simp only [setRemoveE, if_pos hy]
    obtain ⟨f1, f2⟩ := hP.fresh hy hc
    have hlen := length_split hP.nodup hy hc f1 f2
    have hkeep : ∀ B ∈ P, B ≠ y → B ∈ split x P y := fun B hB hne => mem_split.mpr (.inl ⟨hB, hne⟩)
    have hhom : ∀ B ∈ split x P y, (B ∈ P ∧ B ≠ y) ∨ (∀ q ∈ B, q ∈ x) ∨ (∀ q ∈ B, q ∉ x) := by
      intro B hB
      rcases mem_split.mp hB with h | rfl | rfl
      · exact .inl h
      · exact .inr (.inl fun q hq => (mem_and.mp hq).2)
      · exact .inr (.inr fun q hq => (mem_diff.mp hq).2)
    have hfine : ∀ B' ∈ split x P y, ∃ B ∈ P, ∀ q ∈ B', q ∈ B := by
      intro B hB
      rcases mem_split.mp hB with h | rfl | rfl
      · exact ⟨B, h.1, fun _ h => h⟩
      · exact ⟨y, hy, fun q hq => (mem_and.mp hq).1⟩
      · exact ⟨y, hy, fun q hq => (mem_diff.mp hq).1⟩
    have hclosed : ∀ R : Nat → Nat → Prop, (∀ q r, R q r → (q ∈ x ↔ r ∈ x)) → (∀ B ∈ P, ∀ q r, R q r → (q ∈ B ↔ r ∈ B)) →
        ∀ B ∈ split x P y, ∀ q r, R q r → (q ∈ B ↔ r ∈ B) := by
      intro R hx hR B hB q r hqr
      rcases mem_split.mp hB with h | rfl | rfl
      · exact hR B h.1 q r hqr
      · rw [mem_and, mem_and, hx q r hqr, hR y hy q r hqr]
      · rw [mem_diff, mem_diff, hx q r hqr, hR y hy q r hqr]
    have hnil : [] ∈ split x P y → [] ∈ P := by
      intro h
      rcases mem_split.mp h with h | h | h
      · exact h.1
      · obtain ⟨q, hq⟩ := hc.exists_and; rw [← h] at hq; simp at hq
      · obtain ⟨q, hq⟩ := hc.exists_diff; rw [← h] at hq; simp at hq
    have w1 : blockAnd x y ∉ W := fun h => f1 (hW _ h)
    have w2 : blockDiff x y ∉ W := fun h => f2 (hW _ h)
    by_cases hyW : y ∈ W
    · rw [if_pos hyW]
      refine ⟨split x P y, split x W y, rfl, ⟨hP.split hy, ?_, nodup_setUnion (nodup_setDiscard hWn _) _, ?_, ?_, hfine, hclosed, hnil, ?_⟩, hkeep, hhom⟩
      · intro B hB
        rcases mem_split.mp hB with h | h
        · exact mem_split.mpr (.inl ⟨hW B h.1, h.2⟩)
        · exact mem_split.mpr (.inr h)
      · have := length_split hWn hyW hc w1 w2; omega
      · exact trans_split (fun C hC hne => mem_split.mpr (.inl ⟨hC, hne⟩)) (.inl (mem_split.mpr (.inr (.inl rfl))))
          (fun _ => ⟨mem_split.mpr (.inr (.inl rfl)), mem_split.mpr (.inr (.inr rfl))⟩)
      · intro h; exact mem_split.mpr (.inl ⟨h, hc.ne_nil.symm⟩)
    · rw [if_neg hyW]
      have hadd : ∀ z, z = blockAnd x y ∨ z = blockDiff x y → z ∉ W →
          Refines (V := V) x P W (split x P y) (setAdd W z) := by
        intro z hz hzW
        have ez : setAdd W z = W ++ [z] := by simp [setAdd, hzW]
        refine ⟨hP.split hy, ?_, ?_, ?_, ?_, hfine, hclosed, hnil, ?_⟩
        · intro B hB
          rw [mem_setAdd] at hB
          rcases hB with hB | rfl
          · exact mem_split.mpr (.inl ⟨hW B hB, fun e => hyW (e ▸ hB)⟩)
          · exact mem_split.mpr (.inr hz)
        · rw [ez]; rw [List.nodup_append]; refine ⟨hWn, by simp, ?_⟩
          intro a ha b hb e
          simp at hb; subst hb; subst e; exact hzW ha
        · rw [ez]; simp; omega
        · refine trans_split (fun C hC _ => by simp [hC]) ?_ (fun h => absurd h hyW)
          rcases hz with rfl | rfl <;> simp
        · intro h; simp [h]
      by_cases hle : (blockAnd x y).length ≤ (blockDiff x y).length
      · rw [if_pos hle]; exact ⟨_, _, rfl, hadd _ (.inl rfl) w1, hkeep, hhom⟩
      · rw [if_neg hle]; exact ⟨_, _, rfl, hadd _ (.inr rfl) w2, hkeep, hhom⟩
  · rw [if_neg (show ¬(0 < (blockAnd x y).length ∧ 0 < (blockDiff x y).length) from hc)]
    refine ⟨P, W, rfl, ⟨hP, hW, hWn, rfl, .refl _ _, fun B hB => ⟨B, hB, fun _ h => h⟩, fun _ _ h => h, id, id⟩, fun B hB _ => hB, ?_⟩
    intro B hB
    by_cases e : B = y
    · subst e; exact .inr (not_cuts hc).symm
    · exact .inl ⟨hB, e⟩

theorem Refines.trans' {x : Block} {P W P' W' P'' W'' : List Block} (h : Refines (V := V) x P W P' W') (h' : Refines (V := V) x P' W' P'' W'') :
    Refines (V := V) x P W P'' W'' := by
  refine ⟨h'.part, h'.sub, h'.nodup, by have := h.len; have := h'.len; omega, h.trans.trans h'.trans, ?_, ?_, fun e => h.nil (h'.nil e),
    fun e => h'.nilW (h.nilW e)⟩
  · intro B'' hB''
    obtain ⟨B', hB', s1⟩ := h'.fine _ hB''
    obtain ⟨B, hB, s2⟩ := h.fine _ hB'
    exact ⟨B, hB, fun q hq => s2 q (s1 q hq)⟩
  · intro R hx hR
    exact h'.closed R hx (h.closed R hx hR)

/-- The loop over the blocks splits them all by `x`. -/
theorem splits_spec (x : Block) (ys : List Block) : ∀ {P W : List Block}, Part V P → (∀ B ∈ W, B ∈ P) → W.Nodup → ys.Nodup → (∀ y ∈ ys, y ∈ P) →
    ∃ P' W', ys.foldlM (hopcroftSplit x) (P, W) = .ok (P', W') ∧ Refines (V := V) x P W P' W' ∧
      (∀ B ∈ P', (B ∈ P ∧ B ∉ ys) ∨ (∀ q ∈ B, q ∈ x) ∨ (∀ q ∈ B, q ∉ x)) := by
  induction ys with
  | nil =>
    intro P W hP hW hWn _ _
    exact ⟨P, W, rfl, ⟨hP, hW, hWn, rfl, .refl _ _, fun B hB => ⟨B, hB, fun _ h => h⟩, fun _ _ h => h, id, id⟩, fun B hB => .inl ⟨hB, by simp⟩⟩
  | cons y ys ih =>
    intro P W hP hW hWn hn hys
    rw [List.nodup_cons] at hn
    obtain ⟨P1, W1, e1, r1, k1, m1⟩ := split_spec hP hW hWn (x := x) (hys y (by simp))
    have hys1 : ∀ z ∈ ys, z ∈ P1 := by
      intro z hz
      exact k1 z (hys z (by simp [hz])) (fun e => hn.1 (e ▸ hz))
    obtain ⟨P2, W2, e2, r2, m2⟩ := ih r1.part r1.sub r1.nodup hn.2 hys1
    refine ⟨P2, W2, ?_, r1.trans' r2, ?_⟩
    · rw [List.foldlM_cons, e1]; exact e2
    · intro B hB
      rcases m2 B hB with ⟨h, hnot⟩ | h
      · rcases m1 B h with ⟨h', hne⟩ | h'
        · exact .inl ⟨h', by simp [hne, hnot]⟩
        · exact .inr h'
      · exact .inr h

/-! ## The loop over the symbols -/

variable {g : IAutomaton A}

theorem target_mem (hg : g.WF) {q r : Nat} {a : A} (h : g.a.delta q a = some r) : r ∈ g.a.vertices := by
  have hm := (hg.mirror q r a).mpr h
  obtain ⟨vs, s, h1, _⟩ := get?_some_of_lk hm
  rw [← hg.keys, Dict.mem_keys_iff]
  exact ⟨vs, h1⟩

theorem mem_alphabet' {a : A} : a ∈ g.a.alphabet ↔ ∃ q r, g.a.delta q a = some r := by
  unfold alphabet
  rw [mem_mkSet, List.mem_flatMap]
  constructor
  · rintro ⟨q, _, h⟩
    rw [Dict.mem_keys_iff] at h
    exact ⟨q, h⟩
  · rintro ⟨q, r, h⟩
    refine ⟨q, delta_mem_vertices h, ?_⟩
    rw [Dict.mem_keys_iff]
    exact ⟨r, h⟩

theorem pre_spec (hg : g.WF) (a : A) {C : Block} (hC : C ≠ []) :
    ∃ x, hopcroftPre g a C = .ok x ∧ ∀ q, q ∈ x ↔ In (g.a.delta q a) C := by
  cases C with
  | nil => exact absurd rfl hC
  | cons c C =>
    refine ⟨_, rfl, fun q => ?_⟩
    rw [mem_mkSet, List.mem_flatMap]
    constructor
    · rintro ⟨r, hr, hq⟩
      obtain ⟨e, he, rfl⟩ := List.mem_map.mp hq
      rw [List.mem_filter, IAutomaton.mem_inEdges hg] at he
      obtain ⟨⟨rfl, h⟩, h2⟩ := he
      have h2 : e.distinguisher = a := by simpa using h2
      subst h2
      exact ⟨_, h, hr⟩
    · rintro ⟨r, h, hr⟩
      refine ⟨r, hr, List.mem_map.mpr ⟨⟨q, r, a⟩, ?_, rfl⟩⟩
      rw [List.mem_filter, IAutomaton.mem_inEdges hg]
      exact ⟨⟨rfl, h⟩, by simp⟩

/-- Two states agree: both in the same block of `P`. -/
def Mates (P : List Block) (p q : Nat) : Prop := ∃ B ∈ P, p ∈ B ∧ q ∈ B

/-- Hopcroft's invariant: two states of a block whose successors are not in the same block are going to be separated, either by a waiting block, or by
the current block `C` and one of the symbols `as` that remain. -/
def Pending (g : IAutomaton A) (P W : List Block) (C : Block) (as : List A) : Prop :=
  ∀ p q a, Mates P p q → ¬Same P (g.a.delta p a) (g.a.delta q a) →
    Sep W (g.a.delta p a) (g.a.delta q a) ∨ (a ∈ as ∧ ¬(In (g.a.delta p a) C ↔ In (g.a.delta q a) C))

/-- A relation which is a congruence for the transitions. -/
def Cong (g : IAutomaton A) (R : Nat → Nat → Prop) : Prop :=
  ∀ p q, R p q → ∀ a, (g.a.delta p a = none ∧ g.a.delta q a = none) ∨ ∃ p' q', g.a.delta p a = some p' ∧ g.a.delta q a = some q' ∧ R p' q'

theorem Cong.in_iff {R : Nat → Nat → Prop} (hR : Cong g R) {C : Block} (hC : ∀ p q, R p q → (p ∈ C ↔ q ∈ C)) {p q : Nat} (h : R p q) (a : A) :
    In (g.a.delta p a) C ↔ In (g.a.delta q a) C := by
  rcases hR p q h a with ⟨e1, e2⟩ | ⟨p', q', e1, e2, h'⟩
  · rw [e1, e2]
  · rw [e1, e2]
    unfold In
    simp [hC p' q' h']

/-- What holds between the symbols. -/
structure SInv (g : IAutomaton A) (P0 W0 : List Block) (C : Block) (as : List A) (P W : List Block) : Prop where
  part : Part g.a.vertices P
  sub : ∀ B ∈ W, B ∈ P
  nodup : W.Nodup
  len : P.length + W0.length = P0.length + W.length
  fine : ∀ B' ∈ P, ∃ B ∈ P0, ∀ q ∈ B', q ∈ B
  closed : ∀ R, Cong g R → (∀ p q, R p q → (p ∈ C ↔ q ∈ C)) → (∀ B ∈ P0, ∀ q r, R q r → (q ∈ B ↔ r ∈ B)) → ∀ B ∈ P, ∀ q r, R q r → (q ∈ B ↔ r ∈ B)
  nil : [] ∈ P → [] ∈ P0
  nilW : [] ∈ W0 → [] ∈ W
  pending : Pending g P W C as

theorem symbol_spec (hg : g.WF) {ord : HopcroftOrd A} (ho : ord.Valid) {t : Nat} {P0 W0 : List Block} {C : Block} (hC : C ≠ []) {a : A} {as : List A}
    {P W : List Block} (h : SInv g P0 W0 C (a :: as) P W) :
    ∃ P' W', hopcroftSymbol ord g t C (P, W) a = .ok (P', W') ∧ SInv g P0 W0 C as P' W' := by
  obtain ⟨x, hx, hxs⟩ := pre_spec hg a hC
  have hperm := ho.blocks a t P
  obtain ⟨P', W', e, r, m⟩ := splits_spec x (ord.blocks a t P) h.part h.sub h.nodup (hperm.nodup_iff.mpr h.part.nodup) (fun y hy => hperm.mem_iff.mp hy)
  refine ⟨P', W', ?_, ?_⟩
  · unfold hopcroftSymbol; rw [hx]; exact e
  have hhom : ∀ B ∈ P', ∀ p ∈ B, ∀ q ∈ B, (p ∈ x ↔ q ∈ x) := by
    intro B hB p hp q hq
    rcases m B hB with ⟨h1, h2⟩ | h1 | h1
    · exact absurd (hperm.mem_iff.mpr h1) h2
    · exact ⟨fun _ => h1 q hq, fun _ => h1 p hp⟩
    · exact ⟨fun h => absurd h (h1 p hp), fun h => absurd h (h1 q hq)⟩
  refine ⟨r.part, r.sub, r.nodup, by have := h.len; have := r.len; omega, ?_, ?_, fun e => h.nil (r.nil e), fun e => r.nilW (h.nilW e), ?_⟩
  · intro B' hB'
    obtain ⟨B, hB, s1⟩ := r.fine _ hB'
    obtain ⟨B0, hB0, s2⟩ := h.fine _ hB
    exact ⟨B0, hB0, fun q hq => s2 q (s1 q hq)⟩
  · intro R hR hRC hR0
    refine r.closed R ?_ (h.closed R hR hRC hR0)
    intro p q hpq
    rw [hxs, hxs]
    exact hR.in_iff hRC hpq a
  · rintro p q b ⟨B', hB', hp, hq⟩ hns
    obtain ⟨B, hB, s1⟩ := r.fine _ hB'
    by_cases hs : Same P (g.a.delta p b) (g.a.delta q b)
    · exact .inl (r.trans.new _ _ hns hs)
    · rcases h.pending p q b ⟨B, hB, s1 p hp, s1 q hq⟩ hs with h' | ⟨hb, h'⟩
      · exact .inl (r.trans.old _ _ h')
      · rcases List.mem_cons.mp hb with rfl | hb
        · exfalso
          apply h'
          rw [← hxs, ← hxs]
          exact hhom B' hB' p hp q hq
        · exact .inr ⟨hb, h'⟩

theorem symbols_spec (hg : g.WF) {ord : HopcroftOrd A} (ho : ord.Valid) {t : Nat} {P0 W0 : List Block} {C : Block} (hC : C ≠ []) :
    ∀ (as : List A) {P W : List Block}, SInv g P0 W0 C as P W →
      ∃ P' W', as.foldlM (hopcroftSymbol ord g t C) (P, W) = .ok (P', W') ∧ SInv g P0 W0 C [] P' W' := by
  intro as
  induction as with
  | nil => intro P W h; exact ⟨P, W, rfl, h⟩
  | cons a as ih =>
    intro P W h
    obtain ⟨P1, W1, e1, h1⟩ := symbol_spec hg ho (t := t) hC h
    obtain ⟨P2, W2, e2, h2⟩ := ih h1
    refine ⟨P2, W2, ?_, h2⟩
    rw [List.foldlM_cons, e1]; exact e2

/-! ## The main loop -/

/-- The invariant of the main loop. -/
structure MInv (g : IAutomaton A) (P0 : List Block) (s : List Block × List Block) : Prop where
  part : Part g.a.vertices s.1
  sub : ∀ B ∈ s.2, B ∈ s.1
  nodup : s.2.Nodup
  fine : ∀ B' ∈ s.1, ∃ B ∈ P0, ∀ q ∈ B', q ∈ B
  closed : ∀ R, Cong g R → (∀ B ∈ P0, ∀ q r, R q r → (q ∈ B ↔ r ∈ B)) → ∀ B ∈ s.1, ∀ q r, R q r → (q ∈ B ↔ r ∈ B)
  nil : [] ∈ s.1 → [] ∈ P0
  nilW : g.a.alphabet ≠ [] → [] ∈ P0 → [] ∈ s.2
  pending : Pending g s.1 s.2 [] []

/-- The result of the refinement. -/
structure Result (g : IAutomaton A) (P0 P : List Block) : Prop where
  part : Part g.a.vertices P
  fine : ∀ B' ∈ P, ∃ B ∈ P0, ∀ q ∈ B', q ∈ B
  closed : ∀ R, Cong g R → (∀ B ∈ P0, ∀ q r, R q r → (q ∈ B ↔ r ∈ B)) → ∀ B ∈ P, ∀ q r, R q r → (q ∈ B ↔ r ∈ B)
  nil : [] ∈ P → [] ∈ P0
  stable : ∀ p q a, Mates P p q → Same P (g.a.delta p a) (g.a.delta q a)

/-- `hopcroft_agglomerate_states` raises `TypeError` iff there is a transition and the initial partition has an empty block; otherwise it ends with a
stable partition. -/
theorem loop_spec (hg : g.WF) {ord : HopcroftOrd A} (ho : ord.Valid) {P0 : List Block} (hP0 : Part g.a.vertices P0) :
    ∃ r, Returns (fun fuel => loop (hopcroftStep ord g) fuel 0 (P0, P0)) r ∧
      ((g.a.alphabet ≠ [] ∧ [] ∈ P0 ∧ r = .error .typeError) ∨ ((g.a.alphabet = [] ∨ [] ∉ P0) ∧ ∃ P, r = .ok P ∧ Result g P0 P)) := by
  have hV : g.a.vertices.Nodup := hg.out.outer
  refine loop_total (hopcroftStep ord g) (MInv g P0) (fun s => g.a.vertices.length + 1 + s.2.length - s.1.length)
    (fun r => (g.a.alphabet ≠ [] ∧ [] ∈ P0 ∧ r = .error .typeError) ∨ ((g.a.alphabet = [] ∨ [] ∉ P0) ∧ ∃ P, r = .ok P ∧ Result g P0 P))
    ?_ ?_ ?_ (s := (P0, P0)) ?_ 0
  · rintro t ⟨P, W⟩ s' h hs
    unfold hopcroftStep at hs
    have hperm := ho.pop t W
    cases hp : ord.pop t W with
    | nil => simp only [hp] at hs; cases hs
    | cons C rest =>
      simp only [hp] at hs
      have hCW : C ∈ W := hperm.mem_iff.mp (by rw [hp]; simp)
      have hlW : (setDiscard W C).length + 1 = W.length := length_discard h.nodup hCW
      have hlP : P.length ≤ g.a.vertices.length + 1 := h.part.length_le hV
      by_cases hal : ord.alphabet t g.a.alphabet = []
      · rw [hal] at hs
        have ha0 : g.a.alphabet = [] := by
          have := (ho.alphabet t g.a.alphabet).length_eq
          rw [hal] at this
          exact List.length_eq_zero_iff.mp this.symm
        simp only [List.foldlM_nil] at hs
        cases hs
        refine ⟨⟨h.part, fun B hB => h.sub B ((mem_setDiscard _ _ _).mp hB).1, nodup_setDiscard h.nodup _, h.fine, h.closed, h.nil,
          fun hne => absurd ha0 hne, ?_⟩, ?_⟩
        · intro p q a hm hns
          exfalso
          apply hns
          have hnone : ∀ p, g.a.delta p a = none := by
            intro p
            cases e : g.a.delta p a with
            | none => rfl
            | some r =>
              have : a ∈ g.a.alphabet := mem_alphabet'.mpr ⟨p, r, e⟩
              rw [ha0] at this; simp at this
          exact .inl ⟨hnone p, hnone q⟩
        · simp only at hlP ⊢
          omega
      · by_cases hC : C = []
        · subst hC
          cases ha : ord.alphabet t g.a.alphabet with
          | nil => exact absurd ha hal
          | cons a as =>
            rw [ha, List.foldlM_cons] at hs
            cases hs
        · obtain ⟨P', W', e, hr⟩ := symbols_spec hg ho (t := t) (P0 := P) (W0 := setDiscard W C) hC (ord.alphabet t g.a.alphabet) (P := P)
            (W := setDiscard W C) ⟨h.part, fun B hB => h.sub B ((mem_setDiscard _ _ _).mp hB).1, nodup_setDiscard h.nodup _, rfl,
              fun B hB => ⟨B, hB, fun _ h => h⟩, fun _ _ _ h => h, id, id, by
                intro p q a hm hns
                rcases h.pending p q a hm hns with ⟨D, hD, hsep⟩ | ⟨hb, _⟩
                · by_cases hDC : D = C
                  · subst hDC
                    refine .inr ⟨?_, hsep⟩
                    rw [(ho.alphabet t g.a.alphabet).mem_iff, mem_alphabet']
                    by_contra hno
                    apply hsep
                    have hnone : ∀ p, g.a.delta p a = none := by
                      intro p
                      cases e : g.a.delta p a with
                      | none => rfl
                      | some r => exact absurd ⟨p, r, e⟩ hno
                    rw [hnone p, hnone q]
                  · exact .inl ⟨D, (mem_setDiscard _ _ _).mpr ⟨hD, hDC⟩, hsep⟩
                · simp at hb⟩
          rw [e] at hs
          cases hs
          refine ⟨⟨hr.part, hr.sub, hr.nodup, ?_, ?_, fun e => h.nil (hr.nil e), ?_, ?_⟩, ?_⟩
          · intro B' hB'
            obtain ⟨B, hB, s1⟩ := hr.fine _ hB'
            obtain ⟨B0, hB0, s2⟩ := h.fine _ hB
            exact ⟨B0, hB0, fun q hq => s2 q (s1 q hq)⟩
          · intro R hR hR0
            have hRP := h.closed R hR hR0
            exact hr.closed R hR (hRP C (h.sub C hCW)) hRP
          · intro hne h0
            exact hr.nilW ((mem_setDiscard _ _ _).mpr ⟨h.nilW hne h0, fun e => hC e.symm⟩)
          · intro p q a hm hns
            rcases hr.pending p q a hm hns with h' | ⟨h', _⟩
            · exact .inl h'
            · simp at h'
          · have h1 := hr.len
            have h2 := hr.part.length_le hV
            simp only at hlP h2 ⊢
            omega
  · rintro t ⟨P, W⟩ r h hs
    unfold hopcroftStep at hs
    have hperm := ho.pop t W
    cases hp : ord.pop t W with
    | nil =>
      simp only [hp] at hs
      cases hs
      have hW : W = [] := by
        have := hperm.length_eq
        rw [hp] at this
        exact List.length_eq_zero_iff.mp this.symm
      subst hW
      right
      refine ⟨?_, P, rfl, h.part, h.fine, h.closed, h.nil, ?_⟩
      · by_contra hc
        rw [not_or, not_not] at hc
        have := h.nilW hc.1 hc.2
        simp at this
      · intro p q a hm
        by_contra hns
        rcases h.pending p q a hm hns with ⟨C, hC, _⟩ | ⟨hb, _⟩
        · simp at hC
        · simp at hb
    | cons C rest =>
      simp only [hp] at hs
      split at hs <;> cases hs
  · rintro t ⟨P, W⟩ e h hs
    unfold hopcroftStep at hs
    have hperm := ho.pop t W
    cases hp : ord.pop t W with
    | nil => simp only [hp] at hs; cases hs
    | cons C rest =>
      simp only [hp] at hs
      have hCW : C ∈ W := hperm.mem_iff.mp (by rw [hp]; simp)
      by_cases hC : C = []
      · subst hC
        cases ha : ord.alphabet t g.a.alphabet with
        | nil => rw [ha] at hs; cases hs
        | cons a as =>
          rw [ha, List.foldlM_cons] at hs
          cases hs
          left
          refine ⟨?_, h.nil (h.sub _ hCW), rfl⟩
          intro h0
          have := (ho.alphabet t g.a.alphabet).mem_iff (a := a)
          rw [ha, h0] at this
          simp at this
      · exfalso
        obtain ⟨P', W', e', _⟩ := symbols_spec hg ho (t := t) (P0 := P) (W0 := setDiscard W C) hC (ord.alphabet t g.a.alphabet) (P := P)
            (W := setDiscard W C) ⟨h.part, fun B hB => h.sub B ((mem_setDiscard _ _ _).mp hB).1, nodup_setDiscard h.nodup _, rfl,
              fun B hB => ⟨B, hB, fun _ h => h⟩, fun _ _ _ h => h, id, id, by
                intro p q a hm hns
                rcases h.pending p q a hm hns with ⟨D, hD, hsep⟩ | ⟨hb, _⟩
                · by_cases hDC : D = C
                  · subst hDC
                    refine .inr ⟨?_, hsep⟩
                    rw [(ho.alphabet t g.a.alphabet).mem_iff, mem_alphabet']
                    by_contra hno
                    apply hsep
                    have hnone : ∀ p, g.a.delta p a = none := by
                      intro p
                      cases e : g.a.delta p a with
                      | none => rfl
                      | some r => exact absurd ⟨p, r, e⟩ hno
                    rw [hnone p, hnone q]
                  · exact .inl ⟨D, (mem_setDiscard _ _ _).mpr ⟨hD, hDC⟩, hsep⟩
                · simp at hb⟩
        rw [e'] at hs
        cases hs
  · refine ⟨hP0, fun _ h => h, hP0.nodup, fun B hB => ⟨B, hB, fun _ h => h⟩, fun _ _ h => h, id, fun _ h => h, ?_⟩
    intro p q a hm hns
    left
    show Sep P0 _ _
    cases e1 : g.a.delta p a with
    | none =>
      cases e2 : g.a.delta q a with
      | none => exact absurd (.inl ⟨e1, e2⟩) hns
      | some q' =>
        obtain ⟨B, hB, hq'⟩ := hP0.cover q' (target_mem hg e2)
        refine ⟨B, hB, fun h => ?_⟩
        obtain ⟨_, h', _⟩ := h.mpr ⟨q', rfl, hq'⟩
        cases h'
    | some p' =>
      obtain ⟨B, hB, hp'⟩ := hP0.cover p' (target_mem hg e1)
      refine ⟨B, hB, fun h => ?_⟩
      obtain ⟨q', h1, h2⟩ := h.mp ⟨p', rfl, hp'⟩
      exact hns (.inr ⟨B, hB, ⟨p', e1, hp'⟩, ⟨q', h1, h2⟩⟩)

end PyBGL.Hopcroft
