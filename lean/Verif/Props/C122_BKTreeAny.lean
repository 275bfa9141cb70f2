import Verif.Proofs.BKTreeAny
import Verif.Proofs.Damerau
import Verif.Props.C72_C73_BKTree

/-!
# C122: `BKTree` with a distance which is not a metric
-/

namespace PyBGL
open Automaton BKTree
variable {X : Type} {dist : X → X → Nat}

theorem BKTree.makeFrom_head (hz : ∀ x y, dist x y = 0 ↔ x = y) (xs : List X) {t t' : BKTree X} {x₀ : X} (h : Inv dist t)
    (h0 : t.elements.get? 0 = some x₀) (hr : Returns (fun fuel => makeFrom dist fuel t xs) (.ok t')) : t'.elements.get? 0 = some x₀ := by
  induction xs generalizing t with
  | nil =>
    have : Returns (fun fuel => makeFrom dist fuel t []) (.ok t) := ⟨0, fun _ _ => rfl⟩
    have := returns_unique hr this
    cases this; exact h0
  | cons w xs ih =>
    obtain ⟨r, ⟨N, hN⟩, hpost⟩ := BKTree.insert_inv hz h w
    cases r with
    | error e => cases hpost
    | ok p =>
      obtain ⟨u, t1⟩ := p
      obtain ⟨h1, h2, h3, h4⟩ := hpost
      have e0 : t1.elements.get? 0 = some x₀ := by
        by_cases hin : ∃ v, t.elements.get? v = some w
        · rw [h3 hin]; exact h0
        · rw [(h4 hin).2.1, Dict.get?_set, if_neg]
          · exact h0
          · intro e
            have := h.trie.pos
            omega
      refine ih h1 e0 ?_
      obtain ⟨M, hM⟩ := hr
      refine ⟨max N M, fun fuel hf => ?_⟩
      have hf1 : N ≤ fuel := by omega
      have hf2 : M ≤ fuel := by omega
      have := hM fuel hf2
      simp only [makeFrom, hN fuel hf1] at this
      exact this

theorem BKTree.make_head (hz : ∀ x y, dist x y = 0 ↔ x = y) {x₀ : X} {xs : List X} {t : BKTree X}
    (ht : Returns (make dist (x₀ :: xs)) (.ok t)) : t.elements.get? 0 = some x₀ := by
  obtain ⟨N, hN⟩ := ht
  refine makeFrom_head hz xs (inv_first (dist := dist) x₀) rfl ⟨N, fun fuel hf => ?_⟩
  have := hN fuel hf
  unfold make at this
  rw [makeFrom] at this
  exact this

/-- **C122**: whatever the distance, provided that `distance(x, y) = 0` exactly when `x` and `y` are equal, `search` terminates without exception.
What it returns is a stored element within the radius, with its distance, which is at most that of the first element inserted; it returns `None`
only if the first element is outside the radius. A stored element is always found. -/
theorem C122_any (hz : ∀ x y, dist x y = 0 ↔ x = y) {x₀ : X} {xs : List X} {t : BKTree X}
    (ht : Returns (BKTree.make dist (x₀ :: xs)) (.ok t)) (w : X) (dMax : Option Nat) :
    ((Returns (t.search dist w dMax none) (.ok none) ∧ ¬ Within (dist w x₀) dMax ∧ w ∉ x₀ :: xs) ∨
    (∃ x ∈ x₀ :: xs, Returns (t.search dist w dMax none) (.ok (some (x, some (dist w x)))) ∧ Within (dist w x) dMax ∧
      dist w x ≤ dist w x₀ ∧ (w ∈ x₀ :: xs → x = w))) := by
  obtain ⟨t0, h1, h2, h3⟩ := BKTree.make_spec hz (x₀ :: xs)
  have ht0 : t = t0 := by have := returns_unique ht h1; cases this; rfl
  subst ht0
  rcases h2 with ⟨h2, _⟩ | hi
  · cases h2
  have h0 := make_head hz ht
  obtain ⟨r, hr, hpost⟩ := search_bound hi w dMax (v₀ := []) (y₀ := 0) rfl h0 (Nat.le_refl _) (fun p xp d v e _ => by
    have := hi.deltaWord_lt e; omega)
  have hw : w ∈ x₀ :: xs → ∃ r, Returns (t.search dist w dMax none) r ∧
      BoundPost dist (fun x => ∃ y, t.elements.get? y = some x) w dMax 0 r := by
    intro hw
    obtain ⟨y, hy⟩ := (stored_iff hi w).1 ((h3 w).2 hw)
    obtain ⟨v, hv⟩ := hi.trie.surj _ ((hi.elems y).2 ⟨w, hy⟩)
    exact search_bound hi w dMax hv hy (Nat.le_of_eq ((hz w w).2 rfl)) (fun p xp d v _ _ => by simp [absDiff])
  cases r with
  | error e => cases hpost
  | ok o =>
    cases o with
    | none =>
      left
      refine ⟨hr, ?_, ?_⟩
      · rw [← leInf_iff]
        have hp : leInf (dist w x₀) dMax = false := hpost
        simp [hp]
      · intro hin
        obtain ⟨r', hr', hp⟩ := hw hin
        have := returns_unique hr' hr
        subst this
        have hp : leInf 0 dMax = false := hp
        cases dMax <;> simp [leInf] at hp
    | some p =>
      obtain ⟨x, d⟩ := p
      obtain ⟨p1, p2, p3, p4⟩ := hpost
      subst p2
      right
      refine ⟨x, (h3 x).1 ((stored_iff hi x).2 p1), hr, (leInf_iff _ _).1 p3, p4, fun hin => ?_⟩
      obtain ⟨r', hr', hp⟩ := hw hin
      have := returns_unique hr' hr
      subst this
      obtain ⟨_, _, _, p5⟩ := hp
      exact ((hz w x).1 (by omega)).symm

/-- A distance which is neither symmetric nor subject to the triangle inequality, but meets the hypothesis. -/
example : ∀ x y : Nat, (if x = y then 0 else x * x + 1) = 0 ↔ x = y := fun x y => by split <;> simp_all

/-- **C122**: with a symmetric distance for which one side of the triangle inequality must be multiplied by `c`, the element found is nearest up to the
factor `c`, and `None` means that no element is within the radius divided by `c`. -/
theorem C122_relaxed (c : Nat) (hc : 1 ≤ c) (hz : ∀ x y, dist x y = 0 ↔ x = y) (hs : ∀ x y, dist x y = dist y x)
    (htri : ∀ x y z, dist x z ≤ c * dist x y + dist y z) {xs : List X} {t : BKTree X}
    (ht : Returns (BKTree.make dist xs) (.ok t)) (w : X) (dMax : Option Nat) :
    (Returns (t.search dist w dMax none) (.ok none) ∧ ∀ x ∈ xs, ¬ Within (c * dist w x) dMax) ∨
    (∃ x ∈ xs, Returns (t.search dist w dMax none) (.ok (some (x, some (dist w x)))) ∧
      Within (dist w x) dMax ∧ ∀ y ∈ xs, dist w x ≤ c * dist w y) := by
  obtain ⟨t0, h1, h2, h3⟩ := BKTree.make_spec hz xs
  have ht0 : t = t0 := by have := returns_unique ht h1; cases this; rfl
  subst ht0
  rcases h2 with ⟨rfl, rfl⟩ | hi
  · left
    exact ⟨⟨0, fun _ _ => rfl⟩, by simp⟩
  have key : ∀ y ∈ xs, ∃ r, Returns (t.search dist w dMax none) r ∧
      BoundPost dist (fun x => ∃ y, t.elements.get? y = some x) w dMax (c * dist w y) r := by
    intro x hx
    obtain ⟨y, hy⟩ := (stored_iff hi x).1 ((h3 x).2 hx)
    obtain ⟨v, hv⟩ := hi.trie.surj _ ((hi.elems y).2 ⟨x, hy⟩)
    refine search_bound hi w dMax hv hy (Nat.le_mul_of_pos_left _ hc) (fun p xp d v _ _ => ?_)
    have a1 := htri x w xp
    have a2 := htri w x xp
    rw [hs x w] at a1
    unfold absDiff
    omega
  cases xs with
  | nil =>
    obtain ⟨x, hx⟩ := (hi.elems 0).1 (by rw [hi.trie.mem_vertices]; exact hi.trie.pos)
    have := (h3 x).1 ((stored_iff hi x).2 ⟨0, hx⟩)
    cases this
  | cons x₀ xs =>
    obtain ⟨r, hr, hpost⟩ := key x₀ (by simp)
    have hall : ∀ y ∈ x₀ :: xs, BoundPost dist (fun x => ∃ y, t.elements.get? y = some x) w dMax (c * dist w y) r := by
      intro y hy
      obtain ⟨r', hr', hp⟩ := key y hy
      have := returns_unique hr' hr
      subst this
      exact hp
    cases r with
    | error e => cases hpost
    | ok o =>
      cases o with
      | none =>
        left
        refine ⟨hr, fun x hx => ?_⟩
        rw [← leInf_iff]
        have hp : leInf (c * dist w x) dMax = false := hall x hx
        simp [hp]
      | some p =>
        obtain ⟨x, d⟩ := p
        obtain ⟨p1, p2, p3, p4⟩ := hpost
        subst p2
        right
        exact ⟨x, (h3 x).1 ((stored_iff hi x).2 p1), hr, (leInf_iff _ _).1 p3, fun y hy => (hall y hy).2.2.2⟩

/-- **C122** for `damerau_levenshtein_distance`: the factor is 2. -/
theorem C122_damerau {A : Type} [DecidableEq A] (xs : List (List A)) :
    ∃ t, Returns (BKTree.make damerauLevenshteinDistance xs) (.ok t) ∧ ∀ w dMax,
      (Returns (t.search damerauLevenshteinDistance w dMax none) (.ok none) ∧
        ∀ x ∈ xs, ¬ Within (2 * damerauLevenshteinDistance w x) dMax) ∨
      (∃ x ∈ xs, Returns (t.search damerauLevenshteinDistance w dMax none) (.ok (some (x, some (damerauLevenshteinDistance w x)))) ∧
        Within (damerauLevenshteinDistance w x) dMax ∧ ∀ y ∈ xs, damerauLevenshteinDistance w x ≤ 2 * damerauLevenshteinDistance w y) := by
  have hz : ∀ x y : List A, damerauLevenshteinDistance x y = 0 ↔ x = y := fun x y => (C70_properties x y).2.1
  obtain ⟨t, ht, _⟩ := C73_make hz xs
  exact ⟨t, ht, fun w dMax => C122_relaxed 2 (by omega) hz (fun x y => (C70_properties x y).1) damerau_triangle_left ht w dMax⟩

theorem BKTree.two_elements {f : X → X → Nat} {x y w : X} (h1 : f y x = 4) (h2 : f w x = 2) :
    ∃ t, Returns (BKTree.make f [x, y]) (.ok t) ∧ Returns (t.search f w (some 1) none) (.ok none) := by
  refine ⟨⟨⟨2, [(0, [(4, 1)]), (1, [])], some 0, []⟩, [(0, x), (1, y)], some 0⟩, ⟨1, fun fuel hf => ?_⟩, ⟨2, fun fuel hf => ?_⟩⟩
  · obtain ⟨k, rfl⟩ : ∃ k, fuel = k + 1 := ⟨fuel - 1, by omega⟩
    have s1 : insertStep f ⟨⟨1, [(0, [])], some 0, []⟩, [(0, x)], some 0⟩ y 0 0 =
        .done (1, ⟨⟨2, [(0, [(4, 1)]), (1, [])], some 0, []⟩, [(0, x), (1, y)], some 0⟩) := by
      unfold insertStep
      show (if f y x = 0 then _ else _) = _
      rw [h1]; rfl
    have s2 : BKTree.insert f ⟨⟨1, [(0, [])], some 0, []⟩, [(0, x)], some 0⟩ y none (k + 1) =
        some (.ok (1, ⟨⟨2, [(0, [(4, 1)]), (1, [])], some 0, []⟩, [(0, x), (1, y)], some 0⟩)) := by
      show loop (insertStep f _ y) (k + 1) 0 0 = _
      rw [loop, s1]
    unfold make
    rw [makeFrom]
    show makeFrom f (k + 1) ⟨⟨1, [(0, [])], some 0, []⟩, [(0, x)], some 0⟩ [y] = _
    rw [makeFrom, s2]
    rfl
  · obtain ⟨k, rfl⟩ : ∃ k, fuel = k + 2 := ⟨fuel - 2, by omega⟩
    have s1 : searchStep f ⟨⟨2, [(0, [(4, 1)]), (1, [])], some 0, []⟩, [(0, x), (1, y)], some 0⟩ w 0 ⟨[0], none, some 1⟩ =
        .next ⟨[], none, some 1⟩ := by
      simp only [searchStep, element, Dict.getE, Dict.get?, if_pos, h2]
      rfl
    show loop (searchStep f ⟨⟨2, [(0, [(4, 1)]), (1, [])], some 0, []⟩, [(0, x), (1, y)], some 0⟩ w) (k + 1 + 1) 0 ⟨[0], none, some 1⟩ = _
    rw [loop, s1]
    rfl

/-- **C122**: the factor cannot be dropped: `make_bk_tree(["aab", "bbca"], damerau_levenshtein_distance).search("bba", 1)` returns `None`, although
`"bbca"` is at distance 1. -/
theorem C122_damerau_factor : ∃ t, Returns (BKTree.make damerauLevenshteinDistance [['a', 'a', 'b'], ['b', 'b', 'c', 'a']]) (.ok t) ∧
    Returns (t.search damerauLevenshteinDistance ['b', 'b', 'a'] (some 1) none) (.ok none) ∧
    damerauLevenshteinDistance ['b', 'b', 'a'] ['b', 'b', 'c', 'a'] = 1 := by
  have d1 : damerauLevenshteinDistance ['b', 'b', 'c', 'a'] ['a', 'a', 'b'] = 4 := by
    rw [← C70_naive]; simp [damerauLevenshteinDistanceNaive]
  have d2 : damerauLevenshteinDistance ['b', 'b', 'a'] ['a', 'a', 'b'] = 2 := by
    rw [← C70_naive]; simp [damerauLevenshteinDistanceNaive]
  have d3 : damerauLevenshteinDistance ['b', 'b', 'a'] ['b', 'b', 'c', 'a'] = 1 := by
    rw [← C70_naive]; simp [damerauLevenshteinDistanceNaive]
  obtain ⟨t, h1, h2⟩ := BKTree.two_elements d1 d2
  exact ⟨t, h1, h2, d3⟩

end PyBGL
