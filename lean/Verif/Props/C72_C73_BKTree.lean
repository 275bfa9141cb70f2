import Verif.Proofs.BKTree
import Verif.Props.C67_C71_Distance

/-!
# C72, C73: `BKTree`
-/

namespace PyBGL
open Automaton BKTree
variable {X : Type} {dist : X → X → Nat}

theorem BKTree.insert_empty (w : X) (fuel : Nat) :
    (BKTree.empty : BKTree X).insert dist w none fuel = some (.ok (0, { (empty.addVertex w).2 with root := some 0 })) :=
  rfl

theorem BKTree.makeFrom_spec (hz : ∀ x y, dist x y = 0 ↔ x = y) (xs : List X) {t : BKTree X} (h : Inv dist t) :
    ∃ t', Returns (fun fuel => makeFrom dist fuel t xs) (.ok t') ∧ Inv dist t' ∧
      ∀ x, (∃ u, t'.elements.get? u = some x) ↔ (∃ u, t.elements.get? u = some x) ∨ x ∈ xs := by
  induction xs generalizing t with
  | nil => exact ⟨t, ⟨0, fun _ _ => rfl⟩, h, by simp⟩
  | cons w xs ih =>
    obtain ⟨r, ⟨N, hN⟩, hr⟩ := BKTree.insert_inv hz h w
    cases r with
    | error e => cases hr
    | ok p =>
      obtain ⟨u, t1⟩ := p
      obtain ⟨h1, h2, h3, h4⟩ := hr
      obtain ⟨t', ⟨M, hM⟩, i1, i2⟩ := ih h1
      refine ⟨t', ⟨max N M, fun fuel hf => ?_⟩, i1, fun x => ?_⟩
      · have hf1 : N ≤ fuel := by omega
        have hf2 : M ≤ fuel := by omega
        simp only [makeFrom, hN fuel hf1]
        exact hM fuel hf2
      · rw [i2, List.mem_cons]
        by_cases hin : ∃ v, t.elements.get? v = some w
        · rw [h3 hin]
          constructor
          · rintro (h | h)
            · exact .inl h
            · exact .inr (.inr h)
          · rintro (h | rfl | h)
            · exact .inl h
            · exact .inl hin
            · exact .inr h
        · obtain ⟨rfl, h5, _⟩ := h4 hin
          have hnone : t.elements.get? t.a.lastVertexId = none := by
            cases hc : t.elements.get? t.a.lastVertexId with
            | none => rfl
            | some x => exact absurd ((h.elems _).2 ⟨x, hc⟩) (fresh h.trie.wf)
          have key : (∃ u, t1.elements.get? u = some x) ↔ (∃ u, t.elements.get? u = some x) ∨ x = w := by
            simp only [h5, Dict.get?_set]
            constructor
            · rintro ⟨u, hu⟩
              split at hu
              · cases hu; exact .inr rfl
              · exact .inl ⟨u, hu⟩
            · rintro (⟨u, hu⟩ | rfl)
              · refine ⟨u, ?_⟩
                rw [if_neg]
                · exact hu
                · rintro rfl; rw [hnone] at hu; cases hu
              · exact ⟨t.a.lastVertexId, by simp⟩
          rw [key, or_assoc]

theorem BKTree.make_spec (hz : ∀ x y, dist x y = 0 ↔ x = y) (xs : List X) :
    ∃ t, Returns (make dist xs) (.ok t) ∧ ((xs = [] ∧ t = .empty) ∨ Inv dist t) ∧ ∀ x, t.Stored x ↔ x ∈ xs := by
  cases xs with
  | nil =>
    refine ⟨.empty, ⟨0, fun _ _ => rfl⟩, .inl ⟨rfl, rfl⟩, fun x => ?_⟩
    constructor
    · rintro ⟨u, hu, _⟩; cases hu
    · intro h; cases h
  | cons w xs =>
    obtain ⟨t, ⟨N, hN⟩, h2, h3⟩ := makeFrom_spec hz xs (inv_first (dist := dist) w)
    refine ⟨t, ⟨N, fun fuel hf => ?_⟩, .inr h2, fun x => ?_⟩
    · unfold make
      rw [makeFrom]
      exact hN fuel hf
    · rw [stored_iff h2, h3, List.mem_cons]
      have : (∃ u, Dict.get? [(0, w)] u = some x) ↔ x = w := by
        constructor
        · rintro ⟨u, hu⟩
          by_cases h0 : 0 = u
          · simp [Dict.get?, h0] at hu; exact hu.symm
          · simp [Dict.get?, h0] at hu
        · rintro rfl; exact ⟨0, rfl⟩
      exact or_congr this Iff.rfl

/-! ## C73 -/

/-- **C73**: building a tree from a list terminates without exception; the stored elements are exactly the
elements of the list, each in one node only. Only `distance(x, y) = 0 ↔ x = y` is needed. -/
theorem C73_make (hz : ∀ x y, dist x y = 0 ↔ x = y) (xs : List X) :
    ∃ t, Returns (BKTree.make dist xs) (.ok t) ∧
      (∀ x, (∃ u ∈ t.a.vertices, t.element u = .ok x) ↔ x ∈ xs) ∧
      (∀ u ∈ t.a.vertices, ∀ v ∈ t.a.vertices, t.element u = t.element v → u = v) := by
  obtain ⟨t, h1, h2, h3⟩ := BKTree.make_spec hz xs
  refine ⟨t, h1, h3, ?_⟩
  rcases h2 with ⟨_, rfl⟩ | hi
  · intro u hu; cases hu
  · intro u hu v hv huv
    obtain ⟨x, hx⟩ := (hi.elems u).1 hu
    obtain ⟨y, hy⟩ := (hi.elems v).1 hv
    unfold element at huv
    rw [Dict.getE_of_get? hx, Dict.getE_of_get? hy] at huv
    cases huv
    exact hi.inj _ _ _ hx hy

/-- **C73**: inserting one more element returns a node carrying it; if the element was already stored the
tree is unchanged, otherwise a fresh node is created and the other elements stay where they are. -/
theorem C73_insert (hz : ∀ x y, dist x y = 0 ↔ x = y) {xs : List X} {t : BKTree X}
    (ht : Returns (BKTree.make dist xs) (.ok t)) (w : X) :
    ∃ u t', Returns (t.insert dist w none) (.ok (u, t')) ∧ t'.element u = .ok w ∧ u ∈ t'.a.vertices ∧
      (w ∈ xs → t' = t) ∧
      (w ∉ xs → u ∉ t.a.vertices ∧ (∀ v, v ∈ t'.a.vertices ↔ v ∈ t.a.vertices ∨ v = u) ∧
        ∀ v ∈ t.a.vertices, t'.element v = t.element v) := by
  obtain ⟨t0, h1, h2, h3⟩ := BKTree.make_spec hz xs
  have ht0 : t = t0 := by have := returns_unique ht h1; cases this; rfl
  subst ht0
  rcases h2 with ⟨rfl, rfl⟩ | hi
  · refine ⟨0, _, ⟨0, fun fuel _ => insert_empty w fuel⟩, rfl, ?_, by simp, fun _ => ⟨?_, ?_, ?_⟩⟩
    · exact (show (0 : Nat) ∈ [0] by decide)
    · exact (show (0 : Nat) ∉ [] by simp)
    · intro v; show v ∈ [0] ↔ v ∈ [] ∨ v = 0; simp
    · intro v hv; cases hv
  · obtain ⟨r, hr, hpost⟩ := BKTree.insert_inv hz hi w
    cases r with
    | error e => cases hpost
    | ok p =>
      obtain ⟨u, t'⟩ := p
      obtain ⟨i1, i2, i3, i4⟩ := hpost
      have hst : w ∈ xs ↔ ∃ v, t.elements.get? v = some w := by rw [← h3, stored_iff hi]
      refine ⟨u, t', hr, Dict.getE_of_get? i2, (i1.elems u).2 ⟨w, i2⟩, fun hw => i3 (hst.1 hw), fun hw => ?_⟩
      obtain ⟨rfl, j2, j3⟩ := i4 (fun hc => hw (hst.2 hc))
      have hf := fresh hi.trie.wf
      refine ⟨hf, by simp [j3], fun v hv => ?_⟩
      unfold element Dict.getE
      rw [j2, Dict.get?_set, if_neg]
      rintro rfl; exact hf hv

/-! ## C72 -/

/-- `d ≤ d_max`, where `none` is `INFINITY`. -/
def Within (d : Nat) (dMax : Option Nat) : Prop := ∀ b, dMax = some b → d ≤ b

theorem leInf_iff (d : Nat) (dMax : Option Nat) : leInf d dMax = true ↔ Within d dMax := by
  cases dMax with
  | none => simp [leInf, Within]
  | some b => simp [leInf, Within]

/-- **C72**: in a tree built from the list `xs` with a metric distance, `search(w, d_max)` terminates; it
returns a nearest element of `xs` with its distance when some element is within `d_max` of `w`, and `None`
otherwise. -/
theorem C72_search (hm : IsMetric dist) {xs : List X} {t : BKTree X}
    (ht : Returns (BKTree.make dist xs) (.ok t)) (w : X) (dMax : Option Nat) :
    (Returns (t.search dist w dMax none) (.ok none) ∧ ∀ x ∈ xs, ¬ Within (dist w x) dMax) ∨
    (∃ x ∈ xs, Returns (t.search dist w dMax none) (.ok (some (x, some (dist w x)))) ∧
      Within (dist w x) dMax ∧ ∀ y ∈ xs, dist w x ≤ dist w y) := by
  obtain ⟨t0, h1, h2, h3⟩ := BKTree.make_spec hm.zero_iff xs
  have ht0 : t = t0 := by have := returns_unique ht h1; cases this; rfl
  subst ht0
  rcases h2 with ⟨rfl, rfl⟩ | hi
  · left
    exact ⟨⟨0, fun _ _ => rfl⟩, by simp⟩
  · have h0 : (0 : Nat) ∈ t.a.vertices := by rw [hi.trie.mem_vertices]; exact hi.trie.pos
    obtain ⟨r, hr, hpost⟩ := search_inv hm hi w dMax 0 h0
    have hP : ∀ x, (∃ y v, t.a.deltaWord (some 0) v = some y ∧ t.elements.get? y = some x) ↔ x ∈ xs := by
      intro x
      rw [← h3, stored_iff hi]
      constructor
      · rintro ⟨y, v, _, h⟩; exact ⟨y, h⟩
      · rintro ⟨y, h⟩
        obtain ⟨v, hv⟩ := hi.trie.surj _ ((hi.elems y).2 ⟨x, h⟩)
        exact ⟨y, v, hv, h⟩
    have hsearch : t.search dist w dMax none = t.search dist w dMax (some 0) := by
      funext fuel; unfold search; rw [hi.root]; rfl
    rw [hsearch]
    cases r with
    | error e => cases hpost
    | ok o =>
      cases o with
      | none =>
        left
        refine ⟨hr, fun x hx hw => ?_⟩
        have := hpost x ((hP x).2 hx)
        rw [← leInf_iff, this] at hw; cases hw
      | some p =>
        obtain ⟨x, d⟩ := p
        obtain ⟨p1, p2, p3, p4⟩ := hpost
        subst p2
        right
        exact ⟨x, (hP x).1 p1, hr, (leInf_iff _ _).1 p3, fun y hy => p4 y ((hP y).2 hy)⟩

/-- **C72** for the default distance, `levenshtein_distance`. -/
theorem C72_search_levenshtein {A : Type} [DecidableEq A] (xs : List (List A)) :
    ∃ t, Returns (BKTree.make levenshteinDistance xs) (.ok t) ∧ ∀ w dMax,
      (Returns (t.search levenshteinDistance w dMax none) (.ok none) ∧
        ∀ x ∈ xs, ¬ Within (levenshteinDistance w x) dMax) ∨
      (∃ x ∈ xs, Returns (t.search levenshteinDistance w dMax none) (.ok (some (x, some (levenshteinDistance w x)))) ∧
        Within (levenshteinDistance w x) dMax ∧ ∀ y ∈ xs, levenshteinDistance w x ≤ levenshteinDistance w y) := by
  obtain ⟨t, ht, _⟩ := C73_make (C68_metric (A := A)).zero_iff xs
  exact ⟨t, ht, fun w dMax => C72_search C68_metric ht w dMax⟩

/-- The discrete metric on numbers and `|x - y|` meet the hypotheses. -/
example : IsMetric (fun x y : Nat => absDiff x y) :=
  ⟨fun x y => by unfold absDiff; omega, fun x y => by unfold absDiff; omega,
    fun x y z => by unfold absDiff; omega⟩

example : (BKTree.make (fun x y : Nat => absDiff x y) [5, 8, 2, 5, 9] 10).map
      (·.map fun t => (t.elements, t.a.edges.length)) =
    some (.ok ([(0, 5), (1, 8), (2, 2), (3, 9)], 3)) := by rfl

end PyBGL
