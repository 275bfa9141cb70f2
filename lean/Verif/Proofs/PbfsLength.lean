import Verif.Proofs.PbfsWords
import Mathlib.Data.Finset.Card
import Mathlib.Data.Finset.Prod

/-!
# Long words that lead to a pair of states can be cut
-/

namespace PyBGL
variable {A : Type} [DecidableEq A] {g1 g2 : Automaton A}

/-- The state, if it is a vertex. -/
private def clip (g : Automaton A) (q : Option Nat) : Option Nat := q.filter (· ∈ g.vertices)

private theorem deltaWord_clip (g : Automaton A) (q : Option Nat) (a : A) (v : List A) : g.deltaWord (clip g q) (a :: v) = g.deltaWord q (a :: v) := by
  cases q with
  | none => rfl
  | some q =>
    by_cases h : q ∈ g.vertices
    · simp [clip, Option.filter, h]
    · have hd : g.delta q a = none := by
        have : Dict.get? g.adj q = none := (Dict.get?_eq_none_iff _ _).mpr h
        simp [Automaton.delta, Dict.getD, this]
      simp [clip, Option.filter, h, Automaton.deltaWord, hd]

private theorem deltaWord_congr {g : Automaton A} {q r : Option Nat} (h : clip g q = clip g r) {v : List A} (hv : v ≠ []) : g.deltaWord q v = g.deltaWord r v := by
  cases v with
  | nil => exact absurd rfl hv
  | cons a v => rw [← deltaWord_clip g q, ← deltaWord_clip g r, h]

omit [DecidableEq A] in
private theorem clip_mem (g : Automaton A) (q : Option Nat) : clip g q ∈ insert none (g.vertices.toFinset.image some) := by
  cases q with
  | none => simp [clip]
  | some q => by_cases h : q ∈ g.vertices <;> simp [clip, Option.filter, h]

omit [DecidableEq A] in
private theorem card_states (g : Automaton A) : (insert none (g.vertices.toFinset.image some)).card ≤ g.numVertices + 1 :=
  (Finset.card_insert_le _ _).trans (Nat.succ_le_succ (Finset.card_image_le.trans (List.toFinset_card_le _)))

private theorem shorten (P : StatePair → Bool) (hP : P (none, none) = false) {w : List A} (hw : P (Pbfs.pairOf g1 g2 w) = true)
    (hl : (g1.numVertices + 1) * (g2.numVertices + 1) ≤ w.length) : ∃ w', P (Pbfs.pairOf g1 g2 w') = true ∧ w'.length < w.length := by
  by_contra hno
  let f : Nat → StatePair := fun i => (clip g1 (g1.deltaWord g1.initial (w.take i)), clip g2 (g2.deltaWord g2.initial (w.take i)))
  let T : Finset StatePair := insert none (g1.vertices.toFinset.image some) ×ˢ insert none (g2.vertices.toFinset.image some)
  have hdrop : ∀ i, i < w.length → w.drop i ≠ [] := fun i hi he => by
    have := congrArg List.length he
    simp at this
    omega
  have hinj : ∀ i j, i < j → j < w.length → f i ≠ f j := by
    intro i j hij hj he
    obtain ⟨e1, e2⟩ := Prod.mk.inj he
    refine hno ⟨w.take i ++ w.drop j, ?_, ?_⟩
    · have : Pbfs.pairOf g1 g2 (w.take i ++ w.drop j) = Pbfs.pairOf g1 g2 w := by
        conv_rhs => rw [← List.take_append_drop j w]
        simp only [Pbfs.pairOf, Automaton.deltaWord_append]
        rw [deltaWord_congr e1 (hdrop j hj), deltaWord_congr e2 (hdrop j hj)]
      rw [this]; exact hw
    · simp only [List.length_append, List.length_take, List.length_drop]
      omega
  have hmaps : ∀ i ∈ Finset.range w.length, f i ∈ T.erase (none, none) := by
    intro i hi
    have hi' := Finset.mem_range.mp hi
    refine Finset.mem_erase.mpr ⟨fun he => ?_, Finset.mem_product.mpr ⟨clip_mem _ _, clip_mem _ _⟩⟩
    obtain ⟨e1, e2⟩ := Prod.mk.inj he
    have : Pbfs.pairOf g1 g2 w = (none, none) := by
      rw [← List.take_append_drop i w]
      simp only [Pbfs.pairOf, Automaton.deltaWord_append]
      rw [deltaWord_congr (q := g1.deltaWord g1.initial (w.take i)) (r := none) (by rw [e1]; rfl) (hdrop i hi'), deltaWord_congr (q := g2.deltaWord g2.initial (w.take i)) (r := none) (by rw [e2]; rfl) (hdrop i hi')]
      simp
    rw [this, hP] at hw
    cases hw
  have hc := Finset.card_le_card_of_injOn f hmaps (fun i hi j hj he => by
    have hi' := Finset.mem_range.mp (Finset.mem_coe.mp hi)
    have hj' := Finset.mem_range.mp (Finset.mem_coe.mp hj)
    rcases Nat.lt_trichotomy i j with h | h | h
    · exact absurd he (hinj i j h hj')
    · exact h
    · exact absurd he.symm (hinj j i h hi'))
  have hT : T.card ≤ (g1.numVertices + 1) * (g2.numVertices + 1) := by
    rw [Finset.card_product]
    exact Nat.mul_le_mul (card_states g1) (card_states g2)
  have hm : ((none, none) : StatePair) ∈ T := Finset.mem_product.mpr ⟨Finset.mem_insert_self _ _, Finset.mem_insert_self _ _⟩
  have := Finset.card_erase_lt_of_mem hm
  rw [Finset.card_range] at hc
  omega

/-- If some word leads to a pair that satisfies `P`, so does one shorter than the number of pairs of states, undefined ones included. -/
theorem Pbfs.exists_short (P : StatePair → Bool) (hP : P (none, none) = false) : ∀ (n : Nat) (w : List A), w.length ≤ n → P (pairOf g1 g2 w) = true →
    ∃ w', P (pairOf g1 g2 w') = true ∧ w'.length < (g1.numVertices + 1) * (g2.numVertices + 1)
  | n, w, hn, hw => by
    by_cases hl : w.length < (g1.numVertices + 1) * (g2.numVertices + 1)
    · exact ⟨w, hw, hl⟩
    · obtain ⟨w', a, b⟩ := shorten P hP hw (Nat.le_of_not_lt hl)
      cases n with
      | zero => omega
      | succ n => exact exists_short P hP n w' (by omega) a

end PyBGL
