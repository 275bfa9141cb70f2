import Verif.Proofs.Pbfs
import Mathlib.Data.List.Induction

/-!
# Parallel breadth-first search and words
-/

namespace PyBGL
variable {A σ : Type} [DecidableEq A]

theorem Automaton.after_iff {g : Automaton A} (hg : AWF g) {w : List A} {q : Option Nat} : g.After w q ↔ g.deltaWord g.initial w = q := by
  unfold initial
  cases h0 : g.q0 with
  | none =>
    rw [deltaWord_none]
    cases q with
    | none => simp [After, h0]
    | some r => simp [After, h0]
  | some q₀ =>
    cases q with
    | none =>
      simp only [After, h0, Option.some.injEq]
      constructor
      · intro h
        cases e : g.deltaWord (some q₀) w with
        | none => rfl
        | some r => exact absurd ((deltaWord_iff hg).mp e) (h q₀ r rfl)
      · rintro h q r rfl hr
        rw [(deltaWord_iff hg).mpr hr] at h
        cases h
    | some r =>
      simp only [After, h0, Option.some.injEq, exists_eq_left', deltaWord_iff hg]

theorem Automaton.lang_iff_final {g : Automaton A} (hg : AWF g) (w : List A) : g.Lang w ↔ g.isFinalO (g.deltaWord g.initial w) = true := by
  unfold Lang initial
  cases h0 : g.q0 with
  | none => rw [deltaWord_none]; simp [isFinalO]
  | some q₀ =>
    cases e : g.deltaWord (some q₀) w with
    | none =>
      simp only [isFinalO, Bool.false_eq_true, iff_false]
      rintro ⟨q, f, h, hp, _⟩
      cases h
      rw [(deltaWord_iff hg).mpr hp] at e
      cases e
    | some r =>
      simp only [isFinalO]
      constructor
      · rintro ⟨q, f, h, hp, hf⟩
        cases h
        rw [(deltaWord_iff hg).mpr hp] at e
        cases e
        exact hf
      · intro hf
        exact ⟨q₀, r, rfl, (deltaWord_iff hg).mp e, hf⟩

namespace Pbfs
variable {g1 g2 : Automaton A}

/-- The pair reached by a word from the initial states. -/
def pairOf (g1 g2 : Automaton A) (w : List A) : StatePair := (g1.deltaWord g1.initial w, g2.deltaWord g2.initial w)

theorem pairOf_snoc (w : List A) (a : A) : pairOf g1 g2 (w ++ [a]) = nxt g1 g2 (pairOf g1 g2 w) a := by
  simp [pairOf, nxt, Automaton.deltaWord_snoc]

theorem nxt_none (a : A) : nxt g1 g2 (none, none) a = (none, none) := rfl

theorem pairOf_init_ne {w : List A} {a : A} (h : pairOf g1 g2 (w ++ [a]) ≠ (none, none)) : pairOf g1 g2 w ≠ (none, none) := by
  intro e
  rw [pairOf_snoc, e, nxt_none] at h
  exact h rfl

/-- The pairs met by a search which pushes everything. -/
theorem mem_examined {tr : List (PEvent A)} (h : RunFacts g1 g2 (fun _ => true) [] [(g1.initial, g2.initial)] tr) (p : StatePair) :
    p ∈ examined tr ↔ ∃ w, p = pairOf g1 g2 w ∧ (w = [] ∨ p ≠ (none, none)) := by
  have hfifo : examined tr = (g1.initial, g2.initial) :: discovered tr := by rw [h.fifo]; simp
  constructor
  · intro hp
    refine h.ind (fun p => ∃ w, p = pairOf g1 g2 w ∧ (w = [] ∨ p ≠ (none, none))) ?_ ?_ p hp
    · intro p hp
      simp at hp
      exact ⟨[], by simp [hp, pairOf], .inl rfl⟩
    · rintro p ⟨w, rfl, _⟩ a ha _
      exact ⟨w ++ [a], by rw [pairOf_snoc], .inr (mem_syms.mp ha)⟩
  · rintro ⟨w, rfl, hw⟩
    induction w using List.reverseRecOn with
    | nil => rw [hfifo]; simp [pairOf]
    | append_singleton w a ih =>
      have hne : pairOf g1 g2 (w ++ [a]) ≠ (none, none) := by
        rcases hw with h | h
        · simp at h
        · exact h
      have hp := ih (.inr (pairOf_init_ne hne))
      rw [pairOf_snoc] at hne ⊢
      have ha := mem_syms.mpr hne
      rcases h.closed _ hp a ha with h' | h' | h'
      · exact absurd rfl h'
      · rw [hfifo]; exact List.mem_cons_of_mem _ h'
      · exact h'

end Pbfs
end PyBGL
