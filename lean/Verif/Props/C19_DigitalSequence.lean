import Verif.Model.DigitalSequence
import Verif.Proofs.PyLemmas

/-!
# C19: `DigitalSequence`
-/

namespace PyBGL
open DigitalSequence
variable {A : Type} [DecidableEq A]

theorem DigitalSequence.charAt_of {w : List A} {q : Nat} {a : A} (h : w[q]? = some a) :
    charAt w q = .ok a := by unfold charAt; rw [h]

theorem DigitalSequence.deltaWord_spec (w x : List A) (q : Nat) (hq : q ≤ w.length) :
    deltaWord w (some q) x = .ok (if x <+: w.drop q then some (q + x.length) else none) := by
  induction x generalizing q with
  | nil => simp [deltaWord]
  | cons a x ih =>
    unfold deltaWord delta
    by_cases hf : q = w.length
    · subst hf
      simp only [isFinal, bind, Except.bind, decide_true, if_true, List.drop_length]
      cases x <;> simp [deltaWord]
    · have hlt : q < w.length := by omega
      have hg : w[q]? = some w[q] := by simp [hlt]
      simp only [isFinal, hf, decide_false, Bool.false_eq_true, if_false, charAt_of hg, bind, Except.bind]
      simp only [List.drop_eq_getElem_cons hlt, List.cons_prefix_cons]
      by_cases hab : w[q] = a
      · rw [if_pos hab, ih (q + 1) (by omega)]
        congr 1
        by_cases hp : x <+: w.drop (q + 1)
        · rw [if_pos hp, if_pos ⟨hab.symm, hp⟩]; simp; omega
        · rw [if_neg hp, if_neg (fun h => hp h.2)]
      · rw [if_neg hab, if_neg (fun h => hab h.1.symm)]
        cases x <;> rfl

/-- **C19**: `DigitalSequence(w).accepts(x)` never raises and is `True` iff `x = w`. -/
theorem C19_accepts (w x : List A) : accepts w x = .ok (decide (x = w)) := by
  unfold accepts initial
  rw [DigitalSequence.deltaWord_spec w x 0 (Nat.zero_le _)]
  simp only [bind, Except.bind, List.drop_zero, Nat.zero_add]
  by_cases hp : x <+: w
  · rw [if_pos hp]
    simp only [isFinal, Except.ok.injEq, decide_eq_decide]
    exact ⟨fun h => hp.eq_of_length h, fun h => by rw [h]⟩
  · rw [if_neg hp]
    simp only [Except.ok.injEq]
    symm; rw [decide_eq_false_iff_not]
    rintro rfl; exact hp (List.prefix_refl _)

theorem mapM_ok {α β : Type} (f : α → Except PyErr β) (h : α → β) (l : List α)
    (hf : ∀ a ∈ l, f a = .ok (h a)) : l.mapM f = .ok (l.map h) := by
  induction l with
  | nil => rfl
  | cons a l ih =>
    rw [List.mapM_cons, hf a (by simp), ih (fun b hb => hf b (by simp [hb]))]
    rfl

/-- **C19**: the states are `0..len(w)`, the edges spell `w`, and `out_edges`, `in_edges`, `sigma`,
`num_edges` and `num_vertices` agree with `edges()` and `vertices()`. -/
theorem C19_structure (w : List A) :
    (∀ q, q ∈ vertices w ↔ q ≤ w.length) ∧ (vertices w).length = numVertices w ∧
    ∃ es, edges w = .ok es ∧ es.length = numEdges w ∧ es.map (·.distinguisher) = w ∧
      (∀ e, e ∈ es ↔ e.target = e.source + 1 ∧ w[e.source]? = some e.distinguisher) ∧
      (∀ q ∈ vertices w, ∃ os is ss, outEdges w q = .ok os ∧ inEdges w q = .ok is ∧ sigma w q = .ok ss ∧
        (∀ e, e ∈ os ↔ e ∈ es ∧ e.source = q) ∧ (∀ e, e ∈ is ↔ e ∈ es ∧ e.target = q) ∧
        (∀ a, a ∈ ss ↔ ∃ e ∈ es, e.source = q ∧ e.distinguisher = a)) ∧
      (∀ a, a ∈ alphabet w ↔ ∃ e ∈ es, e.distinguisher = a) := by
  have hv : ∀ q, q ∈ vertices w ↔ q ≤ w.length := by
    intro q; unfold vertices; rw [List.mem_range]; omega
  refine ⟨hv, by simp [vertices, numVertices], ?_⟩
  have hE : edges w = .ok ((List.range w.length).pmap
      (fun q hq => (⟨q, q + 1, w[q]⟩ : EdgeDesc A)) (fun q hq => List.mem_range.1 hq)) := by
    unfold edges
    have : ∀ l : List Nat, ∀ h : (∀ q ∈ l, q < w.length),
        (l.mapM fun q => (do
          let a ← charAt w q
          .ok ⟨q, q + 1, a⟩ : Except PyErr (EdgeDesc A))) =
        .ok (l.pmap (fun q hq => (⟨q, q + 1, w[q]⟩ : EdgeDesc A)) h) := by
      intro l
      induction l with
      | nil => intro _; rfl
      | cons q l ih =>
        intro h
        have hq := h q (by simp)
        rw [List.mapM_cons, charAt_of (a := w[q]) (by simp [hq]), ih (fun p hp => h p (by simp [hp]))]
        rfl
    exact this _ _
  generalize hes : (List.range w.length).pmap
      (fun q hq => (⟨q, q + 1, w[q]⟩ : EdgeDesc A)) (fun q hq => List.mem_range.1 hq) = es at hE
  have hmem : ∀ e, e ∈ es ↔ e.target = e.source + 1 ∧ w[e.source]? = some e.distinguisher := by
    rintro ⟨q, r, a⟩
    rw [← hes, List.mem_pmap]
    simp only [EdgeDesc.mk.injEq]
    constructor
    · rintro ⟨q', hq, rfl, rfl, rfl⟩
      exact ⟨rfl, by simp⟩
    · rintro ⟨rfl, h⟩
      obtain ⟨hq, rfl⟩ := List.getElem?_eq_some_iff.1 h
      exact ⟨q, List.mem_range.2 hq, rfl, rfl, rfl⟩
  refine ⟨es, hE, ?_, ?_, hmem, ?_, ?_⟩
  · rw [← hes]; simp [numEdges]
  · rw [← hes, List.map_pmap]
    apply List.ext_getElem
    · simp
    · intro i h1 h2; simp
  · intro q hq
    rw [hv] at hq
    have hout : ∃ os ss, outEdges w q = .ok os ∧ sigma w q = .ok ss ∧
        (∀ e, e ∈ os ↔ e ∈ es ∧ e.source = q) ∧
        (∀ a, a ∈ ss ↔ ∃ e ∈ es, e.source = q ∧ e.distinguisher = a) := by
      unfold outEdges sigma
      by_cases hf : q = w.length
      · subst hf
        refine ⟨[], [], by simp [isFinal], by simp [isFinal], ?_, ?_⟩
        · intro e
          simp only [List.not_mem_nil, false_iff, hmem]
          rintro ⟨⟨_, h⟩, h2⟩; rw [h2] at h; simp at h
        · intro a
          simp only [List.not_mem_nil, false_iff, hmem]
          rintro ⟨e, ⟨_, h⟩, h2, _⟩; rw [h2] at h; simp at h
      · have hlt : q < w.length := by omega
        have hg : w[q]? = some w[q] := by simp [hlt]
        refine ⟨[⟨q, q + 1, w[q]⟩], [w[q]], by simp [isFinal, hf, charAt_of hg, bind, Except.bind],
          by simp [isFinal, hf, charAt_of hg, bind, Except.bind], ?_, ?_⟩
        · rintro ⟨q', r, a⟩
          simp only [List.mem_singleton, EdgeDesc.mk.injEq, hmem]
          constructor
          · rintro ⟨rfl, rfl, rfl⟩; exact ⟨⟨rfl, hg⟩, rfl⟩
          · rintro ⟨⟨rfl, h⟩, rfl⟩; rw [hg] at h; cases h; exact ⟨rfl, rfl, rfl⟩
        · intro a
          simp only [List.mem_singleton, hmem]
          constructor
          · rintro rfl; exact ⟨⟨q, q + 1, w[q]⟩, ⟨rfl, hg⟩, rfl, rfl⟩
          · rintro ⟨e, ⟨_, h⟩, rfl, rfl⟩; rw [hg] at h; injection h with h; exact h.symm
    have hin : ∃ is, inEdges w q = .ok is ∧ (∀ e, e ∈ is ↔ e ∈ es ∧ e.target = q) := by
      unfold inEdges
      rcases q with _ | q
      · refine ⟨[], by simp [isInitial], ?_⟩
        intro e
        simp only [List.not_mem_nil, false_iff, hmem]
        rintro ⟨⟨h, _⟩, h2⟩; rw [h2] at h; omega
      · have hlt : q < w.length := by omega
        have hg : w[q]? = some w[q] := by simp [hlt]
        refine ⟨[⟨q, q + 1, w[q]⟩], by simp [isInitial, charAt_of hg, bind, Except.bind], ?_⟩
        rintro ⟨q', r, a⟩
        simp only [List.mem_singleton, EdgeDesc.mk.injEq, hmem]
        constructor
        · rintro ⟨rfl, rfl, rfl⟩; exact ⟨⟨rfl, hg⟩, rfl⟩
        · rintro ⟨⟨h1, h⟩, rfl⟩
          have : q' = q := by omega
          subst this
          rw [hg] at h; cases h; exact ⟨rfl, rfl, rfl⟩
    obtain ⟨os, ss, h1, h2, h3, h4⟩ := hout
    obtain ⟨is, h5, h6⟩ := hin
    exact ⟨os, is, ss, h1, h5, h2, h3, h6, h4⟩
  · intro a
    unfold alphabet
    rw [mem_mkSet]
    simp only [hmem]
    constructor
    · intro h
      obtain ⟨q, hq⟩ := List.getElem?_of_mem h
      exact ⟨⟨q, q + 1, a⟩, ⟨rfl, hq⟩, rfl⟩
    · rintro ⟨e, ⟨_, h⟩, rfl⟩
      exact List.mem_of_getElem? h

/-- **C19**: a number that is not a state is refused with `IndexError` by the methods that look at the word. -/
theorem C19_out_of_range (w : List A) {q : Nat} (h : w.length < q) (a : A) :
    q ∉ vertices w ∧ isFinal w q = false ∧ delta w (some q) a = .error .indexError ∧ outEdges w q = .error .indexError ∧ inEdges w q = .error .indexError ∧
      sigma w q = .error .indexError := by
  have h1 : isFinal w q = false := by simp [isFinal]; omega
  have h2 : w[q]? = none := by simp; omega
  have h3 : w[q - 1]? = none := by simp; omega
  have h4 : isInitial q = false := by simp [isInitial]; omega
  refine ⟨by simp [vertices]; omega, h1, ?_, ?_, ?_, ?_⟩ <;>
    simp [delta, outEdges, inEdges, sigma, charAt, h1, h2, h3, h4, bind, Except.bind]

example : accepts ['a', 'b'] ['a', 'b'] = .ok true ∧ accepts ['a', 'b'] ['a'] = .ok false ∧
    accepts ['a', 'b'] ['a', 'b', 'b'] = .ok false ∧
    edges ['a', 'b'] = .ok [⟨0, 1, 'a'⟩, ⟨1, 2, 'b'⟩] := ⟨rfl, rfl, rfl, rfl⟩

end PyBGL
