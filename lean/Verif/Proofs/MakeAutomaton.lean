import Verif.Proofs.TrieLemmas

/-!
# `make_automaton`
-/

namespace PyBGL
open Automaton
variable {A N : Type} [DecidableEq A] [DecidableEq N]

theorem init_spec (n : Nat) : AWF (init n : Automaton A) ∧ (init n : Automaton A).vertices = List.range n ∧
    (init n : Automaton A).lastVertexId = n ∧ (∀ q a, (init n : Automaton A).delta q a = none) ∧
    (init n : Automaton A).final = [] := by
  induction n with
  | zero => exact ⟨AWF_empty, rfl, rfl, fun q a => rfl, rfl⟩
  | succ n ih =>
    obtain ⟨h1, h2, h3, h4, h5⟩ := ih
    refine ⟨AWF_addVertex h1, ?_, ?_, ?_, h5⟩
    · show (addVertex (init n)).2.vertices = _
      rw [vertices_addVertex h1, h2, h3, List.range_succ]
    · show (init n : Automaton A).lastVertexId + 1 = _; rw [h3]
    · intro q a
      show (addVertex (init n)).2.delta q a = _
      rw [delta_addVertex h1, h4]

theorem mem_vertexNames (le : N → N → Bool) (ts : List (N × N × A)) (n : N) :
    n ∈ vertexNames le ts ↔ ∃ t ∈ ts, t.1 = n ∨ t.2.1 = n := by
  unfold vertexNames
  rw [List.mem_mergeSort, mem_mkSet, List.mem_append, List.mem_map, List.mem_map]
  constructor
  · rintro (⟨t, h, e⟩ | ⟨t, h, e⟩)
    · exact ⟨t, h, .inl e⟩
    · exact ⟨t, h, .inr e⟩
  · rintro ⟨t, h, e | e⟩
    · exact .inl ⟨t, h, e⟩
    · exact .inr ⟨t, h, e⟩

theorem nodup_vertexNames (le : N → N → Bool) (ts : List (N × N × A)) : (vertexNames le ts).Nodup := by
  unfold vertexNames
  exact (List.mergeSort_perm _ _).nodup_iff.2 (nodup_mkSet _)

theorem nameIndex_mem {names : List N} {n : N} (h : n ∈ names) : nameIndex names n = .ok (names.idxOf n) := by
  unfold nameIndex; rw [if_pos h]

theorem makeTransitions_spec (names : List N) (ts : List (N × N × A)) (dne : List (N × N × A))
    (hn : ∀ t ∈ ts, t.1 ∈ names ∧ t.2.1 ∈ names) (hdone : ∀ t ∈ dne, t.1 ∈ names)
    (hdet : ((dne ++ ts).map fun t => (t.1, t.2.2)).Nodup) (g : Automaton A) (hg : AWF g)
    (hv : g.vertices = List.range names.length)
    (hd : ∀ q a r, g.delta q a = some r ↔ ∃ t ∈ dne, names.idxOf t.1 = q ∧ t.2.2 = a ∧ names.idxOf t.2.1 = r) :
    ∃ g', ts.foldlM (makeTransition names) g = .ok g' ∧ AWF g' ∧ g'.vertices = List.range names.length ∧
      g'.q0 = g.q0 ∧ g'.final = g.final ∧
      ∀ q a r, g'.delta q a = some r ↔
        ∃ t ∈ dne ++ ts, names.idxOf t.1 = q ∧ t.2.2 = a ∧ names.idxOf t.2.1 = r := by
  induction ts generalizing dne g with
  | nil => exact ⟨g, rfl, hg, hv, rfl, rfl, by simpa using hd⟩
  | cons t ts ih =>
    obtain ⟨h1, h2⟩ := hn t (by simp)
    have hq : names.idxOf t.1 ∈ g.vertices := by
      rw [hv, List.mem_range]; exact List.idxOf_lt_length_of_mem h1
    have hnone : g.delta (names.idxOf t.1) t.2.2 = none := by
      cases hx : g.delta (names.idxOf t.1) t.2.2 with
      | none => rfl
      | some r =>
        obtain ⟨t', h', e1, e2, _⟩ := (hd _ _ _).1 hx
        have : t'.1 = t.1 := (List.idxOf_inj (hdone t' h')).1 e1
        rw [List.map_append, List.nodup_append] at hdet
        have := hdet.2.2 (t'.1, t'.2.2) (List.mem_map.2 ⟨t', h', rfl⟩) (t.1, t.2.2) (by simp)
        simp [*] at this
    have hstep : makeTransition names g t = .ok (g.setDelta (names.idxOf t.1) (names.idxOf t.2.1) t.2.2) := by
      unfold makeTransition
      rw [nameIndex_mem h1, nameIndex_mem h2]
      simp only [bind, Except.bind, addEdge_of_free (.inl hnone) hq]
    obtain ⟨g', i1, i2, i3, i4, i5, i6⟩ := ih (dne ++ [t]) (fun t' h' => hn t' (by simp [h']))
      (by
        intro t' h'
        rcases List.mem_append.1 h' with h' | h'
        · exact hdone _ h'
        · rw [List.mem_singleton] at h'; subst h'; exact h1)
      (by simpa using hdet) _ (AWF_setDelta hg (names.idxOf t.2.1) t.2.2 hq)
      (by rw [vertices_setDelta _ _ hq, hv]) (by
        intro q a r
        rw [delta_setDelta]
        simp only [List.mem_append, List.mem_singleton]
        by_cases hc : names.idxOf t.1 = q ∧ t.2.2 = a
        · rw [if_pos hc]
          obtain ⟨rfl, rfl⟩ := hc
          constructor
          · intro h; injection h with h; exact ⟨t, .inr rfl, rfl, rfl, h⟩
          · rintro ⟨t', h' | rfl, e1, e2, e3⟩
            · have := (hd _ _ _).2 ⟨t', h', e1, e2, rfl⟩
              rw [hnone] at this; cases this
            · rw [e3]
        · rw [if_neg hc, hd]
          constructor
          · rintro ⟨t', h', e⟩; exact ⟨t', .inl h', e⟩
          · rintro ⟨t', h' | rfl, e1, e2, e3⟩
            · exact ⟨t', h', e1, e2, e3⟩
            · exact absurd ⟨e1, e2⟩ hc)
    refine ⟨g', ?_, i2, i3, i4, i5, ?_⟩
    · rw [List.foldlM_cons, hstep]; exact i1
    · simpa using i6

theorem makeFinals_spec (names : List N) (vfinal : N → Bool) (qs : List Nat) (g : Automaton A)
    (hqs : ∀ q ∈ qs, q < names.length) :
    ∃ g', qs.foldlM (makeFinal names vfinal) g = .ok g' ∧ g'.adj = g.adj ∧ g'.q0 = g.q0 ∧
      ∀ q, g'.isFinal q = true ↔ g.isFinal q = true ∨ (q ∈ qs ∧ ∃ n, names[q]? = some n ∧ vfinal n = true) := by
  induction qs generalizing g with
  | nil => exact ⟨g, rfl, rfl, rfl, by simp⟩
  | cons p qs ih =>
    have hp := hqs p (by simp)
    have hget : names[p]? = some names[p] := by simp [hp]
    obtain ⟨g', h1, h2, h3, h4⟩ := ih (if vfinal names[p] then g.setFinal p else g)
      (fun q hq => hqs q (by simp [hq]))
    refine ⟨g', ?_, ?_, ?_, ?_⟩
    · rw [List.foldlM_cons]
      have : makeFinal names vfinal g p = .ok (if vfinal names[p] then g.setFinal p else g) := by
        unfold makeFinal; rw [hget]
      rw [this]; exact h1
    · rw [h2]; split <;> rfl
    · rw [h3]; split <;> rfl
    · intro q
      rw [h4, List.mem_cons]
      by_cases hf : vfinal names[p] = true
      · rw [if_pos hf, isFinal_setFinal]
        by_cases hpq : p = q
        · subst hpq; simp [hget, hf]
        · rw [if_neg hpq]
          constructor
          · rintro (h | h)
            · exact .inl h
            · exact .inr ⟨.inr h.1, h.2⟩
          · rintro (h | ⟨h | h, h'⟩)
            · exact .inl h
            · exact absurd h.symm hpq
            · exact .inr ⟨h, h'⟩
      · rw [if_neg hf]
        constructor
        · rintro (h | h)
          · exact .inl h
          · exact .inr ⟨.inr h.1, h.2⟩
        · rintro (h | ⟨rfl | h, h'⟩)
          · exact .inl h
          · obtain ⟨n, hn, hv⟩ := h'
            rw [hget] at hn; injection hn with hn
            rw [hn] at hf; exact absurd hv hf
          · exact .inr ⟨h, h'⟩

end PyBGL
