import Verif.Props.C23_MakeAutomaton
import Verif.Proofs.HopcroftBuild

/-!
# C23: states and transitions made by `make_automaton` and `make_incidence_automaton`
-/

namespace PyBGL
open Automaton
variable {A N : Type} [DecidableEq A] [DecidableEq N]

theorem makeFinals_lastVertexId (names : List N) (vfinal : N → Bool) : ∀ (qs : List Nat) (g g' : Automaton A),
    qs.foldlM (makeFinal names vfinal) g = .ok g' → g'.lastVertexId = g.lastVertexId := by
  intro qs
  induction qs with
  | nil => intro g g' h; cases h; rfl
  | cons p qs ih =>
    intro g g' h
    rw [List.foldlM_cons, except_bind_ok] at h
    obtain ⟨g2, ha, hb⟩ := h
    rw [ih _ _ hb]
    unfold makeFinal at ha
    split at ha
    · cases ha
    · cases ha; split <;> rfl

theorem imakeTransitions_spec (names : List N) (ts : List (N × N × A)) (dne : List (N × N × A))
    (hn : ∀ t ∈ ts, t.1 ∈ names ∧ t.2.1 ∈ names) (hdone : ∀ t ∈ dne, t.1 ∈ names)
    (hdet : ((dne ++ ts).map fun t => (t.1, t.2.2)).Nodup) (m : IAutomaton A) (hm : m.WF)
    (hv : m.a.vertices = List.range names.length)
    (hd : ∀ q a r, m.a.delta q a = some r ↔ ∃ t ∈ dne, names.idxOf t.1 = q ∧ t.2.2 = a ∧ names.idxOf t.2.1 = r) :
    ∃ m', ts.foldlM (IAutomaton.makeTransition names) m = .ok m' ∧ m'.WF ∧ ts.foldlM (makeTransition names) m.a = .ok m'.a := by
  induction ts generalizing dne m with
  | nil => exact ⟨m, rfl, hm, rfl⟩
  | cons t ts ih =>
    obtain ⟨h1, h2⟩ := hn t (by simp)
    have hq : names.idxOf t.1 ∈ m.a.vertices := by
      rw [hv, List.mem_range]; exact List.idxOf_lt_length_of_mem h1
    have hr : names.idxOf t.2.1 ∈ m.a.vertices := by
      rw [hv, List.mem_range]; exact List.idxOf_lt_length_of_mem h2
    have hnone : m.a.delta (names.idxOf t.1) t.2.2 = none := by
      cases hx : m.a.delta (names.idxOf t.1) t.2.2 with
      | none => rfl
      | some r =>
        obtain ⟨t', h', e1, e2, _⟩ := (hd _ _ _).1 hx
        have : t'.1 = t.1 := (List.idxOf_inj (hdone t' h')).1 e1
        rw [List.map_append, List.nodup_append] at hdet
        have := hdet.2.2 (t'.1, t'.2.2) (List.mem_map.2 ⟨t', h', rfl⟩) (t.1, t.2.2) (by simp)
        simp [*] at this
    have hstep : makeTransition names m.a t = .ok (m.a.setDelta (names.idxOf t.1) (names.idxOf t.2.1) t.2.2) := by
      unfold makeTransition
      rw [nameIndex_mem h1, nameIndex_mem h2]
      simp only [bind, Except.bind, addEdge_of_free (.inl hnone) hq]
    obtain ⟨m', k1, k2, k3⟩ := Hopcroft.addEdge_new hm hnone hq hr
    have hstep' : IAutomaton.makeTransition names m t = .ok m' := by
      unfold IAutomaton.makeTransition
      rw [nameIndex_mem h1, nameIndex_mem h2]
      simp only [bind, Except.bind]
      cases hx : m.addEdge (names.idxOf t.1) (names.idxOf t.2.1) t.2.2 with
      | error e => rw [hx] at k1; cases k1
      | ok x => rw [hx] at k1; cases k1; rfl
    obtain ⟨m'', i1, i2, i3⟩ := ih (dne ++ [t]) (fun t' h' => hn t' (by simp [h']))
      (by
        intro t' h'
        rcases List.mem_append.1 h' with h' | h'
        · exact hdone _ h'
        · rw [List.mem_singleton] at h'; subst h'; exact h1)
      (by simpa using hdet) m' k2
      (by rw [k3, vertices_setDelta _ _ hq, hv]) (by
        intro q a r
        rw [k3, delta_setDelta]
        simp only [List.mem_append, List.mem_singleton]
        by_cases hc : names.idxOf t.1 = q ∧ t.2.2 = a
        · rw [if_pos hc]
          obtain ⟨rfl, rfl⟩ := hc
          constructor
          · intro h; injection h with h; exact ⟨t, .inr rfl, rfl, rfl, h⟩
          · rintro ⟨t', h' | rfl, e1, e2, e3⟩
            · have := (hd _ _ _).2 ⟨t', h', e1, e2, rfl⟩
              rw [hnone] at this; cases this
            · rw [e3]
        · rw [if_neg hc, hd]
          constructor
          · rintro ⟨t', h', e⟩; exact ⟨t', .inl h', e⟩
          · rintro ⟨t', h' | rfl, e1, e2, e3⟩
            · exact ⟨t', h', e1, e2, e3⟩
            · exact absurd ⟨e1, e2⟩ hc)
    refine ⟨m'', ?_, i2, ?_⟩
    · rw [List.foldlM_cons, hstep']; exact i1
    · rw [List.foldlM_cons, hstep, ← k3]; exact i3

theorem IAutomaton.WF.congr {m m' : IAutomaton A} (h : m.WF) (h1 : m'.a.adj = m.a.adj) (h2 : m'.a.lastVertexId = m.a.lastVertexId)
    (h3 : m'.inAdj = m.inAdj) : m'.WF := by
  have hd : ∀ q a, m'.a.delta q a = m.a.delta q a := by intro q a; rw [delta_eq, delta_eq, h1]
  have hv : m'.a.vertices = m.a.vertices := by unfold vertices; rw [h1]
  refine ⟨Hopcroft.AWF.congr h.out h1 h2, by rw [h3]; exact h.inn, ?_, ?_⟩
  · intro u; rw [h3, hv]; exact h.keys u
  · intro q r a; rw [h3, hd]; exact h.mirror q r a

theorem imakeFinals_spec (names : List N) (vfinal : N → Bool) (qs : List Nat) (m : IAutomaton A) (hm : m.WF) {g : Automaton A}
    (h : qs.foldlM (makeFinal names vfinal) m.a = .ok g) :
    ∃ m', qs.foldlM (IAutomaton.makeFinal names vfinal) m = .ok m' ∧ m'.WF ∧ m'.a = g := by
  induction qs generalizing m with
  | nil => cases h; exact ⟨m, rfl, hm, rfl⟩
  | cons q qs ih =>
    rw [List.foldlM_cons, except_bind_ok] at h
    obtain ⟨g1, h1, h2⟩ := h
    unfold makeFinal at h1
    cases hn : names[q]? with
    | none => rw [hn] at h1; cases h1
    | some n =>
      rw [hn] at h1
      cases h1
      have hm' : (if vfinal n then { m with a := m.a.setFinal q } else m : IAutomaton A).WF := by
        split
        · exact hm.congr rfl rfl rfl
        · exact hm
      obtain ⟨m', k1, k2, k3⟩ := ih (if vfinal n then { m with a := m.a.setFinal q } else m) hm' (by
        rw [← h2]; congr 1; split <;> rfl)
      refine ⟨m', ?_, k2, k3⟩
      rw [List.foldlM_cons]
      have : IAutomaton.makeFinal names vfinal m q = .ok (if vfinal n then { m with a := m.a.setFinal q } else m) := by
        unfold IAutomaton.makeFinal; rw [hn]
      rw [this]; exact k1

/-- What `make_automaton` and `make_incidence_automaton` return. -/
theorem make_both (le : N → N → Bool) (ts : List (N × N × A)) (q0n : N) (vfinal : N → Bool)
    (hdet : (ts.map fun t => (t.1, t.2.2)).Nodup) (h0 : ∃ t ∈ ts, t.1 = q0n ∨ t.2.1 = q0n) :
    ∃ g m, makeAutomaton le ts q0n vfinal = .ok g ∧ IAutomaton.makeIncidenceAutomaton le ts q0n vfinal = .ok m ∧ m.a = g ∧ m.WF ∧
      g.vertices = List.range (vertexNames le ts).length ∧ g.initial = some ((vertexNames le ts).idxOf q0n) ∧
      (∀ q, g.isFinal q = true ↔ ∃ n, (vertexNames le ts)[q]? = some n ∧ vfinal n = true) ∧
      ∀ q a r, g.delta q a = some r ↔ ∃ t ∈ ts, (vertexNames le ts).idxOf t.1 = q ∧ t.2.2 = a ∧ (vertexNames le ts).idxOf t.2.1 = r := by
  obtain ⟨i1, i2, i3, i4, i5⟩ := init_spec (A := A) (vertexNames le ts).length
  obtain ⟨j1, j2⟩ := Hopcroft.iinit_spec (A := A) (vertexNames le ts).length
  have hnm := mem_vertexNames le ts
  have hin : ∀ t ∈ ts, t.1 ∈ vertexNames le ts ∧ t.2.1 ∈ vertexNames le ts :=
    fun t ht => ⟨(hnm _).2 ⟨t, ht, .inl rfl⟩, (hnm _).2 ⟨t, ht, .inr rfl⟩⟩
  obtain ⟨g1, h1, h2, h3, h4, h5, h6⟩ := makeTransitions_spec (vertexNames le ts) ts [] hin (by simp) (by simpa using hdet)
    (init (vertexNames le ts).length) i1 i2 (by simp [i4])
  obtain ⟨m1, l1, l2, l3⟩ := imakeTransitions_spec (vertexNames le ts) ts [] hin (by simp) (by simpa using hdet)
    (IAutomaton.init (vertexNames le ts).length) j1 (by rw [j2]; exact i2) (by simp [j2, i4])
  rw [j2, h1] at l3
  have l4 : g1 = m1.a := by injection l3
  simp only [List.nil_append] at h6
  have hq0 : q0n ∈ vertexNames le ts := (hnm _).2 h0
  generalize hN : vertexNames le ts = names at *
  have hne : g1.vertices ≠ [] := by
    rw [h3]
    have : 0 < names.length := List.length_pos_of_mem hq0
    intro h; rw [List.range_eq_nil] at h; omega
  obtain ⟨g, k1, k2, k3, k4⟩ := makeFinals_spec names vfinal
    (g1.setInitial (names.idxOf q0n)).vertices (g1.setInitial (names.idxOf q0n)) (by
      intro q hq
      have : q ∈ g1.vertices := hq
      rw [h3, List.mem_range] at this; exact this)
  obtain ⟨m, n1, n2, n3⟩ := imakeFinals_spec names vfinal (g1.setInitial (names.idxOf q0n)).vertices
    { m1 with a := m1.a.setInitial (names.idxOf q0n) } (l2.congr rfl rfl rfl) (by rw [← l4]; exact k1)
  refine ⟨g, m, ?_, ?_, n3, n2, ?_, ?_, ?_, ?_⟩
  · unfold makeAutomaton
    simp only [hN, h1, bind, Except.bind, if_neg hne, nameIndex_mem hq0]
    exact k1
  · unfold IAutomaton.makeIncidenceAutomaton
    simp only [hN, l1, bind, Except.bind, ← l4, if_neg hne, nameIndex_mem hq0]
    simp only [← l4] at n1
    exact n1
  · have : g.vertices = g1.vertices := by unfold vertices; rw [k2]; rfl
    rw [this, h3]
  · show g.q0 = _
    rw [k3]; rfl
  · intro q
    rw [k4]
    have hno : (g1.setInitial (names.idxOf q0n)).isFinal q = false := by
      show g1.isFinal _ = false
      unfold isFinal; rw [h5, i5]; rfl
    rw [hno]
    constructor
    · rintro (h | ⟨_, h⟩)
      · cases h
      · exact h
    · rintro ⟨n, hn, hv⟩
      refine .inr ⟨?_, n, hn, hv⟩
      show q ∈ g1.vertices
      rw [h3, List.mem_range]
      exact (List.getElem?_eq_some_iff.1 hn).1
  · intro q a r
    rw [← h6, delta_eq, delta_eq, k2]; rfl

/-- **C23**: for a deterministic list of transitions `(source, target, symbol)` mentioning `q0n`, `make_automaton` returns an automaton with exactly
one state per name, exactly one transition per element of the list, initial state `q0n` and the final states declared by `pmap_vfinal`;
`make_incidence_automaton` returns the same automaton, whose in-edges are its transitions. -/
theorem C23_structure (le : N → N → Bool) (ts : List (N × N × A)) (q0n : N) (vfinal : N → Bool)
    (hdet : (ts.map fun t => (t.1, t.2.2)).Nodup) (h0 : ∃ t ∈ ts, t.1 = q0n ∨ t.2.1 = q0n) :
    ∃ (g : Automaton A) (m : IAutomaton A) (φ : N → Nat),
      makeAutomaton le ts q0n vfinal = .ok g ∧ IAutomaton.makeIncidenceAutomaton le ts q0n vfinal = .ok m ∧ m.a = g ∧
      (∀ n n', (∃ t ∈ ts, t.1 = n ∨ t.2.1 = n) → (∃ t ∈ ts, t.1 = n' ∨ t.2.1 = n') → φ n = φ n' → n = n') ∧
      g.vertices.Nodup ∧ (∀ q, q ∈ g.vertices ↔ ∃ n, (∃ t ∈ ts, t.1 = n ∨ t.2.1 = n) ∧ φ n = q) ∧
      g.edges.Perm (ts.map fun t => ⟨φ t.1, φ t.2.1, t.2.2⟩) ∧
      g.initial = some (φ q0n) ∧
      (∀ q, g.isFinal q = true ↔ ∃ n, (∃ t ∈ ts, t.1 = n ∨ t.2.1 = n) ∧ φ n = q ∧ vfinal n = true) ∧
      ∀ r, (m.inEdges r).Perm (g.edges.filter fun e => e.target = r) := by
  obtain ⟨g, m, h1, h2, h3, h4, h5, h6, h7, h8⟩ := make_both le ts q0n vfinal hdet h0
  have hnm := mem_vertexNames le ts
  have hnd := nodup_vertexNames le ts
  have hg : AWF g := h3 ▸ h4.out
  refine ⟨g, m, (vertexNames le ts).idxOf, h1, h2, h3, ?_, ?_, ?_, ?_, h6, ?_, ?_⟩
  · intro n n' hn hn' h
    exact (List.idxOf_inj ((hnm n).2 hn)).1 h
  · rw [h5]; exact List.nodup_range
  · intro q
    rw [h5, List.mem_range]
    constructor
    · intro hq
      refine ⟨(vertexNames le ts)[q], (hnm _).1 (List.getElem_mem hq), ?_⟩
      exact hnd.idxOf_getElem q hq
    · rintro ⟨n, hn, rfl⟩
      exact List.idxOf_lt_length_of_mem ((hnm n).2 hn)
  · rw [List.perm_ext_iff_of_nodup (nodup_edges hg)]
    · intro e
      rw [mem_edges hg, h8, List.mem_map]
      obtain ⟨q, r, a⟩ := e
      simp only [EdgeDesc.mk.injEq]
      exact exists_congr fun t => and_congr_right fun _ => by tauto
    · refine List.Nodup.map_on ?_ (List.Nodup.of_map _ hdet)
      intro t ht t' ht' he
      simp only [EdgeDesc.mk.injEq] at he
      obtain ⟨e1, e2, e3⟩ := he
      have k1 := (List.idxOf_inj ((hnm t.1).2 ⟨t, ht, .inl rfl⟩)).1 e1
      have k2 := (List.idxOf_inj ((hnm t.2.1).2 ⟨t, ht, .inr rfl⟩)).1 e2
      exact Prod.ext k1 (Prod.ext k2 e3)
  · intro q
    rw [h7]
    constructor
    · rintro ⟨n, hn, hv⟩
      obtain ⟨hl, rfl⟩ := List.getElem?_eq_some_iff.1 hn
      exact ⟨_, (hnm _).1 (List.getElem_mem hl), hnd.idxOf_getElem q hl, hv⟩
    · rintro ⟨n, hn, rfl, hv⟩
      have hl := List.idxOf_lt_length_of_mem ((hnm n).2 hn)
      exact ⟨n, by rw [List.getElem?_eq_getElem hl, List.getElem_idxOf], hv⟩
  · intro r
    rw [List.perm_ext_iff_of_nodup (IAutomaton.nodup_inEdges h4 r) ((nodup_edges hg).filter _)]
    intro e
    rw [IAutomaton.mem_inEdges h4, List.mem_filter, mem_edges hg, h3]
    simp only [decide_eq_true_eq]
    exact and_comm

/-- **C23**: when the names are the integers `0, …, n - 1`, the states are the names. -/
theorem C23_numbers (n : Nat) (ts : List (Nat × Nat × A)) (q0n : Nat) (vfinal : Nat → Bool)
    (hdet : (ts.map fun t => (t.1, t.2.2)).Nodup) (h0 : q0n < n) (hn : ∀ m, m < n ↔ ∃ t ∈ ts, t.1 = m ∨ t.2.1 = m) :
    ∃ g : Automaton A, makeAutomaton (fun a b => decide (a ≤ b)) ts q0n vfinal = .ok g ∧ g.vertices = List.range n ∧
      g.edges.Perm (ts.map fun t => ⟨t.1, t.2.1, t.2.2⟩) ∧ g.initial = some q0n ∧
      ∀ q, g.isFinal q = true ↔ q < n ∧ vfinal q = true := by
  have hnm := mem_vertexNames (fun a b : Nat => decide (a ≤ b)) ts
  have hnd := nodup_vertexNames (fun a b : Nat => decide (a ≤ b)) ts
  have hN : vertexNames (fun a b : Nat => decide (a ≤ b)) ts = List.range n := by
    have hp : (vertexNames (fun a b : Nat => decide (a ≤ b)) ts).Perm (List.range n) := by
      rw [List.perm_ext_iff_of_nodup hnd List.nodup_range]
      intro m; rw [hnm, List.mem_range, hn]
    have hs : (vertexNames (fun a b : Nat => decide (a ≤ b)) ts).Pairwise (· ≤ ·) := by
      have := List.pairwise_mergeSort (le := fun a b : Nat => decide (a ≤ b)) (by intro a b c; simp; omega) (by intro a b; simp; omega)
        (mkSet (ts.map (fun t => t.1) ++ ts.map (fun t => t.2.1)))
      exact this.imp fun h => by simpa using h
    exact hp.eq_of_pairwise (fun a b _ _ h h' => by omega) hs (List.pairwise_lt_range.imp fun h => by omega)
  obtain ⟨g, m, h1, _, h3, h4, h5, h6, h7, h8⟩ := make_both (fun a b : Nat => decide (a ≤ b)) ts q0n vfinal hdet ((hn _).1 h0)
  have hid : ∀ m, m < n → (List.range n).idxOf m = m := by
    intro m hm
    have := List.nodup_range.idxOf_getElem (xs := List.range n) m (by simpa using hm)
    simpa using this
  have hg : AWF g := h3 ▸ h4.out
  rw [hN] at h5 h6 h7 h8
  refine ⟨g, h1, by simpa using h5, ?_, by rw [h6, hid _ h0], ?_⟩
  · rw [List.perm_ext_iff_of_nodup (nodup_edges hg)]
    · intro e
      rw [mem_edges hg, h8, List.mem_map]
      obtain ⟨q, r, a⟩ := e
      simp only [EdgeDesc.mk.injEq]
      refine exists_congr fun t => and_congr_right fun ht => ?_
      rw [hid _ ((hn _).2 ⟨t, ht, .inl rfl⟩), hid _ ((hn _).2 ⟨t, ht, .inr rfl⟩)]
      tauto
    · refine List.Nodup.map_on ?_ (List.Nodup.of_map _ hdet)
      intro t _ t' _ he
      simp only [EdgeDesc.mk.injEq] at he
      obtain ⟨e1, e2, e3⟩ := he
      exact Prod.ext e1 (Prod.ext e2 e3)
  · intro q
    rw [h7]
    constructor
    · rintro ⟨m, hm, hv⟩
      obtain ⟨hl, rfl⟩ := List.getElem?_eq_some_iff.1 hm
      simp only [List.getElem_range] at hv
      exact ⟨by simpa using hl, hv⟩
    · rintro ⟨hq, hv⟩
      exact ⟨q, by simp [hq], hv⟩

/-- Non-vacuity of `C23_numbers`. -/
example : ([((0, 1, 'a') : Nat × Nat × Char), (1, 0, 'a'), (1, 2, 'b')].map fun t => (t.1, t.2.2)).Nodup ∧
    ∀ m, m < 3 ↔ ∃ t ∈ [((0, 1, 'a') : Nat × Nat × Char), (1, 0, 'a'), (1, 2, 'b')], t.1 = m ∨ t.2.1 = m := by
  refine ⟨by decide, fun m => ?_⟩
  simp
  omega

end PyBGL
