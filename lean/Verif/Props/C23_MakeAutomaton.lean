import Verif.Proofs.MakeAutomaton

/-!
# C23: `make_automaton`
-/

namespace PyBGL
open Automaton
variable {A N : Type} [DecidableEq A] [DecidableEq N]

/-- **C23**: for a deterministic list of transitions `(source, target, symbol)` mentioning `q0n`,
`make_automaton` returns an automaton with one state per name, accepting exactly the words that label
a path of the list from `q0n` to a final name. -/
theorem C23_make_automaton (le : N → N → Bool) (ts : List (N × N × A)) (q0n : N) (vfinal : N → Bool)
    (hdet : (ts.map fun t => (t.1, t.2.2)).Nodup) (h0 : ∃ t ∈ ts, t.1 = q0n ∨ t.2.1 = q0n) :
    ∃ g, makeAutomaton le ts q0n vfinal = .ok g ∧
      ∀ w, g.accepts w = true ↔
        ∃ f, LPath (fun q a r => (q, r, a) ∈ ts) q0n w f ∧ vfinal f = true := by
  obtain ⟨i1, i2, i3, i4, i5⟩ := init_spec (A := A) (vertexNames le ts).length
  have hnm := mem_vertexNames le ts
  have hnd := nodup_vertexNames le ts
  obtain ⟨g1, h1, h2, h3, h4, h5, h6⟩ := makeTransitions_spec (vertexNames le ts) ts []
    (fun t ht => ⟨(hnm _).2 ⟨t, ht, .inl rfl⟩, (hnm _).2 ⟨t, ht, .inr rfl⟩⟩) (by simp) (by simpa using hdet)
    (init (vertexNames le ts).length) i1 i2 (by simp [i4])
  simp only [List.nil_append] at h6
  have hq0 : q0n ∈ vertexNames le ts := (hnm _).2 h0
  generalize hN : vertexNames le ts = names at *
  have hne : g1.vertices ≠ [] := by
    rw [h3]
    have : 0 < names.length := List.length_pos_of_mem hq0
    intro h; rw [List.range_eq_nil] at h; omega
  obtain ⟨g, k1, k2, k3, k4⟩ := makeFinals_spec names vfinal
    (g1.setInitial (names.idxOf q0n)).vertices (g1.setInitial (names.idxOf q0n)) (by
      intro q hq
      have : q ∈ g1.vertices := hq
      rw [h3, List.mem_range] at this; exact this)
  refine ⟨g, ?_, ?_⟩
  · unfold makeAutomaton
    simp only [hN, h1, bind, Except.bind, if_neg hne, nameIndex_mem hq0]
    exact k1
  · have hwf : AWF g := by
      refine ⟨?_, ?_, ?_⟩
      · rw [k2]; exact h2.outer
      · rw [k2]; exact h2.inner
      · intro q hq
        have e : g.lastVertexId = g1.lastVertexId := by
          have : ∀ (qs : List Nat) (g g' : Automaton A), qs.foldlM (makeFinal names vfinal) g = .ok g' →
              g'.lastVertexId = g.lastVertexId := by
            intro qs
            induction qs with
            | nil => intro g g' h; cases h; rfl
            | cons p qs ih =>
              intro g g' h
              rw [List.foldlM_cons, except_bind_ok] at h
              obtain ⟨g2, ha, hb⟩ := h
              rw [ih _ _ hb]
              unfold makeFinal at ha
              split at ha
              · cases ha
              · cases ha; split <;> rfl
          exact (this _ _ _ k1).trans rfl
        rw [e]; apply h2.lt
        unfold vertices at hq ⊢; rw [k2] at hq; exact hq
    have htr : ∀ q a r, g.Trans q a r ↔ ∃ t ∈ ts, names.idxOf t.1 = q ∧ t.2.2 = a ∧ names.idxOf t.2.1 = r := by
      intro q a r
      rw [trans_iff hwf, ← h6, delta_eq, delta_eq, k2]; rfl
    have hin : ∀ t ∈ ts, t.1 ∈ names ∧ t.2.1 ∈ names := fun t ht =>
      ⟨(hnm _).2 ⟨t, ht, .inl rfl⟩, (hnm _).2 ⟨t, ht, .inr rfl⟩⟩
    have hpath : ∀ (w : List A) (n : N) (r : Nat), n ∈ names → (LPath g.Trans (names.idxOf n) w r ↔
        ∃ f ∈ names, r = names.idxOf f ∧ LPath (fun q a r => (q, r, a) ∈ ts) n w f) := by
      intro w
      induction w with
      | nil =>
        intro n r hn
        rw [LPath.nil_iff]
        constructor
        · rintro rfl; exact ⟨n, hn, rfl, .nil _⟩
        · rintro ⟨f, hf, rfl, hp⟩; cases hp; rfl
      | cons a w ih =>
        intro n r hn
        rw [LPath.cons_iff]
        constructor
        · rintro ⟨s, hs, hp⟩
          obtain ⟨t, ht, e1, e2, e3⟩ := (htr _ _ _).1 hs
          subst e3
          obtain ⟨f, hf, hr, hp'⟩ := (ih _ _ (hin t ht).2).1 hp
          refine ⟨f, hf, hr, .cons ?_ hp'⟩
          have := (List.idxOf_inj (hin t ht).1).1 e1
          subst this e2
          exact ht
        · rintro ⟨f, hf, hr, hp⟩
          cases hp with
          | cons ht hp' =>
            rename_i m
            refine ⟨names.idxOf m, (htr _ _ _).2 ⟨_, ht, rfl, rfl, rfl⟩, ?_⟩
            exact (ih _ _ (hin _ ht).2).2 ⟨f, hf, hr, hp'⟩
    intro w
    rw [accepts_iff hwf]
    unfold Lang
    have hinit : g.q0 = some (names.idxOf q0n) := by rw [k3]; rfl
    have hfin : ∀ f ∈ names, g.isFinal (names.idxOf f) = vfinal f := by
      intro f hf
      have hlt := List.idxOf_lt_length_of_mem hf
      have hget : names[names.idxOf f]? = some f := by
        rw [List.getElem?_eq_getElem hlt, List.getElem_idxOf]
      rw [Bool.eq_iff_iff, k4]
      have hno : (g1.setInitial (names.idxOf q0n)).isFinal (names.idxOf f) = false := by
        show g1.isFinal _ = false
        unfold isFinal; rw [h5, i5]; rfl
      rw [hno]
      constructor
      · rintro (h | ⟨_, n, hn, hv⟩)
        · cases h
        · rw [hget] at hn; injection hn with hn; rw [hn]; exact hv
      · intro hv
        refine .inr ⟨?_, f, hget, hv⟩
        show _ ∈ g1.vertices
        rw [h3, List.mem_range]; exact hlt
    constructor
    · rintro ⟨q, f, hq, hp, hf⟩
      rw [hinit] at hq; injection hq with hq; subst hq
      obtain ⟨fn, hfn, rfl, hp'⟩ := (hpath w q0n f hq0).1 hp
      exact ⟨fn, hp', by rw [← hfin fn hfn]; exact hf⟩
    · rintro ⟨fn, hp, hf⟩
      have hfn : fn ∈ names := by
        have : ∀ {q f : N} {w : List A}, q ∈ names → LPath (fun q a r => (q, r, a) ∈ ts) q w f → f ∈ names := by
          intro q f w hq hp
          induction hp with
          | nil => exact hq
          | cons h _ ih => exact ih (hin _ h).2
        exact this hq0 hp
      exact ⟨_, names.idxOf fn, hinit, (hpath w q0n _ hq0).2 ⟨fn, hfn, rfl, hp⟩, by rw [hfin fn hfn]; exact hf⟩

/-- **C23**: without transitions, the automaton has no state and rejects every word; with transitions and
an unknown initial name, `make_automaton` raises `KeyError`. -/
theorem C23_make_automaton_degenerate (le : N → N → Bool) (ts : List (N × N × A)) (q0n : N)
    (vfinal : N → Bool) (hdet : (ts.map fun t => (t.1, t.2.2)).Nodup)
    (h0 : ¬ ∃ t ∈ ts, t.1 = q0n ∨ t.2.1 = q0n) :
    (ts = [] → ∃ g, makeAutomaton le ts q0n vfinal = .ok g ∧ g.vertices = [] ∧ ∀ w, g.accepts w = false) ∧
    (ts ≠ [] → makeAutomaton le ts q0n vfinal = .error .keyError) := by
  constructor
  · rintro rfl
    refine ⟨Automaton.init 0, ?_, rfl, ?_⟩
    · have e : vertexNames le ([] : List (N × N × A)) = [] := by
        apply List.eq_nil_iff_forall_not_mem.2
        intro n; rw [mem_vertexNames]; simp
      unfold makeAutomaton
      simp only [e]
      rfl
    · intro w
      cases w with
      | nil => rfl
      | cons a w =>
        have : (Automaton.init 0 : Automaton A).deltaWord (some 0) (a :: w) = none := by
          rw [deltaWord_cons]
          show deltaWord _ none w = none
          simp
        show (match (Automaton.init 0 : Automaton A).deltaWord (some 0) (a :: w) with
          | none => false
          | some q => _) = false
        rw [this]
  · intro hts
    have hnm := mem_vertexNames le ts
    obtain ⟨i1, i2, i3, i4, i5⟩ := init_spec (A := A) (vertexNames le ts).length
    obtain ⟨g1, h1, h2, h3, _⟩ := makeTransitions_spec (vertexNames le ts) ts []
      (fun t ht => ⟨(hnm _).2 ⟨t, ht, .inl rfl⟩, (hnm _).2 ⟨t, ht, .inr rfl⟩⟩) (by simp) (by simpa using hdet)
      (init (vertexNames le ts).length) i1 i2 (by simp [i4])
    have hne : g1.vertices ≠ [] := by
      rw [h3]
      obtain ⟨t, ht⟩ := List.exists_mem_of_ne_nil _ hts
      have : 0 < (vertexNames le ts).length := List.length_pos_of_mem ((hnm t.1).2 ⟨t, ht, .inl rfl⟩)
      intro h; rw [List.range_eq_nil] at h; omega
    have hq0 : q0n ∉ vertexNames le ts := fun h => h0 ((hnm _).1 h)
    have hidx : nameIndex (vertexNames le ts) q0n = .error .keyError := by
      unfold nameIndex; rw [if_neg hq0]
    unfold makeAutomaton
    simp only [h1, bind, Except.bind, if_neg hne, hidx]

/-- Witness: names 10, 20, 30 with a cycle through the initial name. -/
def exTransitions : List (Nat × Nat × Char) := [(20, 10, 'a'), (10, 20, 'b'), (10, 30, 'a')]

example : (exTransitions.map fun t => (t.1, t.2.2)).Nodup ∧ (∃ t ∈ exTransitions, t.1 = 20 ∨ t.2.1 = 20) ∧
    LPath (fun q a r => (q, r, a) ∈ exTransitions) 20 ['a', 'b', 'a', 'a'] 30 := by
  refine ⟨by decide, by decide, ?_⟩
  exact .cons (r := 10) (by decide) (.cons (r := 20) (by decide) (.cons (r := 10) (by decide)
    (.cons (r := 30) (by decide) (.nil _))))

end PyBGL
