import Verif.Proofs.PbfsOrder
import Verif.Proofs.PbfsLength
import Verif.Props.C172_PbfsObjects

/-!
# C173: a parallel search stopped at the first pair of a given kind finds a shortest word; shortest words that tell two automata apart
-/

namespace PyBGL
variable {A : Type} [DecidableEq A] {ord : SetOracle A} {g1 g2 : Automaton A}

/-- **C173** (first pair): let `P` be a property of pairs that the pair of two undefined states does not have. If some word leads the two automata to a pair that satisfies `P`, the search with a visitor
that raises at the first such pair raises, and the pair held by the visitor is reached by a word which is a shortest one among those that lead to a pair that satisfies `P`. Otherwise the search ends, and the
visitor holds nothing. -/
theorem C173_first (ho : ord.Valid) (h1 : g1.Reachable) (h2 : g2.Reachable) (P : StatePair → Bool) (hP : P (none, none) = false) (err : PyErr) :
    (∃ c p w, Returns (pbfsM ord g1 g2 none pushAll (pairFinder P err) [] none) (.ok (.error err, c, some p)) ∧ P p = true ∧ g1.After w p.1 ∧ g2.After w p.2 ∧
      ∀ w' p', g1.After w' p'.1 → g2.After w' p'.2 → P p' = true → w.length ≤ w'.length) ∨
    (∃ c, Returns (pbfsM ord g1 g2 none pushAll (pairFinder P err) [] none) (.ok (.ok (), c, none)) ∧
      ∀ w' p', g1.After w' p'.1 → g2.After w' p'.2 → P p' = false) := by
  have hpair : ∀ w (p : StatePair), g1.After w p.1 → g2.After w p.2 → p = Pbfs.pairOf g1 g2 w := fun w p a b => by
    rw [Automaton.after_iff h1.awf] at a
    rw [Automaton.after_iff h2.awf] at b
    rw [Pbfs.pairOf, a, b]
  obtain ⟨tr, c, h⟩ := Pbfs.exists_run (push := pushAll) h1.awf h2.awf ho [] [(g1.initial, g2.initial)]
  have hr := Pbfs.Run.returnsM (S := none) h (pairFinder P err) none
  have hpl := play_pairFinder P err ([(g1.initial, g2.initial)].map (fun p => PEvent.start (A := A) p.1 p.2) ++ tr) []
  have hex : Pbfs.examined ([(g1.initial, g2.initial)].map (fun p => PEvent.start (A := A) p.1 p.2) ++ tr) = Pbfs.examined tr := by simp
  rw [hex] at hpl
  change Returns (pbfsM ord g1 g2 none pushAll (pairFinder P err) [] none) (.ok (play (pairFinder P err) ([(g1.initial, g2.initial)].map (fun p => PEvent.start (A := A) p.1 p.2) ++ tr) [] none)) at hr
  cases hf : (Pbfs.examined tr).find? P with
  | some p =>
    rw [hf] at hpl
    obtain ⟨c', hc⟩ := hpl
    rw [hc] at hr
    obtain ⟨w, e1, _, e3⟩ := h.first ho hf
    refine .inl ⟨c', p, w, hr, List.find?_some hf, ?_, ?_, fun w' p' a b hp' => ?_⟩
    · rw [Automaton.after_iff h1.awf, e1]; rfl
    · rw [Automaton.after_iff h2.awf, e1]; rfl
    · have e := hpair w' p' a b
      rw [e] at hp'
      exact e3 w' hp' (.inr fun hn => by rw [hn, hP] at hp'; cases hp')
  | none =>
    rw [hf] at hpl
    obtain ⟨c', hc⟩ := hpl
    rw [hc] at hr
    refine .inr ⟨c', hr, fun w' p' a b => ?_⟩
    cases hp' : P p' with
    | false => rfl
    | true =>
      have hm : p' ∈ Pbfs.examined tr := (Pbfs.mem_examined (h.facts ho (pp := fun _ => true) (fun _ _ => rfl)) p').mpr
        ⟨w', hpair w' p' a b, .inr fun hn => by rw [hn, hP] at hp'; cases hp'⟩
      exact absurd hp' (by simpa using List.find?_eq_none.mp hf p' hm)

/-- **C173** (length): if the search raises, the pair held by the visitor is reached by a word whose length is less than `(n1 + 1) * (n2 + 1)`, where `n1` and `n2` are the numbers of states. Otherwise
no word leads to a pair that satisfies `P`. -/
theorem C173_length (ho : ord.Valid) (h1 : g1.Reachable) (h2 : g2.Reachable) (P : StatePair → Bool) (hP : P (none, none) = false) (err : PyErr) :
    (∃ c p w, Returns (pbfsM ord g1 g2 none pushAll (pairFinder P err) [] none) (.ok (.error err, c, some p)) ∧ P p = true ∧ g1.After w p.1 ∧ g2.After w p.2 ∧
      w.length < (g1.numVertices + 1) * (g2.numVertices + 1)) ∨
    (∃ c, Returns (pbfsM ord g1 g2 none pushAll (pairFinder P err) [] none) (.ok (.ok (), c, none)) ∧
      ∀ w' p', g1.After w' p'.1 → g2.After w' p'.2 → P p' = false) := by
  rcases C173_first ho h1 h2 P hP err with ⟨c, p, w, k1, k2, k3, k4, k5⟩ | h
  · have e : p = Pbfs.pairOf g1 g2 w := by
      have k3' := (Automaton.after_iff h1.awf).mp k3
      have k4' := (Automaton.after_iff h2.awf).mp k4
      rw [Pbfs.pairOf, k3', k4']
    obtain ⟨w', m1, m2⟩ := Pbfs.exists_short P hP _ w (Nat.le_refl _) (e ▸ k2)
    exact .inl ⟨c, p, w, k1, k2, k3, k4, Nat.lt_of_le_of_lt (k5 w' (Pbfs.pairOf g1 g2 w') ((Automaton.after_iff h1.awf).mpr rfl) ((Automaton.after_iff h2.awf).mpr rfl) m1) m2⟩
  · exact .inr h

/-- The pairs of which exactly one state is final. -/
def differs (g1 g2 : Automaton A) (p : StatePair) : Bool := g1.isFinalO p.1 ^^ g2.isFinalO p.2

/-- **C173** (words that tell two automata apart): the search stopped at the first pair of which exactly one state is final raises exactly if the languages differ; the pair found is then reached by a word that
belongs to one language only, and no shorter word does. -/
theorem C173_apart (ho : ord.Valid) (h1 : g1.Reachable) (h2 : g2.Reachable) (err : PyErr) :
    (∃ c p w, Returns (pbfsM ord g1 g2 none pushAll (pairFinder (differs g1 g2) err) [] none) (.ok (.error err, c, some p)) ∧ g1.After w p.1 ∧ g2.After w p.2 ∧
      ¬(g1.Lang w ↔ g2.Lang w) ∧ ∀ w', ¬(g1.Lang w' ↔ g2.Lang w') → w.length ≤ w'.length) ∨
    (∃ c, Returns (pbfsM ord g1 g2 none pushAll (pairFinder (differs g1 g2) err) [] none) (.ok (.ok (), c, none)) ∧ ∀ w', g1.Lang w' ↔ g2.Lang w') := by
  have hd : ∀ w, differs g1 g2 (Pbfs.pairOf g1 g2 w) = true ↔ ¬(g1.Lang w ↔ g2.Lang w) := by
    intro w
    rw [Automaton.lang_iff_final h1.awf, Automaton.lang_iff_final h2.awf]
    simp only [differs, Pbfs.pairOf]
    cases g1.isFinalO (g1.deltaWord g1.initial w) <;> cases g2.isFinalO (g2.deltaWord g2.initial w) <;> simp
  have ha1 : ∀ w, g1.After w (Pbfs.pairOf g1 g2 w).1 := fun w => (Automaton.after_iff h1.awf).mpr rfl
  have ha2 : ∀ w, g2.After w (Pbfs.pairOf g1 g2 w).2 := fun w => (Automaton.after_iff h2.awf).mpr rfl
  rcases C173_first ho h1 h2 (differs g1 g2) rfl err with ⟨c, p, w, k1, k2, k3, k4, k5⟩ | ⟨c, k1, k2⟩
  · refine .inl ⟨c, p, w, k1, k3, k4, ?_, fun w' hw' => k5 w' _ (ha1 w') (ha2 w') ((hd w').mpr hw')⟩
    have e : p = Pbfs.pairOf g1 g2 w := by
      rw [Automaton.after_iff h1.awf] at k3
      rw [Automaton.after_iff h2.awf] at k4
      rw [Pbfs.pairOf, k3, k4]
    rw [← hd, ← e]
    exact k2
  · refine .inr ⟨c, k1, fun w' => ?_⟩
    have := k2 w' _ (ha1 w') (ha2 w')
    by_cases h : g1.Lang w' ↔ g2.Lang w'
    · exact h
    · rw [(hd w').mpr h] at this; cases this

/-- **C173** (words to try): if two automata with `n1` and `n2` states accept the same words of length less than `(n1 + 1) * (n2 + 1)`, they accept the same words. -/
theorem C173_try (h1 : g1.Reachable) (h2 : g2.Reachable) (h : ∀ w, w.length < (g1.numVertices + 1) * (g2.numVertices + 1) → g1.accepts w = g2.accepts w) (w : List A) :
    g1.accepts w = g2.accepts w := by
  have hd : ∀ w, differs g1 g2 (Pbfs.pairOf g1 g2 w) = true ↔ g1.accepts w ≠ g2.accepts w := by
    intro w
    have a1 : g1.accepts w = g1.isFinalO (g1.deltaWord g1.initial w) := Bool.eq_iff_iff.mpr ((Automaton.accepts_iff h1.awf w).trans (Automaton.lang_iff_final h1.awf w))
    have a2 : g2.accepts w = g2.isFinalO (g2.deltaWord g2.initial w) := Bool.eq_iff_iff.mpr ((Automaton.accepts_iff h2.awf w).trans (Automaton.lang_iff_final h2.awf w))
    rw [a1, a2]
    simp [differs, Pbfs.pairOf]
  by_contra hw
  obtain ⟨w', m1, m2⟩ := Pbfs.exists_short (differs g1 g2) rfl _ w (Nat.le_refl _) ((hd w).mpr hw)
  exact (hd w').mp m1 (h w' m2)

/-- The pairs of which both states are final. -/
def agrees (g1 g2 : Automaton A) (p : StatePair) : Bool := g1.isFinalO p.1 && g2.isFinalO p.2

/-- **C173** (common words): the search stopped at the first pair of which both states are final raises exactly if the languages have a common word; the pair found is then reached by a common word, and no
shorter word is common. -/
theorem C173_common (ho : ord.Valid) (h1 : g1.Reachable) (h2 : g2.Reachable) (err : PyErr) :
    (∃ c p w, Returns (pbfsM ord g1 g2 none pushAll (pairFinder (agrees g1 g2) err) [] none) (.ok (.error err, c, some p)) ∧ g1.After w p.1 ∧ g2.After w p.2 ∧
      g1.Lang w ∧ g2.Lang w ∧ ∀ w', g1.Lang w' → g2.Lang w' → w.length ≤ w'.length) ∨
    (∃ c, Returns (pbfsM ord g1 g2 none pushAll (pairFinder (agrees g1 g2) err) [] none) (.ok (.ok (), c, none)) ∧ ∀ w', ¬(g1.Lang w' ∧ g2.Lang w')) := by
  have hd : ∀ w, agrees g1 g2 (Pbfs.pairOf g1 g2 w) = true ↔ g1.Lang w ∧ g2.Lang w := by
    intro w
    rw [Automaton.lang_iff_final h1.awf, Automaton.lang_iff_final h2.awf]
    simp only [agrees, Pbfs.pairOf, Bool.and_eq_true]
  have ha1 : ∀ w, g1.After w (Pbfs.pairOf g1 g2 w).1 := fun w => (Automaton.after_iff h1.awf).mpr rfl
  have ha2 : ∀ w, g2.After w (Pbfs.pairOf g1 g2 w).2 := fun w => (Automaton.after_iff h2.awf).mpr rfl
  rcases C173_first ho h1 h2 (agrees g1 g2) rfl err with ⟨c, p, w, k1, k2, k3, k4, k5⟩ | ⟨c, k1, k2⟩
  · have e : p = Pbfs.pairOf g1 g2 w := by
      have k3' := (Automaton.after_iff h1.awf).mp k3
      have k4' := (Automaton.after_iff h2.awf).mp k4
      rw [Pbfs.pairOf, k3', k4']
    rw [e] at k2
    obtain ⟨m1, m2⟩ := (hd w).mp k2
    exact .inl ⟨c, p, w, k1, k3, k4, m1, m2, fun w' a b => k5 w' _ (ha1 w') (ha2 w') ((hd w').mpr ⟨a, b⟩)⟩
  · refine .inr ⟨c, k1, fun w' h => ?_⟩
    have := k2 w' _ (ha1 w') (ha2 w')
    rw [(hd w').mpr h] at this
    cases this

/-- The pairs of which the first state is final and the second is not. -/
def exceeds (g1 g2 : Automaton A) (p : StatePair) : Bool := g1.isFinalO p.1 && !g2.isFinalO p.2

/-- **C173** (words that refute an inclusion): the search stopped at the first pair of which the first state is final and the second is not raises exactly if the first language is not included in the second;
the pair found is then reached by a word of the first language that is not in the second, and no shorter word is of this kind. -/
theorem C173_excess (ho : ord.Valid) (h1 : g1.Reachable) (h2 : g2.Reachable) (err : PyErr) :
    (∃ c p w, Returns (pbfsM ord g1 g2 none pushAll (pairFinder (exceeds g1 g2) err) [] none) (.ok (.error err, c, some p)) ∧ g1.After w p.1 ∧ g2.After w p.2 ∧
      g1.Lang w ∧ ¬g2.Lang w ∧ ∀ w', g1.Lang w' → ¬g2.Lang w' → w.length ≤ w'.length) ∨
    (∃ c, Returns (pbfsM ord g1 g2 none pushAll (pairFinder (exceeds g1 g2) err) [] none) (.ok (.ok (), c, none)) ∧ ∀ w', g1.Lang w' → g2.Lang w') := by
  have hd : ∀ w, exceeds g1 g2 (Pbfs.pairOf g1 g2 w) = true ↔ g1.Lang w ∧ ¬g2.Lang w := by
    intro w
    rw [Automaton.lang_iff_final h1.awf, Automaton.lang_iff_final h2.awf]
    simp only [exceeds, Pbfs.pairOf, Bool.and_eq_true, Bool.not_eq_true', Bool.not_eq_true]
  have ha1 : ∀ w, g1.After w (Pbfs.pairOf g1 g2 w).1 := fun w => (Automaton.after_iff h1.awf).mpr rfl
  have ha2 : ∀ w, g2.After w (Pbfs.pairOf g1 g2 w).2 := fun w => (Automaton.after_iff h2.awf).mpr rfl
  rcases C173_first ho h1 h2 (exceeds g1 g2) rfl err with ⟨c, p, w, k1, k2, k3, k4, k5⟩ | ⟨c, k1, k2⟩
  · have e : p = Pbfs.pairOf g1 g2 w := by
      have k3' := (Automaton.after_iff h1.awf).mp k3
      have k4' := (Automaton.after_iff h2.awf).mp k4
      rw [Pbfs.pairOf, k3', k4']
    rw [e] at k2
    obtain ⟨m1, m2⟩ := (hd w).mp k2
    exact .inl ⟨c, p, w, k1, k3, k4, m1, m2, fun w' a b => k5 w' _ (ha1 w') (ha2 w') ((hd w').mpr ⟨a, b⟩)⟩
  · refine .inr ⟨c, k1, fun w' a => ?_⟩
    by_contra b
    have := k2 w' _ (ha1 w') (ha2 w')
    rw [(hd w').mpr ⟨a, b⟩] at this
    cases this

/-! ## Cases that meet the hypotheses -/

/-- `(aa)*` and `a*` are told apart by `a`; `a*` and itself are not. -/
example : ∃ g1 g2, Runs Automaton.exec Automaton.empty evenHistory g1 ∧ Runs Automaton.exec Automaton.empty starHistory g2 ∧ differs g1 g2 (none, none) = false ∧
    pbfsM (fun _ s => s) g1 g2 none pushAll (pairFinder (differs g1 g2) .keyError) [] none 10 =
      some (.ok (.error .keyError, [((some 1, some 0), .gray), ((some 0, some 0), .black)], some (some 1, some 0))) ∧
    pbfsM (fun _ s => s) g2 g2 none pushAll (pairFinder (differs g2 g2) .keyError) [] none 10 = some (.ok (.ok (), [((some 0, some 0), .black)], none)) :=
  ⟨_, _, rfl, rfl, rfl, rfl, rfl⟩

/-- `a` is in `a*` and not in `(aa)*`; no word of `(aa)*` is outside `a*`. -/
example : ∃ g1 g2, Runs Automaton.exec Automaton.empty evenHistory g1 ∧ Runs Automaton.exec Automaton.empty starHistory g2 ∧
    pbfsM (fun _ s => s) g2 g1 none pushAll (pairFinder (exceeds g2 g1) .keyError) [] none 10 =
      some (.ok (.error .keyError, [((some 0, some 1), .gray), ((some 0, some 0), .black)], some (some 0, some 1))) ∧
    ((pbfsM (fun _ s => s) g1 g2 none pushAll (pairFinder (exceeds g1 g2) .keyError) [] none 10).map fun r => r.toOption.map (·.2.2)) = some (some none) :=
  ⟨_, _, rfl, rfl, rfl, rfl⟩

/-- `a*` by two states. -/
private def twoStates : Automaton Char := ⟨2, [(0, [('a', 1)]), (1, [('a', 0)])], some 0, [(0, true), (1, true)]⟩

/-- `a*` by one state. -/
private def oneState : Automaton Char := ⟨1, [(0, [('a', 0)])], some 0, [(0, true)]⟩

private theorem oneState_twoStates (w : List Char) : ∀ q, q = 0 ∨ q = 1 → twoStates.isFinalO (twoStates.deltaWord (some q) w) = oneState.isFinalO (oneState.deltaWord (some 0) w) := by
  induction w with
  | nil => rintro q (rfl | rfl) <;> rfl
  | cons a w ih =>
    by_cases h : a = 'a'
    · subst h
      rintro q (rfl | rfl)
      · exact ih 1 (.inr rfl)
      · exact ih 0 (.inl rfl)
    · have h' : ¬'a' = a := fun e => h e.symm
      have e2 : oneState.delta 0 a = none := by simp [oneState, Automaton.delta, Dict.getD, Dict.get?, h']
      rintro q (rfl | rfl)
      · have e1 : twoStates.delta 0 a = none := by simp [twoStates, Automaton.delta, Dict.getD, Dict.get?, h']
        simp only [Automaton.deltaWord, e1, e2, Automaton.deltaWord_none, Automaton.isFinalO]
      · have e1 : twoStates.delta 1 a = none := by simp [twoStates, Automaton.delta, Dict.getD, Dict.get?, h']
        simp only [Automaton.deltaWord, e1, e2, Automaton.deltaWord_none, Automaton.isFinalO]

/-- `a*` by two states and by one state meet the hypothesis of `C173_try`; the bound is 6. -/
example : Runs Automaton.exec Automaton.empty (evenHistory ++ [.setFinal 1 true]) twoStates ∧ Runs Automaton.exec Automaton.empty starHistory oneState ∧
    (twoStates.numVertices + 1) * (oneState.numVertices + 1) = 6 ∧
    ∀ w, w.length < (twoStates.numVertices + 1) * (oneState.numVertices + 1) → twoStates.accepts w = oneState.accepts w := by
  refine ⟨rfl, rfl, rfl, fun w _ => ?_⟩
  have h := oneState_twoStates w 0 (.inl rfl)
  have ha : ∀ g : Automaton Char, g.accepts w = g.isFinalO (g.deltaWord g.initial w) := fun g => by
    unfold Automaton.accepts Automaton.isFinalO
    cases g.deltaWord g.initial w <;> rfl
  rw [ha, ha]
  exact h

/-- The empty word is common to `(aa)*` and `a*`. -/
example : ∃ g1 g2, Runs Automaton.exec Automaton.empty evenHistory g1 ∧ Runs Automaton.exec Automaton.empty starHistory g2 ∧
    pbfsM (fun _ s => s) g1 g2 none pushAll (pairFinder (agrees g1 g2) .keyError) [] none 10 = some (.ok (.error .keyError, [], some (some 0, some 0))) :=
  ⟨_, _, rfl, rfl, rfl⟩

end PyBGL
