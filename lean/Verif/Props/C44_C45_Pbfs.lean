import Verif.Proofs.PbfsWords

/-!
# C44, C45: parallel breadth-first search and inclusion of languages
-/

namespace PyBGL
variable {A σ : Type} [DecidableEq A]

/-- The pair of initial states. -/
abbrev startPair (g1 g2 : Automaton A) : StatePair := (g1.initial, g2.initial)

/-- **C44**: without `if_push`, `parallel_breadth_first_search` terminates, whatever the order in which symbols are enumerated, and examines
exactly the pairs of states reached by a word along which at least one side stays defined (and the initial pair). Every pair is discovered
once, every examined pair is finished, in the same order, and examined in the order of discovery. -/
theorem C44_pairs {ord : SetOracle A} (ho : ord.Valid) {g1 g2 : Automaton A} (h1 : g1.Reachable) (h2 : g2.Reachable) :
    ∃ tr c, Returns (pbfs ord (fun _ => g1) g2 [startPair g1 g2] pushAll recorder []) (.ok (c, tr)) ∧
      (∀ p, p ∈ Pbfs.examined tr ↔ ∃ w, g1.After w p.1 ∧ g2.After w p.2 ∧ (w = [] ∨ p ≠ (none, none))) ∧
      Pbfs.started tr = [startPair g1 g2] ∧
      (Pbfs.discovered tr).Nodup ∧ Pbfs.examined tr = startPair g1 g2 :: Pbfs.discovered tr ∧ Pbfs.finished tr = Pbfs.examined tr := by
  obtain ⟨tr, c, hf, hr⟩ := Pbfs.facts (push := pushAll) h1.awf h2.awf ho (pp := fun _ => true) (fun _ _ => rfl) [startPair g1 g2]
  have := hr _ recorder []
  obtain ⟨s1, s2, s3, s4, s5, s6⟩ := Pbfs.starts_proj (A := A) [startPair g1 g2]
  refine ⟨[startPair g1 g2].map (fun p => .start p.1 p.2) ++ tr, c, ?_, ?_, ?_, ?_, ?_, ?_⟩
  · simpa [Pbfs.outcome, emit_recorder] using this
  · intro p
    rw [Pbfs.examined_append, s1, List.nil_append, Pbfs.mem_examined hf]
    refine exists_congr fun w => ?_
    rw [Automaton.after_iff h1.awf, Automaton.after_iff h2.awf, ← and_assoc]
    exact and_congr ⟨fun e => by rw [e]; exact ⟨rfl, rfl⟩, fun e => by rw [Pbfs.pairOf, e.1, e.2]⟩ Iff.rfl
  · rw [Pbfs.started_append, s4, hf.noStart]; rfl
  · rw [Pbfs.discovered_append, s2]; exact hf.nodup
  · rw [Pbfs.examined_append, Pbfs.discovered_append, s1, s2, List.nil_append, List.nil_append, hf.fifo]; simp
  · rw [Pbfs.examined_append, Pbfs.finished_append, s1, s3, List.nil_append, List.nil_append, hf.fin]

/-- **C44**: the joint transitions examined are exactly those leaving the examined pairs by a symbol known to one side, each once per
examination of its source; each is then classified once. -/
theorem C44_edges {ord : SetOracle A} (ho : ord.Valid) {g1 g2 : Automaton A} (h1 : g1.Reachable) (h2 : g2.Reachable) :
    ∃ tr c, Returns (pbfs ord (fun _ => g1) g2 [startPair g1 g2] pushAll recorder []) (.ok (c, tr)) ∧
      Pbfs.classified tr = Pbfs.edges tr ∧
      (Pbfs.edges tr).Perm ((Pbfs.examined tr).flatMap fun p =>
        (setUnion (g1.sigmaO p.1) (g2.sigmaO p.2)).map fun a => (jointEdge g1 p.1 a, jointEdge g2 p.2 a, a)) := by
  obtain ⟨tr, c, hf, hr⟩ := Pbfs.facts (push := pushAll) h1.awf h2.awf ho (pp := fun _ => true) (fun _ _ => rfl) [startPair g1 g2]
  have := hr _ recorder []
  obtain ⟨s1, s2, s3, s4, s5, s6⟩ := Pbfs.starts_proj (A := A) [startPair g1 g2]
  refine ⟨[startPair g1 g2].map (fun p => .start p.1 p.2) ++ tr, c, ?_, ?_, ?_⟩
  · simpa [Pbfs.outcome, emit_recorder] using this
  · rw [Pbfs.classified_append, Pbfs.edges_append, s5, s6, hf.cls]
  · rw [Pbfs.examined_append, Pbfs.edges_append, s1, s5, List.nil_append, List.nil_append]
    exact hf.edges

/-- **C44**: with any visitor, the calls made are those of the recorded run, up to the first call that raises. -/
theorem C44_any_visitor {ord : SetOracle A} (ho : ord.Valid) {g1 g2 : Automaton A} (h1 : g1.Reachable) (h2 : g2.Reachable)
    (vis : Visitor (PEvent A) σ) (st : σ) :
    ∃ tr c, Returns (pbfs ord (fun _ => g1) g2 [startPair g1 g2] pushAll recorder []) (.ok (c, tr)) ∧
      Returns (pbfs ord (fun _ => g1) g2 [startPair g1 g2] pushAll vis st) ((emit vis tr st).map fun s => (c, s)) := by
  obtain ⟨tr, c, hf, hr⟩ := Pbfs.facts (push := pushAll) h1.awf h2.awf ho (pp := fun _ => true) (fun _ _ => rfl) [startPair g1 g2]
  refine ⟨[startPair g1 g2].map (fun p => .start p.1 p.2) ++ tr, c, ?_, ?_⟩
  · simpa [Pbfs.outcome, emit_recorder] using hr _ recorder []
  · have := hr _ vis st
    unfold Pbfs.outcome at this
    cases h : emit vis ([startPair g1 g2].map (fun p => .start p.1 p.2) ++ tr) st with
    | error e => rw [h] at this; exact this
    | ok s => rw [h] at this; exact this

/-- The visitor of `deterministic_inclusion` along a list of pairs. -/
def inclFold (g1 g2 : Automaton A) : List StatePair → Int → Except PyErr Int
  | [], r => .ok r
  | p :: ps, r =>
    match inclUpdate g1 g2 p.1 p.2 r with
    | .error e => .error e
    | .ok r => inclFold g1 g2 ps r

theorem emit_inclVisitor (g1 g2 : Automaton A) (tr : List (PEvent A)) (hs : Pbfs.started tr = []) (r : Int) :
    emit (inclVisitor g1 g2) tr r = inclFold g1 g2 (Pbfs.discovered tr) r := by
  induction tr generalizing r with
  | nil => rfl
  | cons x tr ih =>
    simp only [Pbfs.started_cons, List.append_eq_nil_iff] at hs
    rw [emit_cons]
    cases x with
    | start q1 q2 => simp at hs
    | discover q1 q2 =>
      simp only [inclVisitor, Pbfs.discovered_cons, List.cons_append, List.nil_append, inclFold]
      cases inclUpdate g1 g2 q1 q2 r with
      | error e => rfl
      | ok r => exact ih hs.2 r
    | _ => simp only [inclVisitor, Pbfs.discovered_cons, List.nil_append]; exact ih hs.2 r

/-- What the visitor returns, from the existence of a pair accepted by the first side only (`a`) and by the second side only (`b`). -/
def inclResult (a b : Bool) (r : Int) : Except PyErr Int :=
  if (r = 1 ∧ a = true) ∨ (r = -1 ∧ b = true) ∨ (a = true ∧ b = true) then .error .runtimeError
  else .ok (if a then -1 else if b then 1 else r)

theorem inclFold_eq (g1 g2 : Automaton A) (ps : List StatePair) (r : Int) (hr : r = 0 ∨ r = 1 ∨ r = -1) :
    inclFold g1 g2 ps r = inclResult (ps.any fun p => g1.isFinalO p.1 && !g2.isFinalO p.2) (ps.any fun p => !g1.isFinalO p.1 && g2.isFinalO p.2) r := by
  induction ps generalizing r with
  | nil => rcases hr with rfl | rfl | rfl <;> rfl
  | cons p ps ih =>
    simp only [inclFold, inclUpdate, List.any_cons]
    cases g1.isFinalO p.1 <;> cases g2.isFinalO p.2
    · simpa using ih r hr
    · rcases hr with rfl | rfl | rfl
      · simp [ih 1 (by simp), inclResult]
        cases ps.any fun p => g1.isFinalO p.1 && !g2.isFinalO p.2 <;> cases ps.any fun p => !g1.isFinalO p.1 && g2.isFinalO p.2 <;> rfl
      · simp [ih 1 (by simp), inclResult]
        cases ps.any fun p => g1.isFinalO p.1 && !g2.isFinalO p.2 <;> cases ps.any fun p => !g1.isFinalO p.1 && g2.isFinalO p.2 <;> rfl
      · simp [inclResult]
    · rcases hr with rfl | rfl | rfl
      · simp [ih (-1) (by simp), inclResult]
        cases ps.any fun p => g1.isFinalO p.1 && !g2.isFinalO p.2 <;> cases ps.any fun p => !g1.isFinalO p.1 && g2.isFinalO p.2 <;> rfl
      · simp [inclResult]
      · simp [ih (-1) (by simp), inclResult]
        cases ps.any fun p => g1.isFinalO p.1 && !g2.isFinalO p.2 <;> cases ps.any fun p => !g1.isFinalO p.1 && g2.isFinalO p.2 <;> rfl
    · simpa using ih r hr

/-- The general form of `C45_inclusion`. -/
theorem Pbfs.inclusion_awf {ord : SetOracle A} (ho : ord.Valid) {g1 g2 : Automaton A} (h1 : AWF g1) (h2 : AWF g2) :
    ∃ r, Returns (deterministicInclusion ord g1 g2) (.ok r) ∧
      (r = some 0 ↔ ∀ w, g1.Lang w ↔ g2.Lang w) ∧
      (r = some 1 ↔ (∀ w, g1.Lang w → g2.Lang w) ∧ ∃ w, g2.Lang w ∧ ¬g1.Lang w) ∧
      (r = some (-1) ↔ (∀ w, g2.Lang w → g1.Lang w) ∧ ∃ w, g1.Lang w ∧ ¬g2.Lang w) ∧
      (r = none ↔ (∃ w, g1.Lang w ∧ ¬g2.Lang w) ∧ ∃ w, g2.Lang w ∧ ¬g1.Lang w) := by
  obtain ⟨tr, c, hf, hr⟩ := Pbfs.facts (push := pushAll) h1 h2 ho (pp := fun _ => true) (fun _ _ => rfl) [startPair g1 g2]
  have hret := hr _ (inclVisitor g1 g2) 0
  have hfifo : Pbfs.examined tr = startPair g1 g2 :: Pbfs.discovered tr := by rw [hf.fifo]; simp
  have hemit : emit (inclVisitor g1 g2) ([startPair g1 g2].map (fun p => .start p.1 p.2) ++ tr) 0 = inclFold g1 g2 (Pbfs.examined tr) 0 := by
    rw [hfifo]
    simp only [List.map_cons, List.map_nil, List.cons_append, List.nil_append, emit_cons, inclFold]
    simp only [inclVisitor]
    cases inclUpdate g1 g2 g1.initial g2.initial 0 with
    | error e => rfl
    | ok r => exact emit_inclVisitor g1 g2 tr hf.noStart r
  have hA : ((Pbfs.examined tr).any fun p => g1.isFinalO p.1 && !g2.isFinalO p.2) = true ↔ ∃ w, g1.Lang w ∧ ¬g2.Lang w := by
    rw [List.any_eq_true]
    constructor
    · rintro ⟨p, hp, hpf⟩
      obtain ⟨w, rfl, _⟩ := (Pbfs.mem_examined hf p).mp hp
      refine ⟨w, ?_⟩
      rw [Automaton.lang_iff_final h1, Automaton.lang_iff_final h2]
      simpa [Pbfs.pairOf] using hpf
    · rintro ⟨w, hw1, hw2⟩
      rw [Automaton.lang_iff_final h1] at hw1
      rw [Automaton.lang_iff_final h2] at hw2
      refine ⟨Pbfs.pairOf g1 g2 w, (Pbfs.mem_examined hf _).mpr ⟨w, rfl, .inr ?_⟩, by simp [Pbfs.pairOf, hw1, hw2]⟩
      intro e
      simp only [Pbfs.pairOf, Prod.mk.injEq] at e
      rw [e.1] at hw1
      cases hw1
  have hB : ((Pbfs.examined tr).any fun p => !g1.isFinalO p.1 && g2.isFinalO p.2) = true ↔ ∃ w, g2.Lang w ∧ ¬g1.Lang w := by
    rw [List.any_eq_true]
    constructor
    · rintro ⟨p, hp, hpf⟩
      obtain ⟨w, rfl, _⟩ := (Pbfs.mem_examined hf p).mp hp
      refine ⟨w, ?_⟩
      rw [Automaton.lang_iff_final h1, Automaton.lang_iff_final h2]
      simpa [Pbfs.pairOf, and_comm] using hpf
    · rintro ⟨w, hw2, hw1⟩
      rw [Automaton.lang_iff_final h1] at hw1
      rw [Automaton.lang_iff_final h2] at hw2
      refine ⟨Pbfs.pairOf g1 g2 w, (Pbfs.mem_examined hf _).mpr ⟨w, rfl, .inr ?_⟩, by simp [Pbfs.pairOf, hw1, hw2]⟩
      intro e
      simp only [Pbfs.pairOf, Prod.mk.injEq] at e
      rw [e.2] at hw2
      cases hw2
  rw [inclFold_eq g1 g2 _ 0 (.inl rfl)] at hemit
  have hout : ∀ x, emit (inclVisitor g1 g2) ([startPair g1 g2].map (fun p => .start p.1 p.2) ++ tr) 0 = x →
      Returns (deterministicInclusion ord g1 g2) (match x with
        | .ok r => .ok (some r)
        | .error .runtimeError => .ok none
        | .error e => .error e) := by
    rintro x rfl
    obtain ⟨N, hN⟩ := hret
    refine ⟨N, fun fuel hfu => ?_⟩
    have hN : pbfs ord (fun _ => g1) g2 [startPair g1 g2] pushAll (inclVisitor g1 g2) 0 fuel = _ := hN fuel hfu
    unfold deterministicInclusion
    rw [hN]
    unfold Pbfs.outcome
    cases emit (inclVisitor g1 g2) ([startPair g1 g2].map (fun p => .start p.1 p.2) ++ tr) 0 with
    | error e => cases e <;> rfl
    | ok r => rfl
  have hret' := hout _ hemit
  have hle : ∀ {L L' : List A → Prop}, (∀ w, L w → L' w) ↔ ¬∃ w, L w ∧ ¬L' w := by
    intro L L'
    constructor
    · rintro h ⟨w, hw, hn⟩; exact hn (h w hw)
    · intro h w hw
      by_contra hn
      exact h ⟨w, hw, hn⟩
  have heq : (∀ w, g1.Lang w ↔ g2.Lang w) ↔ (¬∃ w, g1.Lang w ∧ ¬g2.Lang w) ∧ ¬∃ w, g2.Lang w ∧ ¬g1.Lang w := by
    rw [← hle, ← hle]
    exact ⟨fun h => ⟨fun w => (h w).mp, fun w => (h w).mpr⟩, fun h w => ⟨h.1 w, h.2 w⟩⟩
  rw [heq, hle, hle, ← hA, ← hB]
  generalize ((Pbfs.examined tr).any fun p => g1.isFinalO p.1 && !g2.isFinalO p.2) = a at hret' ⊢
  generalize ((Pbfs.examined tr).any fun p => !g1.isFinalO p.1 && g2.isFinalO p.2) = b at hret' ⊢
  cases a <;> cases b
  · exact ⟨some 0, hret', by simp⟩
  · exact ⟨some 1, hret', by simp⟩
  · exact ⟨some (-1), hret', by simp⟩
  · exact ⟨none, hret', by simp⟩

/-- **C45**: `deterministic_inclusion(g1, g2)` terminates, whatever the order in which symbols are enumerated, and returns `0` when the
languages are equal, `1` when the first is strictly included in the second, `-1` when the second is strictly included in the first, and
`None` when they are incomparable. -/
theorem C45_inclusion {ord : SetOracle A} (ho : ord.Valid) {g1 g2 : Automaton A} (h1 : g1.Reachable) (h2 : g2.Reachable) :
    ∃ r, Returns (deterministicInclusion ord g1 g2) (.ok r) ∧
      (r = some 0 ↔ ∀ w, g1.Lang w ↔ g2.Lang w) ∧
      (r = some 1 ↔ (∀ w, g1.Lang w → g2.Lang w) ∧ ∃ w, g2.Lang w ∧ ¬g1.Lang w) ∧
      (r = some (-1) ↔ (∀ w, g2.Lang w → g1.Lang w) ∧ ∃ w, g1.Lang w ∧ ¬g2.Lang w) ∧
      (r = none ↔ (∃ w, g1.Lang w ∧ ¬g2.Lang w) ∧ ∃ w, g2.Lang w ∧ ¬g1.Lang w) :=
  Pbfs.inclusion_awf ho h1.awf h2.awf

section Examples

/-- Recognises `a*`. -/
def starHistory : List (AOp Char) := [.addVertex, .addEdge 0 0 'a', .setInitial 0 true, .setFinal 0 true]

/-- Recognises `(aa)*`. -/
def evenHistory : List (AOp Char) :=
  [.addVertex, .addVertex, .addEdge 0 1 'a', .addEdge 1 0 'a', .setInitial 0 true, .setFinal 0 true]

/-- The hypotheses of C44 and C45 are met, and the search meets several pairs: `(aa)*` is strictly included in `a*`. -/
example : ∃ g1 g2, Runs Automaton.exec Automaton.empty evenHistory g1 ∧ Runs Automaton.exec Automaton.empty starHistory g2 ∧
    deterministicInclusion (fun _ s => s) g1 g2 10 = some (.ok (some 1)) ∧
    deterministicInclusion (fun _ s => s) g2 g1 10 = some (.ok (some (-1))) ∧
    (pbfs (fun _ s => s) (fun _ => g1) g2 [startPair g1 g2] pushAll recorder [] 10).map (fun r => r.map fun x => Pbfs.examined x.2) =
      some (.ok [(some 0, some 0), (some 1, some 0)]) :=
  ⟨_, _, rfl, rfl, by decide, by decide, by decide⟩

end Examples

end PyBGL
