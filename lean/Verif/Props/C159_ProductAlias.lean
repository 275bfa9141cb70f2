import Verif.Proofs.ProductAlias
import Verif.Props.C141_ProductInto

/-!
# C159: products computed in place

`deterministic_intersection(g1, g2, g12)` and `deterministic_union(g1, g2, g12)` where `g12` is `g1`, `g2`, or both.
-/

namespace PyBGL
open Automaton
variable {A : Type} [DecidableEq A]

/-- The initial state and the targets of the transitions of `d` are states of `d`. -/
def Automaton.WithinStates (d : Automaton A) : Prop := (∀ q, d.initial = some q → q ∈ d.vertices) ∧ ∀ e ∈ d.edges, e.target ∈ d.vertices

/-- **C159**: whichever of `g1` and `g2` is the object `g12`, `deterministic_intersection` returns the automaton that it returns when `g12` is another object with the
same content: it appends to `g12` the intersection of what `g1` and `g2` were. -/
theorem C159_intersection {d : Automaton A} {x1 x2 : ProductArg A} {ord : SetOracle A} (hd : d.Reachable) (hw : d.WithinStates) (h1 : (x1.read d).Reachable)
    (h2 : (x2.read d).Reachable) (ho : ord.Valid) (i1 : (x1.read d).q0 ≠ none) (i2 : (x2.read d).q0 ≠ none) :
    deterministicIntersectionA ord x1 x2 d = deterministicIntersectionInto ord (x1.read d) (x2.read d) d ∧
      ∃ d' g, Returns (deterministicIntersectionA ord x1 x2 d) (.ok d') ∧ Returns (deterministicIntersection ord (x1.read d) (x2.read d)) (.ok g) ∧ d'.Reachable ∧
        d.Appended g d' ∧ (CommonFirst (x1.read d) (x2.read d) → d'.q0 = g.q0.map (d.lastVertexId + ·)) ∧ (¬ CommonFirst (x1.read d) (x2.read d) → d' = d) := by
  have he := Alias.inter_eq hd.awf hw.1 hw.2 x1 x2 ord
  obtain ⟨d', g, k1, k2, k3, _, k5, k6, k7⟩ := C141_intersection h1 h2 hd ho i1 i2
  exact ⟨he, d', g, he ▸ k1, k2, k3, k5, k6, k7⟩

/-- What `C47` asks of the operands: no pair of states other than the pair of initial states contains an initial state again. -/
def Automaton.StartsOnce (g1 g2 : Automaton A) : Prop :=
  ∀ u p, u ≠ [] → g1.After u p.1 → g2.After u p.2 → p ≠ (none, none) → p.1 = g1.initial ∨ p.2 = g2.initial → p = (g1.initial, g2.initial)

theorem Alias.union_eq_of {d : Automaton A} {x1 x2 : ProductArg A} {ord : SetOracle A} (hd : d.Reachable) (hw : d.WithinStates) (h1 : (x1.read d).Reachable)
    (h2 : (x2.read d).Reachable) (hz : StartsOnce (x1.read d) (x2.read d)) : deterministicUnionA ord x1 x2 d = deterministicUnionInto ord (x1.read d) (x2.read d) d := by
  refine Alias.union_eq hd.awf hw.1 hw.2 x1 x2 ?_ ord
  intro w hn hb
  have hne : w ≠ [] := by rintro rfl; exact hn rfl
  have := fun h => hn (hz w (Pbfs.pairOf (x1.read d) (x2.read d) w) hne ((after_iff h1.awf).mpr rfl) ((after_iff h2.awf).mpr rfl) hb h)
  exact ⟨fun h => this (.inl h), fun h => this (.inr h)⟩

/-- **C159**, for `deterministic_union`, when no pair of states other than the first one contains an initial state. -/
theorem C159_union_partial {d : Automaton A} {x1 x2 : ProductArg A} {ord : SetOracle A} (hd : d.Reachable) (hw : d.WithinStates) (h1 : (x1.read d).Reachable)
    (h2 : (x2.read d).Reachable) (ho : ord.Valid) (hz : StartsOnce (x1.read d) (x2.read d)) :
    deterministicUnionA ord x1 x2 d = deterministicUnionInto ord (x1.read d) (x2.read d) d ∧
      ∃ d' g, Returns (deterministicUnionA ord x1 x2 d) (.ok d') ∧ Returns (deterministicUnion ord (x1.read d) (x2.read d)) (.ok g) ∧ d'.Reachable ∧
        d.Appended g d' ∧ (SomeFirst (x1.read d) (x2.read d) → d'.q0 = g.q0.map (d.lastVertexId + ·)) ∧ (¬ SomeFirst (x1.read d) (x2.read d) → d' = d) := by
  have he := Alias.union_eq_of hd hw h1 h2 hz (ord := ord)
  obtain ⟨d', g, k1, k2, k3, _, k5, k6, k7⟩ := C141_union h1 h2 hd ho
  exact ⟨he, d', g, he ▸ k1, k2, k3, k5, k6, k7⟩

/-- **C159**, the languages: `g12` then accepts the words of `g1` or `g2`, provided that a transition leaves one of the initial states; otherwise it is
unchanged. -/
theorem C159_union_lang_partial {d : Automaton A} {x1 x2 : ProductArg A} {ord : SetOracle A} (hd : d.Reachable) (hw : d.WithinStates) (h1 : (x1.read d).Reachable)
    (h2 : (x2.read d).Reachable) (ho : ord.Valid) (hz : StartsOnce (x1.read d) (x2.read d)) (hf : ∀ q, d.lastVertexId ≤ q → d.isFinal q = false) :
    ∃ d', Returns (deterministicUnionA ord x1 x2 d) (.ok d') ∧
      (SomeFirst (x1.read d) (x2.read d) → ∀ w, d'.Lang w ↔ (x1.read d).Lang w ∨ (x2.read d).Lang w) ∧ (¬ SomeFirst (x1.read d) (x2.read d) → d' = d) := by
  obtain ⟨_, d', g, k1, k2, k3, k5, k6, k7⟩ := C159_union_partial hd hw h1 h2 ho hz
  obtain ⟨g', l1, l2, l3⟩ := C47_partial h1 h2 ho hz
  cases returns_unique k2 l1
  obtain ⟨_, g', _, m1, _, m2, _⟩ := C141_union h1 h2 hd ho
  cases returns_unique k2 m1
  refine ⟨d', k1, fun hs w => ?_, k7⟩
  rw [k5.lang k3.awf m2.awf (k6 hs) hf]
  by_cases hwn : w = []
  · subst hwn
    rw [l3]
    obtain ⟨a, r, h⟩ := hs
    exact ⟨fun h => h.1, fun k => ⟨k, a, r, h⟩⟩
  · exact l2 w hwn

/-- The states of an automaton read twice. -/
theorem StartsOnce.self {d : Automaton A} (hd : d.Reachable) : StartsOnce d d := by
  intro u p _ h1 h2 _ h
  rw [after_iff hd.awf] at h1 h2
  have : p.1 = p.2 := h1.symm.trans h2
  rcases h with h | h
  · exact Prod.ext h (this ▸ h)
  · exact Prod.ext (this.trans h) h

/-- **C159**: `deterministic_union(g, g, g)` leaves the language of `g` unchanged. -/
theorem C159_union_same {d : Automaton A} {ord : SetOracle A} (hd : d.Reachable) (hw : d.WithinStates) (ho : ord.Valid) (hf : ∀ q, d.lastVertexId ≤ q → d.isFinal q = false) :
    ∃ d', Returns (deterministicUnionA ord .same .same d) (.ok d') ∧ ∀ w, d'.Lang w ↔ d.Lang w := by
  obtain ⟨d', k1, k2, k3⟩ := C159_union_lang_partial (x1 := .same) (x2 := .same) hd hw hd hd ho (StartsOnce.self hd) hf
  refine ⟨d', k1, fun w => ?_⟩
  by_cases hs : SomeFirst d d
  · exact (k2 hs w).trans or_self_iff
  · rw [k3 hs]

/-- **C159**: `deterministic_intersection(g, g, g)` leaves the language of `g` unchanged when its initial state is the state 0. -/
theorem C159_intersection_same {d : Automaton A} {ord : SetOracle A} (hd : d.Reachable) (hw : d.WithinStates) (ho : ord.Valid)
    (hf : ∀ q, d.lastVertexId ≤ q → d.isFinal q = false) (h0 : d.initial = some 0) :
    ∃ d', Returns (deterministicIntersectionA ord .same .same d) (.ok d') ∧ ∀ w, d'.Lang w ↔ d.Lang w := by
  have hi : d.q0 ≠ none := by intro h; unfold initial at h0; rw [h] at h0; cases h0
  obtain ⟨_, d', g, k1, k2, k3, k5, k6, k7⟩ := C159_intersection (x1 := .same) (x2 := .same) hd hw hd hd ho hi hi
  change Returns (deterministicIntersection ord d d) (.ok g) at k2
  change CommonFirst d d → _ at k6
  change ¬ CommonFirst d d → _ at k7
  obtain ⟨g', l1, l2, l3⟩ := C46_exact hd hd ho hi hi
  cases returns_unique k2 l1
  obtain ⟨_, g', _, m1, _, m2, _⟩ := C141_intersection hd hd hd ho hi hi
  cases returns_unique k2 m1
  refine ⟨d', k1, fun w => ?_⟩
  by_cases hs : CommonFirst d d
  · rw [k5.lang k3.awf m2.awf (k6 hs) hf]
    by_cases hwn : w = []
    · subst hwn
      rw [l3]
      exact ⟨fun h => h.1, fun k => ⟨k, k, hs⟩⟩
    · rw [l2 w hwn]
      refine ⟨fun h => h.1, fun k => ⟨k, k, fun u v r1 r2 _ _ _ a1 a2 => ?_⟩⟩
      rw [after_iff hd.awf] at a1 a2
      have hr : r1 = r2 := Option.some.inj (a1.symm.trans a2)
      subst hr
      by_cases hz : r1 = 0
      · subst hz; exact .inr ⟨h0, h0⟩
      · exact .inl ⟨hz, hz⟩
  · rw [k7 hs]

/-- The hypotheses are met: an automaton that recognises `aa*`, intersected in place with one that recognises `a*`, and united in place with itself. -/
example : ∃ g1 g2 : Automaton Char, Runs Automaton.exec Automaton.empty plusHistory g1 ∧ Runs Automaton.exec Automaton.empty starHistory g2 ∧
    (deterministicIntersectionA (fun _ s => s) .same (.other g2) g1 9).map (fun r => r.toOption.map fun g => (g.accepts ['a'], g.accepts [])) = some (some (true, false)) ∧
    (deterministicUnionA (fun _ s => s) .same .same g1 9).map (fun r => r.toOption.map fun g => (g.accepts ['a', 'a'], g.accepts [])) = some (some (true, false)) ∧
    g1.vertices = [0, 1] ∧ g1.initial = some 0 ∧ g1.edges.map (·.target) = [1, 1] :=
  ⟨_, _, rfl, rfl, by decide, by decide, by decide, by decide, by decide⟩

/-- **C159**, the other unions: the hypothesis cannot be dropped. The union of `a*` with `b` put in place of `a*` is not the one put into another automaton with the same
content: only the first accepts `b`. -/
theorem C159_union_counterexample : ∃ g1 g2 : Automaton Char, Runs Automaton.exec Automaton.empty starHistory g1 ∧ Runs Automaton.exec Automaton.empty letterHistory g2 ∧
    (deterministicUnionA (fun _ s => s) .same (.other g2) g1 9).map (fun r => r.toOption.map fun g => g.accepts ['b']) = some (some true) ∧
    (deterministicUnionInto (fun _ s => s) g1 g2 g1 9).map (fun r => r.toOption.map fun g => g.accepts ['b']) = some (some false) :=
  ⟨_, _, rfl, rfl, by decide, by decide⟩

end PyBGL
