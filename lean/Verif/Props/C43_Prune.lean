import Verif.Proofs.Prune
import Verif.Props.C11_C13_C24_Automaton

/-!
# C43: `prune_incidence_automaton`
-/

namespace PyBGL
open Automaton
variable {A : Type} [DecidableEq A]

/-- A state is useful when some path leads to it from the initial state and some path leads from it to a final state. -/
def Useful (g : Automaton A) (q : Nat) : Prop :=
  q ∈ g.vertices ∧ (∃ q0 w, g.q0 = some q0 ∧ LPath g.Trans q0 w q) ∧ ∃ w f, LPath g.Trans q w f ∧ g.isFinal f = true

/-- **C43** (language): `prune_incidence_automaton` terminates normally and preserves the accepted language, whatever the order in which
sets are enumerated. -/
theorem C43_language {g : IAutomaton A} (h : IAutomaton.SafeHistory g) {ord : SetOracle Nat} (ho : ord.Valid) :
    ∃ g', Returns (pruneIncidenceAutomaton ord g) (.ok g') ∧ ∀ w, g'.a.accepts w = true ↔ g.a.accepts w = true := by
  obtain ⟨g', h1, h2, h3, h4, h5, h6⟩ := Prune.spec h.wf ho
  have hw := h.wf
  refine ⟨g', h1, fun w => ?_⟩
  rw [accepts_iff h2.out, accepts_iff hw.out]
  have hfin : ∀ f, g'.a.isFinal f = g.a.isFinal f := fun f => by simp [isFinal, h4]
  constructor
  · rintro ⟨q0, f, hq, hp, hf⟩
    refine ⟨q0, f, by rw [← h3, hq], hp.mono ?_, by rw [← hfin, hf]⟩
    intro q a r ht
    rw [trans_iff h2.out, h6] at ht
    exact (trans_iff hw.out).2 ht.1
  · rintro ⟨q0, f, hq, hp, hf⟩
    refine ⟨q0, f, by rw [h3, hq], ?_, by rw [hfin, hf]⟩
    have key : ∀ q w f, LPath g.a.Trans q w f → g.a.isFinal f = true → (∃ u, LPath g.a.Trans q0 u q) → LPath g'.a.Trans q w f := by
      clear hp hf
      intro q w f hp
      induction hp with
      | nil => intro _ _; exact .nil _
      | @cons q r f a w ht hp ih =>
        rintro hf ⟨u, hu⟩
        have hr := hu.snoc ht
        have hd := (trans_iff hw.out).1 ht
        have hfv : f ∈ g.a.vertices := by
          rcases hw.lpath_mem hp with rfl | hv
          · exact hw.target_mem hd
          · exact hv
        have hs : Prune.Source g f := ⟨hfv, .inl hf⟩
        refine .cons ((trans_iff h2.out).2 ((h6 q a r).2 ⟨hd, (h5 q).2 ⟨?_, ⟨q0, u, hq, hu⟩, ⟨_, f, .cons ht hp, hs⟩⟩,
          (h5 r).2 ⟨?_, ⟨q0, _, hq, hr⟩, ⟨_, f, hp, hs⟩⟩⟩)) (ih hf ⟨_, hr⟩)
        · exact delta_mem_vertices hd
        · exact hw.target_mem hd
    exact key q0 w f hp hf ⟨[], .nil _⟩

/-- The full statement of C43 about states: exactly the useful states remain. -/
def C43_statement : Prop :=
  ∀ (g : IAutomaton Char) (ord : SetOracle Nat), IAutomaton.SafeHistory g → ord.Valid →
    ∃ g', Returns (pruneIncidenceAutomaton ord g) (.ok g') ∧ ∀ q, q ∈ g'.a.vertices ↔ Useful g.a q

/-- **C43 is false of the code** for automata without final states: `depth_first_search_graph` reads an empty set of sources as "all the
vertices", so that no state is removed for want of a final state. -/
theorem C43_states_counterexample : ¬ C43_statement := by
  intro h
  have hs : IAutomaton.SafeHistory (IAutomaton.init 1 : IAutomaton Char) := .step .new (op := .addVertex) trivial rfl
  obtain ⟨g', ⟨N, hN⟩, hv⟩ := h (IAutomaton.init 1) (fun _ s => s) hs (fun _ _ => .refl _)
  obtain ⟨g'', h1, _, _, _, h5, _⟩ := Prune.spec hs.wf (ord := fun _ s => s) (fun _ _ => .refl _)
  have e : g' = g'' := by simpa using returns_unique ⟨N, hN⟩ h1
  subst e
  have : (0 : Nat) ∈ g'.a.vertices := (h5 0).2 ⟨by decide, ⟨0, [], rfl, .nil _⟩, [], 0, .nil _, by decide, .inr rfl⟩
  obtain ⟨_, _, w, f, _, hf⟩ := (hv 0).1 this
  revert hf
  show ¬ (false = true)
  decide

/-- **C43, partial** (missing: automata without final states, for which the claim is false): exactly the useful states and the transitions between
them remain. -/
theorem C43_states_partial {g : IAutomaton A} (h : IAutomaton.SafeHistory g) {ord : SetOracle Nat} (ho : ord.Valid)
    (hf : g.a.finals ≠ []) :
    ∃ g', Returns (pruneIncidenceAutomaton ord g) (.ok g') ∧ (∀ q, q ∈ g'.a.vertices ↔ Useful g.a q) ∧
      ∀ e, e ∈ g'.a.edges ↔ e ∈ g.a.edges ∧ Useful g.a e.source ∧ Useful g.a e.target := by
  obtain ⟨g', h1, h2, h3, h4, h5, h6⟩ := Prune.spec h.wf ho
  have hw := h.wf
  have hv : ∀ q, q ∈ g'.a.vertices ↔ Useful g.a q := by
    intro q
    rw [h5]
    constructor
    · rintro ⟨hq, hr, w, f, hp, hs⟩
      exact ⟨hq, hr, w, f, hp, hs.2.resolve_right hf⟩
    · rintro ⟨hq, hr, w, f, hp, hs⟩
      refine ⟨hq, hr, w, f, hp, ?_, .inl hs⟩
      rcases hw.lpath_mem hp with rfl | h
      · exact hq
      · exact h
  refine ⟨g', h1, hv, fun e => ?_⟩
  rw [mem_edges h2.out, mem_edges hw.out, h6, hv, hv]

/-- What happens without final states: exactly the states reachable from the initial state remain. -/
theorem C43_no_finals_partial {g : IAutomaton A} (h : IAutomaton.SafeHistory g) {ord : SetOracle Nat} (ho : ord.Valid)
    (hf : g.a.finals = []) :
    ∃ g', Returns (pruneIncidenceAutomaton ord g) (.ok g') ∧
      ∀ q, q ∈ g'.a.vertices ↔ q ∈ g.a.vertices ∧ ∃ q0 w, g.a.q0 = some q0 ∧ LPath g.a.Trans q0 w q := by
  obtain ⟨g', h1, h2, h3, h4, h5, h6⟩ := Prune.spec h.wf ho
  refine ⟨g', h1, fun q => ?_⟩
  rw [h5]
  exact ⟨fun ⟨a, b, _⟩ => ⟨a, b⟩, fun ⟨a, b⟩ => ⟨a, b, [], q, .nil _, a, .inr hf⟩⟩

/-! ## A concrete case -/

namespace Examples

/-- 0 -a-> 1 -b-> 2, 0 -c-> 3 and 4 -a-> 2, with 2 final: 3 and 4 are useless. -/
def pruneHistory : List (AOp Char) :=
  [.addVertex, .addVertex, .addVertex, .addVertex, .addVertex, .addEdge 0 1 'a', .addEdge 1 2 'b', .addEdge 0 3 'c', .addEdge 4 2 'a',
   .setFinal 2 true]

example : (pruneHistory.foldlM IAutomaton.exec (IAutomaton.empty : IAutomaton Char)).toOption.bind
    (fun g => (pruneIncidenceAutomaton (fun _ s => s) g 20).bind (fun r => r.toOption.map (fun g' => (g.a.finals, g'.a.vertices)))) =
    some ([2], [0, 1, 2]) := by decide

end Examples
end PyBGL
