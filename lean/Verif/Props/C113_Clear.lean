import Verif.Proofs.Clear
import Verif.Props.C11_C13_C24_Automaton
import Verif.Props.C21_C22_NodeAutomaton
import Verif.Proofs.NfaWF

/-!
# C113: `clear()` on automata

`clear` is inherited from the graph classes: it removes the states and the transitions and resets the counter of states. It does not touch the
initial state, the final flags and the symbols attached to the states, so the states created afterwards inherit those of the states which had the
same number.
-/

namespace PyBGL
variable {A : Type} [DecidableEq A]

/-- Spec: what the public API shows of two automata is the same. -/
structure Automaton.SameView (g h : Automaton A) : Prop where
  vertices : g.vertices = h.vertices
  edges : g.edges = h.edges
  initial : g.initial = h.initial
  final : ∀ q, g.isFinal q = h.isFinal q
  next : g.addVertex.1 = h.addVertex.1

/-- Spec: two automata cannot be told apart, whatever is done next: the same calls on both raise the same exception, or show the same automaton. -/
def Automaton.SameBehaviour (g h : Automaton A) : Prop :=
  ∀ ops : List (AOp A), match ops.foldlM Automaton.exec g, ops.foldlM Automaton.exec h with
    | .ok g', .ok h' => g'.SameView h'
    | .error e, .error e' => e = e'
    | _, _ => False

/-- **C113, full statement**: a cleared automaton behaves like a new one. -/
def C113_statement : Prop :=
  ∀ g : Automaton Char, g.Reachable → ∃ g', g.clear = .ok g' ∧ g'.SameBehaviour .empty

/-- **C113 is false**: after `g.set_final(0); g.clear(); g.add_vertex()`, the new state 0 is final and the empty word is accepted. -/
theorem C113_counterexample : ¬ C113_statement := by
  intro h
  obtain ⟨g', h1, h2⟩ := h ⟨1, [(0, [])], some 0, [(0, true)]⟩ ⟨[.addVertex, .setFinal 0 true], rfl⟩
  have : g' = ⟨0, [], some 0, [(0, true)]⟩ := (Except.ok.inj h1).symm
  subst this
  exact absurd ((h2 []).final 0) (by decide)

/-- Same with the initial state: it is not reset either, so a word accepted by a new automaton is refused after the same calls on a cleared one. -/
theorem C113_initial_counterexample :
    ∃ (g g' h : Automaton Char) (ops : List (AOp Char)), g.Reachable ∧ g.clear = .ok g' ∧ (∀ q, g.isFinal q = false) ∧
      Runs Automaton.exec g' ops h ∧ h.accepts [] = false ∧
      ∃ h', Runs Automaton.exec .empty ops h' ∧ h'.accepts [] = true :=
  ⟨⟨2, [(0, []), (1, [])], some 1, []⟩, ⟨0, [], some 1, []⟩, ⟨1, [(0, [])], some 1, [(0, true)]⟩, [.addVertex, .setFinal 0 true],
    ⟨[.addVertex, .addVertex, .setInitial 1 true], rfl⟩, rfl, fun q => by simp [Automaton.isFinal, Dict.getD, Dict.get?], rfl, by decide,
    ⟨1, [(0, [])], some 0, [(0, true)]⟩, rfl, by decide⟩

/-- **C113, partial** (missing: the initial state and the final flags, see the counterexamples). On any automaton built by the public API `clear()`
does not raise, leaves neither states nor transitions, and makes the numbering start again from 0; the initial state and the flags are kept. -/
theorem C113_automaton_partial {g : Automaton A} (h : g.Reachable) :
    ∃ g', g.clear = .ok g' ∧ g'.vertices = [] ∧ g'.edges = [] ∧ g'.addVertex.1 = 0 ∧ g'.initial = g.initial ∧ (∀ q, g'.isFinal q = g.isFinal q) ∧
      g'.Reachable :=
  ⟨_, Automaton.clear_spec h.awf, rfl, rfl, rfl, rfl, fun _ => rfl, by
    have hc := Automaton.clear_spec h.awf
    obtain ⟨ops, hr⟩ := h
    refine ⟨ops ++ [.clear], ?_⟩
    have hr' : ops.foldlM Automaton.exec Automaton.empty = .ok g := hr
    unfold Runs
    rw [List.foldlM_append, hr']
    show [AOp.clear].foldlM Automaton.exec g = _
    rw [List.foldlM_cons]
    show (g.clear >>= fun s => [].foldlM Automaton.exec s) = _
    rw [hc]
    rfl⟩

namespace Automaton

/-- The automaton with other final flags. -/
def withFinal (g : Automaton A) (f : Dict Nat Bool) : Automaton A := { g with final := f }

theorem removeEdge_withFinal (g : Automaton A) (f : Dict Nat Bool) (e : EdgeDesc A) : (g.withFinal f).removeEdge e = (g.removeEdge e).withFinal f := by
  unfold removeEdge withFinal
  simp only
  cases g.adj.get? e.source with
  | none => rfl
  | some d => dsimp only; split <;> rfl

theorem foldl_removeEdge_withFinal (f : Dict Nat Bool) : ∀ (es : List (EdgeDesc A)) (g : Automaton A),
    es.foldl removeEdge (g.withFinal f) = (es.foldl removeEdge g).withFinal f
  | [], _ => rfl
  | e :: es, g => by
    rw [List.foldl_cons, List.foldl_cons, removeEdge_withFinal]
    exact foldl_removeEdge_withFinal f es _

theorem removeVertex_withFinal (g : Automaton A) (f : Dict Nat Bool) (u : Nat) :
    (g.withFinal f).removeVertex u = (g.removeVertex u).map fun g' => g'.withFinal f := by
  have h1 := foldl_removeEdge_withFinal f (g.edges.filter fun e => u = e.target) g
  unfold removeVertex
  simp only [show edges (g.withFinal f) = g.edges from rfl]
  rw [h1]
  generalize (g.edges.filter fun e => u = e.target).foldl removeEdge g = g1
  rw [show (g1.withFinal f).outEdges u = g1.outEdges u from rfl, foldl_removeEdge_withFinal f]
  generalize (g1.outEdges u).foldl removeEdge g1 = g2
  rw [show (g2.withFinal f).adj.delE u = g2.adj.delE u from rfl]
  cases g2.adj.delE u <;> rfl

theorem removeVertices_withFinal (f : Dict Nat Bool) : ∀ (us : List Nat) (g : Automaton A),
    us.foldlM removeVertex (g.withFinal f) = (us.foldlM removeVertex g).map fun g' => g'.withFinal f
  | [], _ => rfl
  | u :: us, g => by
    rw [List.foldlM_cons, List.foldlM_cons, removeVertex_withFinal]
    cases g.removeVertex u with
    | error e => rfl
    | ok g1 => exact removeVertices_withFinal f us g1

theorem clear_withFinal (g : Automaton A) (f : Dict Nat Bool) : (g.withFinal f).clear = g.clear.map fun g' => g'.withFinal f :=
  removeVertices_withFinal f g.vertices { g with lastVertexId := 0 }

/-- The two automata differ at most by the representation of their final flags. -/
def Like (g h : Automaton A) : Prop := ∃ f, h = g.withFinal f ∧ ∀ q, Dict.getD f q false = g.isFinal q

theorem like_map {x : Except PyErr (Automaton A)} {f : Dict Nat Bool} (hf : ∀ g', x = .ok g' → ∀ q, Dict.getD f q false = g'.isFinal q) :
    (∃ e, x = .error e ∧ (x.map fun g' => g'.withFinal f) = .error e) ∨
    (∃ g' h', x = .ok g' ∧ (x.map fun g' => g'.withFinal f) = .ok h' ∧ Like g' h') := by
  cases x with
  | error e => exact .inl ⟨e, rfl, rfl⟩
  | ok g' => exact .inr ⟨g', g'.withFinal f, rfl, rfl, f, rfl, hf g' rfl⟩

theorem removeVertices_final : ∀ (us : List Nat) {g g' : Automaton A}, us.foldlM removeVertex g = .ok g' → g'.final = g.final
  | [], _, _, h => by cases h; rfl
  | u :: us, g, g', h => by
    rw [List.foldlM_cons] at h
    cases h1 : g.removeVertex u with
    | error e => rw [h1] at h; cases h
    | ok g1 =>
      rw [h1] at h
      refine (removeVertices_final us h).trans ?_
      have h2 := removeVertex_withFinal g g.final u
      rw [show g.withFinal g.final = g from rfl, h1] at h2
      have := Except.ok.inj h2
      rw [this]; rfl

theorem like_exec {g h : Automaton A} (hl : Like g h) (op : AOp A) :
    (∃ e, g.exec op = .error e ∧ h.exec op = .error e) ∨ (∃ g' h', g.exec op = .ok g' ∧ h.exec op = .ok h' ∧ Like g' h') := by
  obtain ⟨f, rfl, hf⟩ := hl
  cases op with
  | addVertex => exact .inr ⟨_, _, rfl, rfl, f, rfl, hf⟩
  | addEdge q r a =>
    show (∃ e, (g.addEdge q r a).map (·.2.2) = .error e ∧ ((g.withFinal f).addEdge q r a).map (·.2.2) = .error e) ∨ _
    have : ((g.withFinal f).addEdge q r a).map (·.2.2) = ((g.addEdge q r a).map (·.2.2)).map fun g' => g'.withFinal f := by
      unfold addEdge
      rw [show (g.withFinal f).delta q a = g.delta q a from rfl, show (g.withFinal f).adj = g.adj from rfl]
      split
      · rfl
      · cases g.adj.getE q <;> rfl
    rw [show (g.withFinal f).exec (.addEdge q r a) = _ from this]
    rw [this]
    refine like_map fun g' hg' => ?_
    intro x
    rw [hf]
    have : g'.final = g.final := by
      unfold addEdge at hg'
      split at hg'
      · cases hg'; rfl
      · cases hq : g.adj.getE q with
        | error e => rw [hq] at hg'; cases hg'
        | ok d => rw [hq] at hg'; cases hg'; rfl
    unfold isFinal; rw [this]
  | removeEdge e =>
    refine .inr ⟨_, _, rfl, rfl, f, removeEdge_withFinal g f e, fun q => ?_⟩
    rw [hf]
    have : (g.removeEdge e).final = g.final := by
      have h2 := removeEdge_withFinal g g.final e
      rw [show g.withFinal g.final = g from rfl] at h2
      rw [h2]; rfl
    unfold isFinal; rw [this]
  | removeVertex u =>
    show (∃ e, g.removeVertex u = .error e ∧ (g.withFinal f).removeVertex u = .error e) ∨ _
    rw [show (g.withFinal f).exec (.removeVertex u) = _ from removeVertex_withFinal g f u, removeVertex_withFinal]
    refine like_map fun g' hg' q => ?_
    have h2 := removeVertices_final [u] (g := g) (g' := g') (by rw [List.foldlM_cons, hg']; rfl)
    rw [hf]; unfold isFinal; rw [h2]
  | setInitial q b =>
    refine .inr ⟨_, _, rfl, rfl, f, ?_, fun x => ?_⟩
    · unfold setInitial withFinal; simp only; split
      · rfl
      · split <;> rfl
    · rw [hf]; unfold isFinal setInitial; split
      · rfl
      · split <;> rfl
  | setFinal q b =>
    refine .inr ⟨_, _, rfl, rfl, f.set q b, rfl, fun x => ?_⟩
    have h2 := hf x
    unfold isFinal Dict.getD at *
    show ((f.set q b).get? x).getD false = ((g.final.set q b).get? x).getD false
    rw [Dict.get?_set, Dict.get?_set]
    split
    · rfl
    · exact h2
  | clear =>
    show (∃ e, g.clear = .error e ∧ (g.withFinal f).clear = .error e) ∨ _
    rw [show (g.withFinal f).exec .clear = _ from clear_withFinal g f, clear_withFinal]
    refine like_map fun g' hg' q => ?_
    have h2 := removeVertices_final _ hg'
    rw [hf]; unfold isFinal; rw [h2]

theorem Like.behaviour {g h : Automaton A} (hl : Like g h) : g.SameBehaviour h := by
  intro ops
  induction ops generalizing g h with
  | nil =>
    obtain ⟨f, rfl, hf⟩ := hl
    exact ⟨rfl, rfl, rfl, fun q => (hf q).symm, rfl⟩
  | cons op ops ih =>
    rw [List.foldlM_cons, List.foldlM_cons]
    rcases like_exec hl op with ⟨e, h1, h2⟩ | ⟨g', h', h1, h2, h3⟩
    · rw [h1, h2]; rfl
    · rw [h1, h2]; exact ih h3

end Automaton

/-- **C113** (`Automaton`, exactly when it holds): a cleared automaton behaves like a new one if and only if its initial state was still 0 and no state
was flagged as final. -/
theorem C113_automaton_new_iff {g : Automaton A} (h : g.Reachable) :
    ∃ g', g.clear = .ok g' ∧ (g'.SameBehaviour .empty ↔ g.initial = some 0 ∧ ∀ q, g.isFinal q = false) := by
  refine ⟨_, Automaton.clear_spec h.awf, ?_, ?_⟩
  · intro hb
    have := hb []
    exact ⟨this.initial, fun q => this.final q⟩
  · intro ⟨h1, h2⟩
    have h1' : g.q0 = some 0 := h1
    rw [h1']
    refine Automaton.Like.behaviour ⟨[], rfl, fun q => ?_⟩
    exact (h2 q).symm

example : ∃ g : Automaton Char, g.Reachable ∧ g.vertices = [0, 1] ∧ g.edges ≠ [] ∧ g.initial = some 0 ∧ ∀ q, g.isFinal q = false :=
  ⟨⟨2, [(0, [('a', 1)]), (1, [])], some 0, []⟩, ⟨[.addVertex, .addVertex, .addEdge 0 1 'a'], rfl⟩, rfl, by decide, rfl,
    fun q => by simp [Automaton.isFinal, Dict.getD, Dict.get?]⟩

/-- **C113, partial**: the language of a cleared automaton has at most the empty word, and has it exactly when the former initial state was final,
although the automaton has no state. -/
theorem C113_language {g : Automaton A} (h : g.Reachable) :
    ∃ g', g.clear = .ok g' ∧ ∀ w, g'.accepts w = true ↔ w = [] ∧ ∃ q, g.initial = some q ∧ g.isFinal q = true := by
  refine ⟨_, Automaton.clear_spec h.awf, fun w => ?_⟩
  have hd : ∀ (w : List A) q, w ≠ [] → Automaton.deltaWord (⟨0, [], g.q0, g.final⟩ : Automaton A) q w = none := by
    intro w
    induction w with
    | nil => intro q h; exact absurd rfl h
    | cons a w ih =>
      intro q _
      cases q with
      | none => rfl
      | some q =>
        show Automaton.deltaWord _ none w = none
        cases w with
        | nil => rfl
        | cons b w => rfl
  cases w with
  | nil =>
    unfold Automaton.accepts Automaton.deltaWord Automaton.initial
    cases g.q0 with
    | none => simp
    | some q => simp [Automaton.isFinal]
  | cons a w =>
    unfold Automaton.accepts
    rw [hd _ _ (by simp)]; simp

/-- **C113, partial** (`IncidenceAutomaton`, histories as in C13): same result, and no in-edge remains. -/
theorem C113_incidence_automaton_partial {g : IAutomaton A} (h : IAutomaton.SafeHistory g) :
    ∃ g', g.clear = .ok g' ∧ g'.a.vertices = [] ∧ g'.a.edges = [] ∧ (∀ r, g'.inEdges r = []) ∧ g'.addVertex.1 = 0 ∧
      g'.a.initial = g.a.initial ∧ (∀ q, g'.a.isFinal q = g.a.isFinal q) :=
  ⟨_, IAutomaton.clear_spec h.wf, rfl, rfl, fun _ => rfl, rfl, rfl, fun _ => rfl⟩

/-- **C113, partial** (`Nfa`): the set of initial states and the final flags are kept. -/
theorem C113_nfa_partial {g : Nfa A} (h : g.Reachable) :
    ∃ g', g.clear = .ok g' ∧ g'.vertices = [] ∧ g'.edges = [] ∧ g'.addVertex.1 = 0 ∧ g'.initials = g.initials ∧ (∀ q, g'.isFinal q = g.isFinal q) ∧
      g'.eps = g.eps := by
  have hw : Nfa.WF g := by
    obtain ⟨eps, qs, ops, h⟩ := h
    exact Runs.invariant (Nfa.WF_init eps qs 0) (fun _ _ _ => Nfa.WF_exec) h
  exact ⟨_, Nfa.clear_spec hw, rfl, rfl, rfl, rfl, fun _ => rfl, rfl⟩

/-- **C113 is false of `Nfa`** for the same reason: two former initial states stay initial. -/
theorem C113_nfa_counterexample :
    ∃ g g' : Nfa Char, g.Reachable ∧ g.clear = .ok g' ∧ g'.addVertex.2.accepts [] = true ∧ (Nfa.init 'e' [] 1).accepts [] = false :=
  ⟨⟨1, [(0, [])], [0], [(0, true)], 'e'⟩, ⟨0, [], [0], [(0, true)], 'e'⟩, ⟨'e', [], [.addVertex, .setFinal 0 true], rfl⟩, rfl, by decide, by decide⟩

/-- **C113, partial** (`NodeAutomaton`, histories as in C21): the symbols are kept too. -/
theorem C113_node_partial {g : NodeAutomaton A} (h : g.SafeHistory) :
    ∃ g', g.clear = .ok g' ∧ g'.vertices = [] ∧ g'.edges = [] ∧ (∀ a, (g'.addVertex a).1 = 0) ∧ g'.a.initial = g.a.initial ∧
      (∀ q, g'.a.isFinal q = g.a.isFinal q) ∧ ∀ q, g'.symbol q = g.symbol q :=
  ⟨_, NodeAutomaton.clear_spec h.wf, rfl, rfl, fun a => by cases a <;> rfl, rfl, fun _ => rfl, fun _ => rfl⟩

/-- **C113 is false of `NodeAutomaton`**: a state created without a symbol after `clear()` carries the symbol of the former state of the same number. -/
theorem C113_node_counterexample :
    ∃ g g' : NodeAutomaton Char, g.SafeHistory ∧ g.clear = .ok g' ∧ (g'.addVertex none).2.symbol (g'.addVertex none).1 = some 'a' ∧
      ((NodeAutomaton.empty : NodeAutomaton Char).addVertex none).2.symbol 0 = none :=
  ⟨⟨⟨1, [(0, [])], some 0, []⟩, [(0, 'a')]⟩, ⟨⟨0, [], some 0, []⟩, [(0, 'a')]⟩,
    .step (op := .addVertex (some 'a')) .new (by trivial) rfl, rfl, by decide, by decide⟩

/-- **C113, partial** (`IncidenceNodeAutomaton`, histories as in C22): same result, and no in-edge remains. -/
theorem C113_incidence_node_partial {g : INodeAutomaton A} (h : g.SafeHistory) :
    ∃ g', g.clear = .ok g' ∧ g'.n.vertices = [] ∧ g'.n.edges = [] ∧ (∀ r, g'.inEdges r = []) ∧ (∀ a, (g'.addVertex a).1 = 0) ∧
      g'.n.a.initial = g.n.a.initial ∧ (∀ q, g'.n.a.isFinal q = g.n.a.isFinal q) ∧ ∀ q, g'.n.symbol q = g.n.symbol q := by
  obtain ⟨pred, h1, h2⟩ := INodeAutomaton.clear_spec h.wf
  refine ⟨_, h1, rfl, rfl, fun r => ?_, fun a => by cases a <;> rfl, rfl, fun _ => rfl, fun _ => rfl⟩
  unfold INodeAutomaton.inEdges
  rw [h2]; rfl

example : ∃ g : INodeAutomaton Char, g.SafeHistory ∧ g.n.edges ≠ [] ∧ g.inEdges 1 ≠ [] :=
  ⟨⟨⟨⟨2, [(0, [(some 'b', 1)]), (1, [])], some 0, []⟩, [(0, 'a'), (1, 'b')]⟩, [(1, [0])]⟩,
    .step (op := .addEdge 0 1) (.step (op := .addVertex (some 'b')) (.step (op := .addVertex (some 'a')) .new (by trivial) rfl) (by trivial) rfl)
      (by show (1 : Nat) ∈ [0, 1]; decide) rfl, by decide, by decide⟩

end PyBGL
