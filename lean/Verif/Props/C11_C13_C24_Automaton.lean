import Verif.Proofs.InEdges

/-!
# C11, C12, C13, C24, C78: `Automaton` and `IncidenceAutomaton`
-/

namespace PyBGL
open Automaton
variable {A : Type} [DecidableEq A]

/-- An automaton with states 0, 1, 2, used as a witness: 0 -a-> 1, 1 -b-> 2, 2 -a-> 0, final 2. -/
def exAutomaton : List (AOp Char) :=
  [.addVertex, .addVertex, .addVertex, .addEdge 0 1 'a', .addEdge 1 2 'b', .addEdge 2 0 'a',
   .setInitial 0 true, .setFinal 2 true]

/-- The state reached by `exAutomaton`. -/
def exA : Automaton Char :=
  ⟨3, [(0, [('a', 1)]), (1, [('b', 2)]), (2, [('a', 0)])], some 0, [(2, true)]⟩

theorem exA_reachable : exA.Reachable := ⟨exAutomaton, rfl⟩

/-! ## C11 -/

/-- **C11, full statement.** -/
def C11_statement (A : Type) [DecidableEq A] : Prop :=
  ∀ (g : Automaton A), g.Reachable → ∀ q ∈ g.vertices, ∀ r a,
    ((∃ r', (⟨q, r', a⟩ : EdgeDesc A) ∈ g.edges) → g.addEdge q r a = .ok (none, false, g)) ∧
    ((¬ ∃ r', (⟨q, r', a⟩ : EdgeDesc A) ∈ g.edges) →
      ∃ g', g.addEdge q r a = .ok (some ⟨q, r, a⟩, true, g') ∧
        ∀ e, e ∈ g'.edges ↔ e ∈ g.edges ∨ e = ⟨q, r, a⟩)

/-- **C11 is false of the code**: a transition towards state 0 is silently overwritten, because
automaton.py:92 tests the truthiness of `delta(q, a)`. -/
theorem C11_add_edge_counterexample : ¬ C11_statement Char := by
  intro h
  have := (h exA exA_reachable 2 (by decide) 1 'a').1 ⟨0, by decide⟩
  have h2 : exA.addEdge 2 1 'a' = .ok (some ⟨2, 1, 'a'⟩, true,
    ⟨3, [(0, [('a', 1)]), (1, [('b', 2)]), (2, [('a', 1)])], some 0, [(2, true)]⟩) := rfl
  rw [h2] at this
  injection this with this
  injection this with this
  cases this

/-- **C11, partial** (missing: existing transitions whose target is state 0, see the counterexample):
`add_edge(q, r, a)` leaves the automaton unchanged and returns `(None, False)` when a transition
labelled `a` towards a state other than 0 leaves `q`, and otherwise, when no transition labelled `a`
leaves `q`, it adds exactly that transition; vertices, initial and final states are unchanged. An
unknown source raises `KeyError`. -/
theorem C11_add_edge_partial {g : Automaton A} (h : g.Reachable) (q r : Nat) (a : A) :
    (∀ r', (⟨q, r', a⟩ : EdgeDesc A) ∈ g.edges → r' ≠ 0 → g.addEdge q r a = .ok (none, false, g)) ∧
    (q ∈ g.vertices → (∀ r', (⟨q, r', a⟩ : EdgeDesc A) ∉ g.edges) →
      ∃ g', g.addEdge q r a = .ok (some ⟨q, r, a⟩, true, g') ∧
        (∀ e, e ∈ g'.edges ↔ e ∈ g.edges ∨ e = ⟨q, r, a⟩) ∧ g'.vertices = g.vertices ∧
        g'.q0 = g.q0 ∧ g'.final = g.final) ∧
    (q ∉ g.vertices → g.addEdge q r a = .error .keyError) := by
  have hg := h.awf
  refine ⟨?_, ?_, addEdge_of_not_mem⟩
  · intro r' hr' hne
    rw [mem_edges hg] at hr'
    obtain ⟨k, rfl⟩ : ∃ k, r' = k + 1 := ⟨r' - 1, by omega⟩
    exact addEdge_of_succ hr'
  · intro hq hno
    have hd : g.delta q a = none := by
      cases hd : g.delta q a with
      | none => rfl
      | some r' => exact absurd ((mem_edges hg (e := ⟨q, r', a⟩)).2 hd) (hno r')
    refine ⟨_, addEdge_of_free (.inl hd) hq, ?_, vertices_setDelta r a hq, rfl, rfl⟩
    rintro ⟨q', r', a'⟩
    rw [mem_edges (AWF_setDelta hg r a hq), mem_edges hg, delta_setDelta]
    simp only [EdgeDesc.mk.injEq]
    by_cases h : q = q' ∧ a = a'
    · obtain ⟨rfl, rfl⟩ := h
      simp [hd, eq_comm]
    · rw [if_neg h]
      constructor
      · exact Or.inl
      · rintro (h' | ⟨rfl, rfl, rfl⟩)
        · exact h'
        · exact absurd ⟨rfl, rfl⟩ h

/-- **C11, what really happens at state 0**: the transition towards 0 is replaced. -/
theorem C11_add_edge_overwrites_partial {g : Automaton A} (h : g.Reachable) (q r : Nat) (a : A)
    (h0 : (⟨q, 0, a⟩ : EdgeDesc A) ∈ g.edges) :
    ∃ g', g.addEdge q r a = .ok (some ⟨q, r, a⟩, true, g') ∧
      ∀ e, e ∈ g'.edges ↔ (e ∈ g.edges ∧ e ≠ ⟨q, 0, a⟩) ∨ e = ⟨q, r, a⟩ := by
  have hg := h.awf
  rw [mem_edges hg] at h0
  have hq := delta_mem_vertices h0
  refine ⟨_, addEdge_of_free (.inr h0) hq, ?_⟩
  rintro ⟨q', r', a'⟩
  rw [mem_edges (AWF_setDelta hg r a hq), mem_edges hg, delta_setDelta]
  simp only [EdgeDesc.mk.injEq, ne_eq] at h0 ⊢
  by_cases h : q = q' ∧ a = a'
  · obtain ⟨rfl, rfl⟩ := h
    simp only [and_self, if_true, h0, true_and, and_true, Option.some.injEq]
    constructor
    · intro h; exact Or.inr h.symm
    · rintro (⟨h, h'⟩ | h)
      · exact absurd h.symm h'
      · exact h.symm
  · rw [if_neg h]
    constructor
    · intro hd
      exact Or.inl ⟨hd, fun ⟨h1, _, h3⟩ => h ⟨h1.symm, h3.symm⟩⟩
    · rintro (⟨h', _⟩ | ⟨rfl, rfl, rfl⟩)
      · exact h'
      · exact absurd ⟨rfl, rfl⟩ h

example : exA.Reachable ∧ (⟨0, 1, 'a'⟩ : EdgeDesc Char) ∈ exA.edges ∧ (1 : Nat) ≠ 0 ∧
    (0 ∈ exA.vertices ∧ ∀ r', (⟨0, r', 'b'⟩ : EdgeDesc Char) ∉ exA.edges) ∧
    (⟨2, 0, 'a'⟩ : EdgeDesc Char) ∈ exA.edges :=
  ⟨exA_reachable, by decide, by decide, ⟨by decide, by
    intro r'; rw [mem_edges exA_reachable.awf]
    show ¬ (none = some r'); simp⟩, by decide⟩

/-! ## C12 -/

/-- **C12**: `accepts(w)` is `True` iff a path of transitions labelled `w` leads from the initial state
to a final state. -/
theorem C12_accepts {g : Automaton A} (h : g.Reachable) (w : List A) :
    g.accepts w = true ↔
      ∃ q₀ f, g.initial = some q₀ ∧ LPath (fun q a r => (⟨q, r, a⟩ : EdgeDesc A) ∈ g.edges) q₀ w f ∧
        g.isFinal f = true :=
  accepts_iff h.awf w

/-- **C12**: `delta_word` follows the unique path, and composes. -/
theorem C12_delta_word {g : Automaton A} (h : g.Reachable) (q : Nat) (u v : List A) :
    (∀ r, g.deltaWord (some q) u = some r ↔
      LPath (fun q a r => (⟨q, r, a⟩ : EdgeDesc A) ∈ g.edges) q u r) ∧
    g.deltaWord (some q) (u ++ v) = g.deltaWord (g.deltaWord (some q) u) v ∧
    (∀ r r', LPath (fun q a r => (⟨q, r, a⟩ : EdgeDesc A) ∈ g.edges) q u r →
      LPath (fun q a r => (⟨q, r, a⟩ : EdgeDesc A) ∈ g.edges) q u r' → r = r') := by
  refine ⟨fun r => deltaWord_iff h.awf, deltaWord_append _ _ _ _, ?_⟩
  intro r r' h1 h2
  have e1 := (deltaWord_iff h.awf).2 h1
  have e2 := (deltaWord_iff h.awf).2 h2
  rw [e1] at e2; cases e2; rfl

example : exA.Reachable ∧ exA.accepts ['a', 'b'] = true ∧ exA.accepts ['a', 'b', 'a'] = false ∧
    exA.deltaWord (some 0) ['a', 'b', 'a'] = some 0 := ⟨exA_reachable, rfl, rfl, rfl⟩

/-! ## C13 -/

/-- The history of an `IncidenceAutomaton` that follows an overwritten transition towards state 0. -/
def badHistory : List (AOp Char) :=
  [.addVertex, .addVertex, .addVertex, .addEdge 1 0 'a', .addEdge 1 2 'a']

/-- **C13 is false of the code**: after `add_edge(1, 0, a)` and `add_edge(1, 2, a)`, `in_edges(0)`
still yields the overwritten transition. -/
theorem C13_in_edges_counterexample :
    ¬ ∀ (ops : List (AOp Char)) (g : IAutomaton Char), Runs IAutomaton.exec .empty ops g →
      ∀ r e, e ∈ g.inEdges r ↔ e ∈ g.a.edges ∧ e.target = r := by
  intro h
  have hrun : Runs IAutomaton.exec (.empty : IAutomaton Char) badHistory
    ⟨⟨3, [(0, []), (1, [('a', 2)]), (2, [])], some 0, []⟩,
      [(0, [(1, ['a'])]), (1, []), (2, [(1, ['a'])])]⟩ := rfl
  have := (h _ _ hrun 0 ⟨1, 0, 'a'⟩).1 (by decide)
  exact absurd this.1 (by decide)

/-- "`remove_vertex(q)` succeeds whenever `q` is a state." -/
def C13_remove_vertex_statement : Prop :=
  ∀ (ops : List (AOp Char)) (g : IAutomaton Char), Runs IAutomaton.exec .empty ops g →
    ∀ q ∈ g.a.vertices, ∃ g', g.removeVertex q = .ok g'

/-- **`remove_vertex` can raise `KeyError` on a state**: after the same history, `remove_vertex(0)`
follows the stale in-edge of 0 and deletes the transition from 1 to 2 that replaced it; the in-edge of
2 is then stale in its turn, and `remove_vertex(2)` raises `KeyError`. -/
theorem C13_remove_vertex_counterexample :
    ¬ C13_remove_vertex_statement ∧
    ∃ g : IAutomaton Char, Runs IAutomaton.exec .empty (badHistory ++ [.removeVertex 0]) g ∧
      g.a.vertices = [1, 2] ∧ g.a.edges = [] ∧ g.inEdges 2 = [⟨1, 2, 'a'⟩] ∧
      g.removeVertex 2 = .error .keyError := by
  have hrun : Runs IAutomaton.exec (.empty : IAutomaton Char) (badHistory ++ [.removeVertex 0])
    ⟨⟨3, [(1, []), (2, [])], some 0, []⟩, [(1, []), (2, [(1, ['a'])])]⟩ := rfl
  refine ⟨fun h => ?_, _, hrun, rfl, rfl, rfl, rfl⟩
  obtain ⟨g', hg'⟩ := h _ _ hrun 2 (by decide)
  cases hg'

/-- Histories in which `add_edge(q, r, a)` is not called on a transition towards state 0, and
`remove_edge` is only called with edges of the automaton. -/
inductive IAutomaton.SafeHistory : IAutomaton A → Prop
  | new : SafeHistory .empty
  | step {g g' : IAutomaton A} {op : AOp A} (h : SafeHistory g) (hs : IAutomaton.Safe g op)
      (he : g.exec op = .ok g') : SafeHistory g'

theorem IAutomaton.SafeHistory.wf {g : IAutomaton A} (h : SafeHistory g) : IAutomaton.WF g := by
  induction h with
  | new => exact IAutomaton.WF_empty
  | step _ hs he ih => exact IAutomaton.exec_WF ih hs he

/-- **C13, partial** (missing: histories that overwrite a transition towards state 0, see the
counterexample, or that call `remove_edge` with a descriptor that is not an edge): `in_edges(r)`
enumerates exactly, and once each, the transitions whose target is `r`. -/
theorem C13_in_edges_partial {g : IAutomaton A} (h : IAutomaton.SafeHistory g) (r : Nat) :
    (g.inEdges r).Nodup ∧ ∀ e, e ∈ g.inEdges r ↔ e ∈ g.a.edges ∧ e.target = r := by
  refine ⟨IAutomaton.nodup_inEdges h.wf r, fun e => ?_⟩
  rw [IAutomaton.mem_inEdges h.wf, mem_edges h.wf.out, and_comm]

/-- **C13, partial** (same restriction): `remove_vertex(q)` removes the state and exactly the transitions
from or to it, in both directions of the adjacency. -/
theorem C13_remove_vertex_partial {g : IAutomaton A} (h : IAutomaton.SafeHistory g) {q : Nat}
    (hq : q ∈ g.a.vertices) :
    ∃ g', g.removeVertex q = .ok g' ∧ IAutomaton.SafeHistory g' ∧
      (∀ v, v ∈ g'.a.vertices ↔ v ∈ g.a.vertices ∧ v ≠ q) ∧
      (∀ e, e ∈ g'.a.edges ↔ e ∈ g.a.edges ∧ e.source ≠ q ∧ e.target ≠ q) ∧
      (∀ r e, e ∈ g'.inEdges r ↔ e ∈ g'.a.edges ∧ e.target = r) := by
  obtain ⟨g', h1, h2, h3, _, _, _, h7⟩ := IAutomaton.removeVertex_WF h.wf hq
  refine ⟨g', h1, .step h (op := .removeVertex q) trivial h1, ?_, ?_, ?_⟩
  · intro v; rw [h3]; simp
  · intro e
    rw [mem_edges h2.out, mem_edges h.wf.out, h7]
    by_cases hs : e.source = q
    · simp [hs]
    · by_cases ht : g.a.delta e.source e.distinguisher = some q
      · rw [if_pos (.inr ht), ht]
        simp only [reduceCtorEq, Option.some.injEq, false_iff]
        rintro ⟨h1, _, h2⟩; exact h2 h1.symm
      · rw [if_neg (by simp [hs, ht])]
        constructor
        · intro h; exact ⟨h, hs, fun h' => ht (by rw [h, h'])⟩
        · exact fun h => h.1
  · intro r e
    rw [IAutomaton.mem_inEdges h2, mem_edges h2.out, and_comm]

example : IAutomaton.SafeHistory (⟨⟨2, [(0, [('a', 1)]), (1, [('a', 0)])], some 0, []⟩,
    [(0, [(1, ['a'])]), (1, [(0, ['a'])])]⟩ : IAutomaton Char) := by
  refine .step (op := .addEdge 1 0 'a') (.step (op := .addEdge 0 1 'a')
    (.step (op := .addVertex) (.step (op := .addVertex) .new trivial rfl) trivial rfl)
    (by simp [IAutomaton.Safe]; decide) rfl) (by simp [IAutomaton.Safe]; decide) rfl

/-- The set of transitions listed by `edges()` and the set of transitions listed by `in_edges()`. -/
structure InOut (A : Type) where
  edges : EdgeDesc A → Prop
  inEdges : EdgeDesc A → Prop

/-- What each call on an `IncidenceAutomaton` does to the two sets. -/
def InOut.step (s : InOut A) : AOp A → InOut A
  -- the transition is added to both sets, replacing the transition towards 0 with the same source and symbol in the first one only,
  -- unless there is a transition towards another state with this source and this symbol
  | .addEdge q r a =>
    { edges e := ((∃ k, s.edges ⟨q, k + 1, a⟩) → s.edges e) ∧
        ((¬ ∃ k, s.edges ⟨q, k + 1, a⟩) → e = ⟨q, r, a⟩ ∨ (s.edges e ∧ ¬ (e.source = q ∧ e.distinguisher = a)))
      inEdges e := s.inEdges e ∨ (e = ⟨q, r, a⟩ ∧ ¬ ∃ k, s.edges ⟨q, k + 1, a⟩) }
  -- the transition with this source and symbol is removed, whatever its target, but only the in-edge with this target
  | .removeEdge d =>
    { edges e := s.edges e ∧ ¬ (e.source = d.source ∧ e.distinguisher = d.distinguisher)
      inEdges e := s.inEdges e ∧ e ≠ d }
  -- the transitions from q are removed, and those having the source and the symbol of an in-edge of q;
  -- the in-edges of q are removed, and those from q to a state in which a transition from q ends
  | .removeVertex q =>
    { edges e := s.edges e ∧ e.source ≠ q ∧ ¬ s.inEdges ⟨e.source, q, e.distinguisher⟩
      inEdges e := s.inEdges e ∧ e.target ≠ q ∧
        ¬ (e.source = q ∧ ∃ b, s.edges ⟨q, e.target, b⟩ ∧ ¬ s.inEdges ⟨q, q, b⟩) }
  | .clear => { edges _ := False, inEdges _ := False }
  | .addVertex | .setInitial _ _ | .setFinal _ _ => s

theorem IAutomaton.inOut_step {g g' : IAutomaton A} {op : AOp A} {s : InOut A} (hw : g.Half)
    (hs : ∀ e : EdgeDesc A, g.a.delta e.source e.distinguisher = some e.target ↔ s.edges e)
    (hi : ∀ e : EdgeDesc A, e.distinguisher ∈ lk g.inAdj e.target e.source ↔ s.inEdges e) (h : g.exec op = .ok g') :
    g'.Half ∧ (∀ e : EdgeDesc A, g'.a.delta e.source e.distinguisher = some e.target ↔ (s.step op).edges e) ∧
      ∀ e : EdgeDesc A, e.distinguisher ∈ lk g'.inAdj e.target e.source ↔ (s.step op).inEdges e := by
  have hs' : ∀ q r a, g.a.delta q a = some r ↔ s.edges ⟨q, r, a⟩ := fun q r a => hs ⟨q, r, a⟩
  have hi' : ∀ q r a, a ∈ lk g.inAdj r q ↔ s.inEdges ⟨q, r, a⟩ := fun q r a => hi ⟨q, r, a⟩
  cases op with
  | addVertex =>
    cases h
    obtain ⟨k1, k2, k3⟩ := IAutomaton.Half_addVertex hw
    exact ⟨k1, fun e => by rw [k2]; exact hs e, fun e => by rw [k3]; exact hi e⟩
  | addEdge q r a =>
    simp only [IAutomaton.exec] at h
    cases he : g.addEdge q r a with
    | error e => rw [he] at h; cases h
    | ok x =>
      obtain ⟨e, b, g1⟩ := x
      rw [he] at h; cases h
      obtain ⟨k1, k2, k3⟩ := IAutomaton.Half_addEdge hw he
      have hex : (∃ k, g.a.delta q a = some (k + 1)) ↔ ∃ k, s.edges ⟨q, k + 1, a⟩ := by simp only [hs']
      refine ⟨k1, ?_⟩
      by_cases hk : ∃ k, g.a.delta q a = some (k + 1)
      · have hk' := hex.1 hk
        have := k2 hk
        subst this
        exact ⟨fun e => (hs e).trans ⟨fun h => ⟨fun _ => h, fun h' => absurd hk' h'⟩, fun h => h.1 hk'⟩,
          fun e => (hi e).trans ⟨.inl, fun h => h.elim id fun h => absurd hk' h.2⟩⟩
      · have hk' := fun h => hk (hex.2 h)
        obtain ⟨k4, k5⟩ := k3 hk
        refine ⟨fun e => Iff.trans ?_ (show _ ↔ _ from ⟨fun h => ⟨fun h' => absurd h' hk', fun _ => h⟩, fun h => h.2 hk'⟩), fun e => Iff.trans ?_
          (show _ ↔ _ from or_congr_right ⟨fun h => ⟨h, hk'⟩, fun h => h.1⟩)⟩
        · obtain ⟨q', r', a'⟩ := e
          simp only [k4, EdgeDesc.mk.injEq]
          by_cases h2 : q = q' ∧ a = a'
          · obtain ⟨rfl, rfl⟩ := h2
            simp [eq_comm]
          · rw [if_neg h2, hs']
            constructor
            · exact fun h => .inr ⟨h, fun h3 => h2 ⟨h3.1.symm, h3.2.symm⟩⟩
            · rintro (h3 | h3)
              · exact absurd ⟨h3.1.symm, h3.2.2.symm⟩ h2
              · exact h3.1
        · obtain ⟨q', r', a'⟩ := e
          simp only [k5, EdgeDesc.mk.injEq]
          rw [hi']
  | removeEdge d =>
    obtain ⟨q, r, a⟩ := d
    obtain ⟨k1, k2, k3⟩ := IAutomaton.Half_removeEdge hw h
    refine ⟨k1, fun e => ?_, fun e => ?_⟩
    · obtain ⟨q', r', a'⟩ := e
      simp only [k2, InOut.step]
      by_cases h2 : q = q' ∧ a = a'
      · obtain ⟨rfl, rfl⟩ := h2
        simp
      · rw [if_neg h2, hs']
        exact ⟨fun h => ⟨h, fun h3 => h2 ⟨h3.1.symm, h3.2.symm⟩⟩, fun h => h.1⟩
    · obtain ⟨q', r', a'⟩ := e
      simp only [k3, InOut.step, ne_eq, EdgeDesc.mk.injEq]
      rw [hi']
  | removeVertex u =>
    simp only [IAutomaton.exec] at h
    by_cases hu : u ∈ g.a.vertices
    · obtain ⟨e1, e2⟩ := IAutomaton.Half_removeVertex hw hu
      by_cases hst : ∃ e ∈ g.inEdges u, g.a.delta e.source e.distinguisher = none
      · rw [e1 hst] at h; cases h
      · obtain ⟨g2, k1, k2, k3, _, _, _, k7, k8⟩ := e2 fun e he hn => hst ⟨e, he, hn⟩
        rw [k1] at h; cases h
        refine ⟨k2, fun e => ?_, fun e => ?_⟩
        · obtain ⟨q', r', a'⟩ := e
          simp only [k7, InOut.step]
          rw [hs', hi']
        · obtain ⟨q', r', a'⟩ := e
          simp only [k8, InOut.step, hs', hi']
    · rw [IAutomaton.Half_removeVertex_absent hw hu] at h; cases h
      have hin : ∀ q a, ¬ s.inEdges ⟨q, u, a⟩ := by
        intro q a ha
        rw [← hi'] at ha
        obtain ⟨vs, t, h1, _⟩ := get?_some_of_lk ha
        exact hu ((hw.keys u).1 ((Dict.mem_keys_iff _ _).2 ⟨_, h1⟩))
      have hed : ∀ r a, ¬ s.edges ⟨u, r, a⟩ := by
        intro r a ha
        rw [← hs'] at ha
        exact hu (delta_mem_vertices ha)
      refine ⟨hw, fun e => ?_, fun e => ?_⟩
      · obtain ⟨q', r', a'⟩ := e
        simp only [InOut.step]
        rw [hs']
        refine ⟨fun h => ⟨h, ?_, hin _ _⟩, fun h => h.1⟩
        rintro rfl
        exact hed _ _ h
      · obtain ⟨q', r', a'⟩ := e
        simp only [InOut.step]
        rw [hi']
        refine ⟨fun h => ⟨h, ?_, ?_⟩, fun h => h.1⟩
        · rintro rfl
          exact hin _ _ h
        · rintro ⟨_, b, hb, _⟩
          exact hed _ _ hb
  | setInitial q b =>
    cases h
    have : (g.a.setInitial q b).adj = g.a.adj ∧ (g.a.setInitial q b).lastVertexId = g.a.lastVertexId := by
      unfold Automaton.setInitial; split
      · exact ⟨rfl, rfl⟩
      · split <;> exact ⟨rfl, rfl⟩
    generalize g.a.setInitial q b = g2 at *
    obtain ⟨n, adj, q0, f⟩ := g2
    simp only at this
    obtain ⟨rfl, rfl⟩ := this
    exact ⟨⟨⟨hw.out.1, hw.out.2, hw.out.3⟩, hw.inn, hw.keys, hw.sub⟩, hs, hi⟩
  | setFinal q b => cases h; exact ⟨⟨⟨hw.out.1, hw.out.2, hw.out.3⟩, hw.inn, hw.keys, hw.sub⟩, hs, hi⟩
  | clear =>
    obtain ⟨k1, k2, k3⟩ := IAutomaton.Half_clear hw h
    exact ⟨k1, fun e => by simp [k2, InOut.step], fun e => by simp [k3, InOut.step]⟩

theorem IAutomaton.inOut_runs {ops : List (AOp A)} {g : IAutomaton A} (h : Runs IAutomaton.exec .empty ops g) :
    g.Half ∧ (∀ e : EdgeDesc A, g.a.delta e.source e.distinguisher = some e.target ↔ (ops.foldl InOut.step ⟨fun _ => False, fun _ => False⟩).edges e) ∧
      ∀ e : EdgeDesc A, e.distinguisher ∈ lk g.inAdj e.target e.source ↔ (ops.foldl InOut.step ⟨fun _ => False, fun _ => False⟩).inEdges e := by
  have aux : ∀ (ops : List (AOp A)) (g₀ g : IAutomaton A) (s : InOut A), g₀.Half →
      (∀ e : EdgeDesc A, g₀.a.delta e.source e.distinguisher = some e.target ↔ s.edges e) →
      (∀ e : EdgeDesc A, e.distinguisher ∈ lk g₀.inAdj e.target e.source ↔ s.inEdges e) → Runs IAutomaton.exec g₀ ops g →
      g.Half ∧ (∀ e : EdgeDesc A, g.a.delta e.source e.distinguisher = some e.target ↔ (ops.foldl InOut.step s).edges e) ∧
        ∀ e : EdgeDesc A, e.distinguisher ∈ lk g.inAdj e.target e.source ↔ (ops.foldl InOut.step s).inEdges e := by
    intro ops
    induction ops with
    | nil => intro g₀ g s h1 h2 h3 hr; rw [hr.nil]; exact ⟨h1, h2, h3⟩
    | cons op ops ih =>
      intro g₀ g s h1 h2 h3 hr
      unfold Runs at hr
      rw [List.foldlM_cons, except_bind_ok] at hr
      obtain ⟨g1, k1, k2⟩ := hr
      obtain ⟨j1, j2, j3⟩ := IAutomaton.inOut_step h1 h2 h3 k1
      exact ih g1 g _ j1 j2 j3 k2
  exact aux ops _ g _ IAutomaton.Half_empty (by simp [IAutomaton.empty, Automaton.empty, Automaton.delta, Dict.getD, Dict.get?])
    (by simp [IAutomaton.empty, lk, Dict.get?]) h

/-- **C13, partial** (what holds instead of the property): after any history of calls that returned, whatever transitions were overwritten and whatever was given
to `remove_edge`, `edges()` and `in_edges()` list, once each, exactly the transitions of `InOut.step`. -/
theorem C13_history_partial {ops : List (AOp A)} {g : IAutomaton A} (h : Runs IAutomaton.exec .empty ops g) :
    let s := ops.foldl InOut.step ⟨fun _ => False, fun _ => False⟩
    (∀ e, e ∈ g.a.edges ↔ s.edges e) ∧ g.a.edges.Nodup ∧
    ∀ r, (g.inEdges r).Nodup ∧ ∀ e, e ∈ g.inEdges r ↔ e.target = r ∧ s.inEdges e := by
  obtain ⟨h1, h2, h3⟩ := IAutomaton.inOut_runs h
  refine ⟨fun e => ?_, nodup_edges h1.out, fun r => ⟨IAutomaton.half_nodup_inEdges h1.inn r, fun e => ?_⟩⟩
  · rw [mem_edges h1.out, h2]
  · rw [IAutomaton.half_mem_inEdges h1.inn, h3]

/-- **C13**: after any history of calls that returned, no in-edge is missing: each transition is listed by `in_edges` of its target, which is a state. -/
theorem C13_no_edge_missing {ops : List (AOp A)} {g : IAutomaton A} (h : Runs IAutomaton.exec .empty ops g) {e : EdgeDesc A} (he : e ∈ g.a.edges) :
    e ∈ g.inEdges e.target ∧ e.source ∈ g.a.vertices ∧ e.target ∈ g.a.vertices := by
  have h1 := (IAutomaton.inOut_runs h).1
  rw [mem_edges h1.out] at he
  exact ⟨(IAutomaton.half_mem_inEdges h1.inn _ _).2 ⟨rfl, h1.sub _ _ _ he⟩, delta_mem_vertices he, h1.tgt he⟩

/-- **C13, partial** (what holds instead of "`remove_vertex` succeeds on a state"): after any history of calls that returned, `remove_vertex(q)` on a state raises `KeyError`
if some in-edge of `q` has a source without transition for its symbol, and succeeds otherwise. -/
theorem C13_remove_vertex_outcome_partial {ops : List (AOp A)} {g : IAutomaton A} (h : Runs IAutomaton.exec .empty ops g) {q : Nat} (hq : q ∈ g.a.vertices) :
    ((∃ e ∈ g.inEdges q, ∀ r, ⟨e.source, r, e.distinguisher⟩ ∉ g.a.edges) → g.removeVertex q = .error .keyError) ∧
    ((∀ e ∈ g.inEdges q, ∃ r, ⟨e.source, r, e.distinguisher⟩ ∈ g.a.edges) → ∃ g', g.removeVertex q = .ok g' ∧
      ∀ v, v ∈ g'.a.vertices ↔ v ∈ g.a.vertices ∧ v ≠ q) := by
  have h1 := (IAutomaton.inOut_runs h).1
  obtain ⟨e1, e2⟩ := IAutomaton.Half_removeVertex h1 hq
  constructor
  · rintro ⟨e, he, hn⟩
    refine e1 ⟨e, he, ?_⟩
    cases hd : g.a.delta e.source e.distinguisher with
    | none => rfl
    | some r => exact absurd ((mem_edges h1.out).2 hd) (hn r)
  · intro hall
    obtain ⟨g', k1, _, k3, _⟩ := e2 fun e he hn => by
      obtain ⟨r, hr⟩ := hall e he
      rw [mem_edges h1.out] at hr
      simp only at hr
      rw [hn] at hr; cases hr
    exact ⟨g', k1, fun v => by rw [k3]; simp⟩

-- The history of the counterexamples: `in_edges(0)` lists the overwritten transition, and after `remove_vertex(0)`, `in_edges(2)` lists a transition that is gone.
example : (badHistory.foldl InOut.step ⟨fun _ => False, fun _ => False⟩ : InOut Char).inEdges ⟨1, 0, 'a'⟩ ∧
    ¬ (badHistory.foldl InOut.step ⟨fun _ => False, fun _ => False⟩ : InOut Char).edges ⟨1, 0, 'a'⟩ := by
  simp [badHistory, InOut.step]

/-! ## C24 -/

theorem mem_sigma {g : Automaton A} {q : Nat} {a : A} : a ∈ g.sigma q ↔ ∃ r, g.delta q a = some r := by
  unfold sigma; rw [mem_mkSet, Dict.mem_keys_iff]; rfl

/-- **C24**: `sigma(q)` and `alphabet()` are the sets of labels of the transitions leaving `q`, resp. of
all the transitions. -/
theorem C24_sigma_alphabet {g : Automaton A} (h : g.Reachable) (a : A) :
    (∀ q, a ∈ g.sigma q ↔ ∃ r, (⟨q, r, a⟩ : EdgeDesc A) ∈ g.edges) ∧
    (a ∈ g.alphabet ↔ ∃ e ∈ g.edges, e.distinguisher = a) ∧
    (∀ q, (g.sigma q).Nodup) ∧ g.alphabet.Nodup := by
  refine ⟨?_, ?_, fun q => nodup_mkSet _, nodup_mkSet _⟩
  · intro q
    rw [mem_sigma]
    simp only [mem_edges h.awf]
  · unfold alphabet
    rw [mem_mkSet, List.mem_flatMap]
    constructor
    · rintro ⟨q, hq, ha⟩
      rw [Dict.mem_keys_iff] at ha
      obtain ⟨r, hr⟩ := ha
      exact ⟨⟨q, r, a⟩, (mem_edges h.awf).2 hr, rfl⟩
    · rintro ⟨e, he, rfl⟩
      rw [mem_edges h.awf] at he
      refine ⟨e.source, delta_mem_vertices he, ?_⟩
      rw [Dict.mem_keys_iff]; exact ⟨_, he⟩

/-- **C24**: `edge(q, r, a)` returns the transition from `q` to `r` labelled `a` and `True` if the automaton has it, `(None, False)` otherwise. -/
theorem C24_edge {g : Automaton A} (h : g.Reachable) (q r : Nat) (a : A) :
    ((⟨q, r, a⟩ : EdgeDesc A) ∈ g.edges → g.edge q r a = (some ⟨q, r, a⟩, true)) ∧
    ((⟨q, r, a⟩ : EdgeDesc A) ∉ g.edges → g.edge q r a = (none, false)) := by
  rw [mem_edges h.awf]
  unfold edge
  exact ⟨fun e => if_pos e, fun e => if_neg e⟩

example : exA.edge 0 1 'a' = (some ⟨0, 1, 'a'⟩, true) ∧ exA.edge 0 2 'a' = (none, false) := by decide

/-- **C24**: `is_complete()` is `True` iff `delta(q, a)` is defined for every state and every symbol of
the alphabet. -/
theorem C24_is_complete {g : Automaton A} (h : g.Reachable) :
    g.isComplete = true ↔ ∀ q ∈ g.vertices, ∀ a ∈ g.alphabet, ∃ r, g.delta q a = some r := by
  unfold isComplete sameSet
  simp only [List.all_eq_true, Bool.and_eq_true, decide_eq_true_eq]
  constructor
  · intro hc q hq a ha
    exact mem_sigma.1 ((hc q hq).2 a ha)
  · intro hc q hq
    refine ⟨?_, fun a ha => mem_sigma.2 (hc q hq a ha)⟩
    intro a ha
    rw [(C24_sigma_alphabet h a).2.1]
    obtain ⟨r, hr⟩ := mem_sigma.1 ha
    exact ⟨⟨q, r, a⟩, (mem_edges h.awf).2 hr, rfl⟩

example : exA.isComplete = false ∧ exA.alphabet = ['a', 'b'] ∧
    (⟨1, [(0, [('a', 0)])], some 0, []⟩ : Automaton Char).isComplete = true := by decide

/-! ## C78 -/

/-- **C78**: `remove_vertex(q)` removes the state and exactly the transitions from or to it; the set of
final states and the initial state are kept; an unknown state raises `KeyError`. -/
theorem C78_remove_vertex {g : Automaton A} (h : g.Reachable) (q : Nat) :
    (q ∈ g.vertices → ∃ g', g.removeVertex q = .ok g' ∧ g'.Reachable ∧
      (∀ v, v ∈ g'.vertices ↔ v ∈ g.vertices ∧ v ≠ q) ∧
      (∀ e, e ∈ g'.edges ↔ e ∈ g.edges ∧ e.source ≠ q ∧ e.target ≠ q) ∧
      g'.initial = g.initial ∧ (∀ v, g'.isFinal v = g.isFinal v)) ∧
    (q ∉ g.vertices → g.removeVertex q = .error .keyError) := by
  refine ⟨?_, removeVertex_not_mem h.awf⟩
  intro hq
  obtain ⟨g', h1, h2, h3, _, h5, h6, h7⟩ := removeVertex_spec h.awf hq
  refine ⟨g', h1, ?_, ?_, ?_, h5, fun v => by unfold isFinal; rw [h6]⟩
  · obtain ⟨ops, hops⟩ := h
    refine ⟨ops ++ [.removeVertex q], ?_⟩
    unfold Runs at *
    rw [List.foldlM_append, hops]
    show (g.removeVertex q >>= fun x => pure x) = _
    rw [h1]; rfl
  · intro v; rw [h3]; simp
  · intro e
    rw [mem_edges h2, mem_edges h.awf, h7]
    by_cases hs : e.source = q
    · simp [hs]
    · by_cases ht : g.delta e.source e.distinguisher = some q
      · rw [if_pos (.inr ht), ht]
        simp only [reduceCtorEq, Option.some.injEq, false_iff]
        rintro ⟨h1, _, h2⟩; exact h2 h1.symm
      · rw [if_neg (by simp [hs, ht])]
        constructor
        · intro h; exact ⟨h, hs, fun h' => ht (by rw [h, h'])⟩
        · exact fun h => h.1

/-- **C78**: `remove_edge(e)` removes exactly the transition leaving `e.source` with the label of `e`. -/
theorem C78_remove_edge {g : Automaton A} (h : g.Reachable) (e : EdgeDesc A) :
    (g.removeEdge e).vertices = g.vertices ∧
    ∀ e', e' ∈ (g.removeEdge e).edges ↔
      e' ∈ g.edges ∧ ¬ (e'.source = e.source ∧ e'.distinguisher = e.distinguisher) := by
  obtain ⟨h1, h2, _, _, _, h6⟩ := Automaton.removeEdge_spec h.awf e
  refine ⟨h2, fun e' => ?_⟩
  rw [mem_edges h1, mem_edges h.awf, h6]
  by_cases hs : e.source = e'.source ∧ e.distinguisher = e'.distinguisher
  · simp [hs]
  · rw [if_neg hs]
    constructor
    · intro h; exact ⟨h, fun h' => hs ⟨h'.1.symm, h'.2.symm⟩⟩
    · exact fun h => h.1

example : exA.Reachable ∧ 1 ∈ exA.vertices := ⟨exA_reachable, by decide⟩

end PyBGL
