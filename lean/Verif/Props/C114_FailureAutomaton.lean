import Verif.Proofs.FailureAutomaton
import Verif.Props.C11_C13_C24_Automaton
import Verif.Props.C21_C22_NodeAutomaton

/-!
# C114: automata whose caller catches exceptions
-/

namespace PyBGL
variable {A : Type} [DecidableEq A]

/-- The English property: a mutator that raises leaves the automaton unchanged. -/
def C114_statement {S Op : Type} (exec : Op → PyM S Unit) (s0 : S) : Prop :=
  ∀ (s : S) (l : List (Op × Except PyErr Unit)) (op : Op) (err : PyErr), Tried Anything exec s0 s l → (exec op s).1 = .error err → (exec op s).2 = s

/-- **C114** (returning calls). The statement-by-statement description of the mutators and the one used by the other theorems agree: one returns iff the other does, with the same automaton, and they
raise the same exception. -/
theorem C114_agree :
    (∀ (op : AOp A) g, (Automaton.execM op).result g = (g.exec op).map fun g' => ((), g')) ∧
    (∀ (op : AOp A) g, (IAutomaton.execM op).result g = (g.exec op).map fun g' => ((), g')) ∧
    (∀ (op : NOp A) g, (NodeAutomaton.execM op).result g = (g.exec op).map fun g' => ((), g')) ∧
    (∀ (op : NOp A) g, (INodeAutomaton.execM op).result g = (g.exec op).map fun g' => ((), g')) :=
  ⟨Automaton.result_execM, IAutomaton.result_execM, NodeAutomaton.result_execM, INodeAutomaton.result_execM⟩

/-! ## `Automaton` -/

/-- **C114** (`Automaton`, histories). Whatever exceptions were raised and caught, the automaton could have been obtained by calls that all return: every theorem on the automata built by the public
API applies to it. -/
theorem C114_automaton (g : Automaton A) (l : List (AOp A × Except PyErr Unit)) (h : Tried Anything Automaton.execM .empty g l) : g.Reachable :=
  Automaton.tried_reachable h

/-- **C114, partial** (`Automaton`; missing: `remove_vertex`, see the counterexample). In such a history, only `add_edge` from a missing state and `remove_vertex` of a missing state raise, always
`KeyError`. The automaton is unchanged, except that `remove_vertex(u)` has removed the transitions towards the missing `u`. -/
theorem C114_automaton_failures_partial (g : Automaton A) (l : List (AOp A × Except PyErr Unit)) (h : Tried Anything Automaton.execM .empty g l) (op : AOp A) (err : PyErr)
    (he : (Automaton.execM op g).1 = .error err) :
    err = .keyError ∧
    ((∃ q r a, op = .addEdge q r a ∧ q ∉ g.vertices ∧ (Automaton.execM op g).2 = g) ∨
     (∃ u, op = .removeVertex u ∧ u ∉ g.vertices ∧ (Automaton.execM op g).2.vertices = g.vertices ∧ (Automaton.execM op g).2.initial = g.initial ∧
       (∀ q, (Automaton.execM op g).2.isFinal q = g.isFinal q) ∧
       ∀ e, e ∈ (Automaton.execM op g).2.edges ↔ e ∈ g.edges ∧ e.target ≠ u)) := by
  have hw := (Automaton.tried_reachable h).awf
  obtain ⟨h1, h2 | ⟨u, rfl, hu, h2⟩⟩ := Automaton.execM_error hw he
  · exact ⟨h1, .inl h2⟩
  · obtain ⟨i1, i2, i3, i4, i5, i6⟩ := Automaton.foldl_removeEdge_spec hw (g.edges.filter fun e => u = e.target)
    refine ⟨h1, .inr ⟨u, rfl, hu, ?_⟩⟩
    rw [h2]
    refine ⟨i2, i4, fun q => by unfold Automaton.isFinal; rw [i5], fun e => ?_⟩
    rw [Automaton.mem_edges i1, Automaton.mem_edges hw, i6]
    constructor
    · intro hm
      split at hm
      · cases hm
      · rename_i hc
        refine ⟨hm, fun ht => hc ⟨e, ?_, rfl, rfl⟩⟩
        simp [Automaton.mem_edges hw, hm, ht]
    · rintro ⟨hm, ht⟩
      rw [if_neg]
      · exact hm
      · rintro ⟨e', he', hs, hd⟩
        simp only [List.mem_filter, Automaton.mem_edges hw, decide_eq_true_eq] at he'
        obtain ⟨k1, k2⟩ := he'
        rw [hs, hd, hm] at k1
        exact ht ((Option.some.inj k1).trans k2.symm)

/-- **C114 is false of `Automaton`**: a transition towards a state 7 which does not exist, `remove_vertex(7)` raises `KeyError`, and the transition is gone: the word `a` was accepted (7 is
flagged as final) and is not accepted any more. -/
theorem C114_automaton_counterexample : ¬ C114_statement (Automaton.execM (A := Char)) .empty := by
  intro h
  have := h _ _ (.removeVertex 7) .keyError
    (.call (.setFinal 7 true) trivial (.call (.addEdge 0 7 'a') trivial (.call .addVertex trivial .start))) (by decide)
  exact absurd (congrArg (fun g : Automaton Char => g.accepts ['a']) this) (by decide)

example : ∃ g : Automaton Char, Tried Anything Automaton.execM .empty g
    [(.removeVertex 7, .error .keyError), (.addEdge 5 0 'b', .error .keyError), (.addEdge 0 0 'a', .ok ()), (.addVertex, .ok ())] ∧ g.edges = [⟨0, 0, 'a'⟩] :=
  ⟨_, .call (AOp.removeVertex 7) trivial (.call (AOp.addEdge 5 0 'b') trivial (.call (AOp.addEdge 0 0 'a') trivial (.call AOp.addVertex trivial .start))), by decide⟩

/-! ## `NodeAutomaton` -/

/-- **C114** (`NodeAutomaton`, histories in which edges are added towards existing states only, as in C21). A mutator that raises raises `KeyError` and leaves the automaton unchanged. -/
theorem C114_node_partial (g : NodeAutomaton A) (l : List (NOp A × Except PyErr Unit)) (h : Tried NodeAutomaton.Safe NodeAutomaton.execM .empty g l) :
    g.SafeHistory ∧ ∀ op err, (NodeAutomaton.execM op g).1 = .error err → err = .keyError ∧ (NodeAutomaton.execM op g).2 = g ∧
      ((∃ q r, op = .addEdge q r ∧ q ∉ g.vertices) ∨ ∃ u, op = .removeVertex u ∧ u ∉ g.vertices) := by
  have hs : g.SafeHistory := by
    induction h with
    | start => exact .new
    | @call s l op hp h ih =>
      cases he : (NodeAutomaton.execM op s).1 with
      | error err => rw [(NodeAutomaton.execM_error ih.wf he).2.1]; exact ih
      | ok x => exact .step ih hp (NodeAutomaton.exec_of_execM_ok he)
  exact ⟨hs, fun op err he => NodeAutomaton.execM_error hs.wf he⟩

/-- **C114 is false of `NodeAutomaton`** when an edge was added towards a missing state: a failing `remove_vertex` removes it. -/
theorem C114_node_counterexample : ¬ C114_statement (NodeAutomaton.execM (A := Char)) .empty := by
  intro h
  have := h _ _ (.removeVertex 7) .keyError (.call (.addEdge 0 7) trivial (.call (.addVertex (some 'a')) trivial .start)) (by decide)
  exact absurd (congrArg (fun g : NodeAutomaton Char => g.edges.length) this) (by decide)

example : ∃ g : NodeAutomaton Char, Tried NodeAutomaton.Safe NodeAutomaton.execM .empty g
    [(.removeVertex 7, .error .keyError), (.addEdge 5 0, .error .keyError), (.addEdge 0 0, .ok ()), (.addVertex (some 'a'), .ok ())] ∧ g.edges = [⟨0, 0, some 'a'⟩] :=
  ⟨_, .call (NOp.removeVertex 7) trivial (.call (NOp.addEdge 5 0) (by show (0 : Nat) ∈ [0]; decide) (.call (NOp.addEdge 0 0) (by show (0 : Nat) ∈ [0]; decide)
    (.call (NOp.addVertex (some 'a')) trivial .start))), by decide⟩

/-! ## `IncidenceAutomaton` -/

/-- The calls allowed in the histories below: `add_edge` between existing states, or from a missing one, and not over a transition towards state 0 (see C13); `remove_edge` of an existing
transition; anything else. -/
def IAutomaton.Careful (g : IAutomaton A) : AOp A → Prop
  | .addEdge q r a => (q ∈ g.a.vertices → r ∈ g.a.vertices) ∧ g.a.delta q a ≠ some 0
  | .removeEdge e => e ∈ g.a.edges
  | _ => True

/-- **C114, partial** (`IncidenceAutomaton`, histories). With such calls, a mutator that raises leaves the automaton unchanged, and the automaton is one to which C13 applies. -/
theorem C114_incidence_partial (g : IAutomaton A) (l : List (AOp A × Except PyErr Unit)) (h : Tried IAutomaton.Careful IAutomaton.execM .empty g l) :
    IAutomaton.SafeHistory g ∧ ∀ op err, g.Careful op → (IAutomaton.execM op g).1 = .error err →
      err = .keyError ∧ (IAutomaton.execM op g).2 = g ∧ ∃ q r a, op = .addEdge q r a ∧ q ∉ g.a.vertices := by
  have key : ∀ s : IAutomaton A, IAutomaton.WF s → ∀ op err, s.Careful op → (IAutomaton.execM op s).1 = .error err →
      err = .keyError ∧ (IAutomaton.execM op s).2 = s ∧ ∃ q r a, op = .addEdge q r a ∧ q ∉ s.a.vertices := by
    intro s hw op err hp he
    obtain ⟨h1, ⟨q, r, a, rfl, h2, h3⟩ | ⟨q, r, a, rfl, h2, h3, -⟩ | ⟨e, rfl, h2, -⟩⟩ := IAutomaton.execM_error hw he
    · exact ⟨h1, h3, q, r, a, rfl, h2⟩
    · exact absurd (hp.1 h2) h3
    · exact absurd hp h2
  have hs : IAutomaton.SafeHistory g := by
    induction h with
    | start => exact .new
    | @call s l op hp h ih =>
      cases he : (IAutomaton.execM op s).1 with
      | error err => rw [(key s ih.wf op err hp he).2.1]; exact ih
      | ok x =>
        refine .step ih ?_ (IAutomaton.exec_of_execM_ok he)
        cases op with
        | addEdge q r a => exact hp.2
        | removeEdge e => exact hp
        | addVertex => trivial
        | removeVertex u => trivial
        | setInitial q b => trivial
        | setFinal q b => trivial
        | clear => trivial
  exact ⟨hs, key g hs.wf⟩

/-- **C114, partial** (`IncidenceAutomaton`, any call after such a history). A mutator that raises raises `KeyError`. `add_edge(q, r, a)` towards a missing `r` has then set the transition from `q` by `a`
to `r`, which `in_edges` does not list. `remove_edge(e)`, where `e` is not a transition, has then removed the transition of `e.source` by the label of `e`, if any, and `in_edges` still lists it. -/
theorem C114_incidence_failures_partial (g : IAutomaton A) (hs : IAutomaton.SafeHistory g) (op : AOp A) (err : PyErr) (he : (IAutomaton.execM op g).1 = .error err) :
    err = .keyError ∧ (IAutomaton.execM op g).2.a.vertices = g.a.vertices ∧ (∀ r, (IAutomaton.execM op g).2.inEdges r = g.inEdges r) ∧
    ((∃ q r a, op = .addEdge q r a ∧ q ∉ g.a.vertices ∧ (IAutomaton.execM op g).2 = g) ∨
     (∃ q r a, op = .addEdge q r a ∧ q ∈ g.a.vertices ∧ r ∉ g.a.vertices ∧
       ∀ e, e ∈ (IAutomaton.execM op g).2.a.edges ↔ e = ⟨q, r, a⟩ ∨ (e ∈ g.a.edges ∧ ¬ (e.source = q ∧ e.distinguisher = a))) ∨
     (∃ e, op = .removeEdge e ∧ e ∉ g.a.edges ∧
       ∀ e', e' ∈ (IAutomaton.execM op g).2.a.edges ↔ e' ∈ g.a.edges ∧ ¬ (e'.source = e.source ∧ e'.distinguisher = e.distinguisher))) := by
  have hw := hs.wf
  obtain ⟨h1, ⟨q, r, a, rfl, h2, h3⟩ | ⟨q, r, a, rfl, h2, h3, h4⟩ | ⟨e, rfl, h2, h3⟩⟩ := IAutomaton.execM_error hw he
  · refine ⟨h1, by rw [h3], fun r => by rw [h3], .inl ⟨q, r, a, rfl, h2, h3⟩⟩
  · rw [h4]
    refine ⟨h1, Automaton.vertices_setDelta _ _ h2, fun _ => rfl, .inr (.inl ⟨q, r, a, rfl, h2, h3, fun e => ?_⟩)⟩
    rw [Automaton.mem_edges (Automaton.AWF_setDelta hw.out r a h2), Automaton.mem_edges hw.out, Automaton.delta_setDelta]
    obtain ⟨x, y, b⟩ := e
    simp only [EdgeDesc.mk.injEq]
    by_cases hc : q = x ∧ a = b
    · obtain ⟨rfl, rfl⟩ := hc
      simp [eq_comm]
    · rw [if_neg hc]
      constructor
      · intro hx; exact .inr ⟨hx, fun h => hc ⟨h.1.symm, h.2.symm⟩⟩
      · rintro (⟨rfl, rfl, rfl⟩ | ⟨hx, -⟩)
        · exact absurd ⟨rfl, rfl⟩ hc
        · exact hx
  · obtain ⟨i1, i2, i3, i4, i5, i6⟩ := Automaton.removeEdge_spec hw.out e
    rw [h3]
    refine ⟨h1, i2, fun _ => rfl, .inr (.inr ⟨e, rfl, h2, fun e' => ?_⟩)⟩
    rw [Automaton.mem_edges i1, Automaton.mem_edges hw.out, i6]
    by_cases hc : e.source = e'.source ∧ e.distinguisher = e'.distinguisher
    · rw [if_pos hc]; simp [hc.1, hc.2]
    · rw [if_neg hc]
      refine ⟨fun hx => ⟨hx, fun h => hc ⟨h.1.symm, h.2.symm⟩⟩, fun hx => hx.1⟩

/-- **C114 is false of `IncidenceAutomaton`**: `add_edge(0, 1, 'a')` raises `KeyError` because state 1 is missing, and the transition is there. -/
theorem C114_incidence_counterexample : ¬ C114_statement (IAutomaton.execM (A := Char)) .empty := by
  intro h
  have := h _ _ (.addEdge 0 1 'a') .keyError (.call .addVertex trivial .start) (by decide)
  exact absurd (congrArg (fun g : IAutomaton Char => g.a.edges.length) this) (by decide)

/-- The automaton can then not be cleared, nor its state removed. -/
theorem C114_incidence_stuck_counterexample :
    ∃ (g : IAutomaton Char) (l : _), Tried Anything IAutomaton.execM .empty g l ∧ g.a.vertices = [0] ∧ (IAutomaton.execM (.removeVertex 0) g).1 = .error .keyError ∧
      (IAutomaton.execM .clear g).1 = .error .keyError :=
  ⟨_, _, .call (.addEdge 0 1 'a') trivial (.call .addVertex trivial .start), by decide, by decide, by decide⟩

/-- `remove_edge` of an edge that does not exist raises `KeyError` but removes another transition. -/
theorem C114_incidence_remove_edge_counterexample :
    ∃ g : IAutomaton Char, IAutomaton.SafeHistory g ∧ g.a.edges = [⟨0, 1, 'a'⟩] ∧ (IAutomaton.execM (.removeEdge ⟨0, 0, 'a'⟩) g).1 = .error .keyError ∧
      (IAutomaton.execM (.removeEdge ⟨0, 0, 'a'⟩) g).2.a.edges = [] ∧ (IAutomaton.execM (.removeEdge ⟨0, 0, 'a'⟩) g).2.inEdges 1 = [⟨0, 1, 'a'⟩] :=
  ⟨⟨⟨2, [(0, [('a', 1)]), (1, [])], some 0, []⟩, [(0, []), (1, [(0, ['a'])])]⟩,
    .step (op := .addEdge 0 1 'a') (.step (op := .addVertex) (.step (op := .addVertex) .new trivial rfl) trivial rfl) (by show Automaton.delta _ 0 'a' ≠ some 0; decide) rfl,
    by decide, by decide, by decide, by decide⟩

/-! ## `IncidenceNodeAutomaton` -/

/-- The calls allowed in the histories below: `add_edge` towards existing states, `remove_edge` of an existing edge; anything else. -/
def INodeAutomaton.Careful (g : INodeAutomaton A) : NOp A → Prop
  | .addEdge _ r => r ∈ g.n.vertices
  | .removeEdge e => e ∈ g.n.edges
  | _ => True

/-- **C114, partial** (`IncidenceNodeAutomaton`, histories). With such calls, a mutator that raises leaves the automaton unchanged, and the automaton is one to which C22 applies. -/
theorem C114_incidence_node_partial (g : INodeAutomaton A) (l : List (NOp A × Except PyErr Unit)) (h : Tried INodeAutomaton.Careful INodeAutomaton.execM .empty g l) :
    g.SafeHistory ∧ ∀ op err, g.Careful op → (INodeAutomaton.execM op g).1 = .error err →
      err = .keyError ∧ (INodeAutomaton.execM op g).2 = g ∧ ∃ q r, op = .addEdge q r ∧ q ∉ g.n.vertices := by
  have key : ∀ s : INodeAutomaton A, INodeAutomaton.WF s → ∀ op err, s.Careful op → (INodeAutomaton.execM op s).1 = .error err →
      err = .keyError ∧ (INodeAutomaton.execM op s).2 = s ∧ ∃ q r, op = .addEdge q r ∧ q ∉ s.n.vertices := by
    intro s hw op err hp he
    obtain ⟨h1, ⟨q, r, rfl, h2, h3⟩ | ⟨e, rfl, h2, -⟩⟩ := INodeAutomaton.execM_error hw he
    · exact ⟨h1, h3, q, r, rfl, h2⟩
    · have hm : e ∈ s.n.a.edges := hp
      rw [Automaton.mem_edges hw.n.out] at hm
      exact absurd ((hw.mirror _ _).mpr (by rw [← hw.n.label _ _ _ hm]; exact hm)) h2
  have hs : g.SafeHistory := by
    induction h with
    | start => exact .new
    | @call s l op hp h ih =>
      cases he : (INodeAutomaton.execM op s).1 with
      | error err => rw [(key s ih.wf op err hp he).2.1]; exact ih
      | ok x =>
        refine .step ih ?_ (INodeAutomaton.exec_of_execM_ok he)
        cases op with
        | addEdge q r => exact hp
        | removeEdge e => trivial
        | addVertex => trivial
        | removeVertex u => trivial
        | setInitial q b => trivial
        | setFinal q b => trivial
  exact ⟨hs, key g hs.wf⟩

/-- **C114, partial** (`IncidenceNodeAutomaton`, any call after such a history). A mutator that raises raises `KeyError`; `remove_vertex` never raises. `remove_edge(e)`, where no edge goes from the source
to the target of `e`, has then removed the edge from that source towards a state carrying the same symbol as that target, if any, and `in_edges` still lists it. -/
theorem C114_incidence_node_failures_partial (g : INodeAutomaton A) (hs : g.SafeHistory) (op : NOp A) (err : PyErr) (he : (INodeAutomaton.execM op g).1 = .error err) :
    err = .keyError ∧ (INodeAutomaton.execM op g).2.n.vertices = g.n.vertices ∧ (∀ r, (INodeAutomaton.execM op g).2.inEdges r = g.inEdges r) ∧
    ((∃ q r, op = .addEdge q r ∧ q ∉ g.n.vertices ∧ (INodeAutomaton.execM op g).2 = g) ∨
     (∃ e, op = .removeEdge e ∧ (∀ a, ⟨e.source, e.target, a⟩ ∉ g.n.edges) ∧
       ∀ e', e' ∈ (INodeAutomaton.execM op g).2.n.edges ↔ e' ∈ g.n.edges ∧ ¬ (e'.source = e.source ∧ g.n.symbol e'.target = g.n.symbol e.target))) := by
  have hw := hs.wf
  obtain ⟨h1, ⟨q, r, rfl, h2, h3⟩ | ⟨e, rfl, h2, h3⟩⟩ := INodeAutomaton.execM_error hw he
  · exact ⟨h1, by rw [h3], fun r => by rw [h3], .inl ⟨q, r, rfl, h2, h3⟩⟩
  · obtain ⟨i1, i2, i3, i4, i5, i6⟩ := Automaton.removeEdge_spec hw.n.out ⟨e.source, e.target, g.n.symbol e.target⟩
    rw [h3, NodeAutomaton.removeEdge_eq]
    refine ⟨h1, i2, fun _ => rfl, .inr ⟨e, rfl, fun a hm => ?_, fun e' => ?_⟩⟩
    · have hm' := (Automaton.mem_edges hw.n.out).mp hm
      simp only at hm'
      have hl := hw.n.label _ _ _ hm'
      rw [hl] at hm'
      exact h2 ((hw.mirror _ _).mpr hm')
    · show e' ∈ (g.n.a.removeEdge _).edges ↔ e' ∈ g.n.a.edges ∧ _
      rw [Automaton.mem_edges i1, Automaton.mem_edges hw.n.out, i6]
      by_cases hc : e.source = e'.source ∧ g.n.symbol e.target = e'.distinguisher
      · rw [if_pos hc]
        constructor
        · intro hx; cases hx
        · rintro ⟨hx, hy⟩
          have hl := hw.n.label _ _ _ hx
          exact absurd ⟨hc.1.symm, by rw [← hl]; exact hc.2.symm⟩ hy
      · rw [if_neg hc]
        refine ⟨fun hx => ⟨hx, fun hy => hc ⟨hy.1.symm, ?_⟩⟩, fun hx => hx.1⟩
        rw [hw.n.label _ _ _ hx]; exact hy.2.symm

/-- **C114 is false of `IncidenceNodeAutomaton`**: states 1 and 2 carry the same symbol and 0 has an edge to 1; `remove_edge` from 0 to 2 raises `KeyError`, and the edge to 1 is gone. -/
theorem C114_incidence_node_counterexample : ¬ C114_statement (INodeAutomaton.execM (A := Char)) .empty := by
  intro h
  have := h _ _ (.removeEdge ⟨0, 2, some 'a'⟩) .keyError
    (.call (.addEdge 0 1) trivial (.call (.addVertex (some 'a')) trivial (.call (.addVertex (some 'a')) trivial (.call (.addVertex none) trivial .start)))) (by decide)
  exact absurd (congrArg (fun g : INodeAutomaton Char => g.n.edges.length) this) (by decide)

example : ∃ g : INodeAutomaton Char, Tried INodeAutomaton.Careful INodeAutomaton.execM .empty g
    [(.addEdge 5 0, .error .keyError), (.addEdge 0 0, .ok ()), (.addVertex (some 'a'), .ok ())] ∧ g.n.edges = [⟨0, 0, some 'a'⟩] :=
  ⟨_, .call (NOp.addEdge 5 0) (by show (0 : Nat) ∈ [0]; decide) (.call (NOp.addEdge 0 0) (by show (0 : Nat) ∈ [0]; decide)
    (.call (NOp.addVertex (some 'a')) trivial .start)), by decide⟩

example : ∃ g : IAutomaton Char, Tried IAutomaton.Careful IAutomaton.execM .empty g
    [(.addEdge 5 0 'a', .error .keyError), (.addEdge 0 0 'a', .ok ()), (.addVertex, .ok ())] ∧ g.a.edges = [⟨0, 0, 'a'⟩] :=
  ⟨_, .call (AOp.addEdge 5 0 'a') ⟨by show (5 : Nat) ∈ [0] → _; decide, by show Automaton.delta _ 5 'a' ≠ some 0; decide⟩
    (.call (AOp.addEdge 0 0 'a') ⟨by show _ → (0 : Nat) ∈ [0]; decide, by show Automaton.delta _ 0 'a' ≠ some 0; decide⟩ (.call AOp.addVertex trivial .start)), by decide⟩

end PyBGL
