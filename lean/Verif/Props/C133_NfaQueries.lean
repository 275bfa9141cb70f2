import Verif.Proofs.NfaHistory

/-!
# C133: the alphabet of an `Nfa`. C134: what an `Nfa` reports of its states and transitions
-/

namespace PyBGL
open Nfa
variable {A : Type} [DecidableEq A]

/-! ## C133 -/

/-- The English property: `alphabet()` is the set of the symbols labelling a transition and `sigma(q)` the set of those by which
`delta` leads somewhere from `q`. -/
def C133_statement : Prop :=
  ∀ g : Nfa Char, g.Reachable →
    (∀ a, a ∈ g.alphabet ↔ a ≠ g.eps ∧ ∃ q r, g.Trans q a r) ∧ ∀ q a, a ∈ g.sigma q ↔ a ≠ g.eps ∧ g.delta q a ≠ []

/-- **C133, counterexample.** `add_vertex()` twice, `add_edge(0, 1, 'a')`, then `remove_edge`: there is no transition left and
`'a'` is still in the alphabet. -/
theorem C133_alphabet_counterexample : ¬ C133_statement := by
  intro h
  have hr : Runs Nfa.exec (Nfa.init 'ε' [] 0) [.addVertex, .addVertex, .addEdge 0 1 'a', .removeEdge ⟨0, 1, ('a', 1)⟩]
      ⟨2, [(0, [('a', [])]), (1, [])], [0], [], 'ε'⟩ := rfl
  have h1 := (h _ ⟨_, _, _, hr⟩).1 'a'
  obtain ⟨_, q, r, n, hn⟩ := h1.1 (by decide)
  exact absurd hn (by show ¬ _ ∈ ([] : List _); simp)

/-- **C133.** For every history of calls, `alphabet()` is the set of the symbols other than ε of the transitions added since their
source was last created or removed, whether or not these transitions were removed afterwards. -/
theorem C133_alphabet_partial {P : Nfa A → NfaOp A → Prop} {g : Nfa A} {v : Nat → Prop} {u : Nat → A → Prop} (h : SymHistory P g v u) (a : A) :
    a ∈ g.alphabet ↔ a ≠ g.eps ∧ ∃ q, u q a := by
  obtain ⟨hw, _, hu⟩ := symHistory h
  rw [mem_alphabet_syms hw]
  simp only [hu]

/-- **C133.** `sigma(q)` is the set of those leaving a state reached from `q` by ε-transitions. -/
theorem C133_sigma_partial {P : Nfa A → NfaOp A → Prop} {g : Nfa A} {v : Nat → Prop} {u : Nat → A → Prop} (h : SymHistory P g v u) (q : Nat) (a : A) :
    a ∈ g.sigma q ↔ a ≠ g.eps ∧ ∃ p, WPath g.Trans g.eps q [] p ∧ u p a := by
  obtain ⟨hw, _, hu⟩ := symHistory h
  have : g.Trans = g.T := by funext q a r; exact propext (trans_iff hw q a r)
  rw [mem_sigma_syms, this]
  simp only [hu]

theorem Nfa.delta_ne_nil (g : Nfa A) (q : Nat) (a : A) :
    g.delta q a ≠ [] ↔ ∃ p r, WPath g.T g.eps q [] p ∧ g.T p a r := by
  rw [Ne, List.eq_nil_iff_forall_not_mem, not_forall]
  simp only [not_not, delta, mem_deltaEpsilon, mem_deltaOneStep, List.mem_singleton, exists_eq_left]
  constructor
  · rintro ⟨_, r, ⟨p, h1, h2⟩, _⟩; exact ⟨p, r, h1, h2⟩
  · rintro ⟨p, r, h1, h2⟩; exact ⟨r, r, ⟨p, h1, h2⟩, .nil r⟩

/-- **C133.** No symbol is missing: the label, other than ε, of a transition is in `alphabet()`, and a symbol by which `delta` leads
somewhere from `q` is in `sigma(q)`, which is a part of `alphabet()`. -/
theorem C133_no_symbol_missing {g : Nfa A} (h : g.Reachable) {a : A} (ha : a ≠ g.eps) :
    (∀ q r, g.Trans q a r → a ∈ g.alphabet ∧ a ∈ g.sigma q) ∧ (∀ q, g.delta q a ≠ [] → a ∈ g.sigma q) ∧ ∀ q, a ∈ g.sigma q → a ∈ g.alphabet := by
  have hw := h.wf
  refine ⟨fun q r ht => ?_, fun q hd => ?_, fun q hs => ?_⟩
  · have := T_syms ((trans_iff hw _ _ _).1 ht)
    exact ⟨(mem_alphabet_syms hw a).2 ⟨ha, q, this⟩, (mem_sigma_syms g q a).2 ⟨ha, q, .nil q, this⟩⟩
  · obtain ⟨p, r, h1, h2⟩ := (delta_ne_nil g q a).1 hd
    exact (mem_sigma_syms g q a).2 ⟨ha, p, h1, T_syms h2⟩
  · obtain ⟨_, p, _, hp⟩ := (mem_sigma_syms g q a).1 hs
    exact (mem_alphabet_syms hw a).2 ⟨ha, p, hp⟩

/-- The call removes nothing, or everything. -/
def NfaOp.NoRemoval : NfaOp A → Prop
  | .removeEdge _ => False
  | .removeVertex _ => False
  | _ => True

theorem Nfa.syms_exact {g : Nfa A} {v : Nat → Prop} {u : Nat → A → Prop} (h : SymHistory (fun _ op => op.NoRemoval) g v u) :
    ∀ q a, a ∈ g.syms q ↔ ∃ r, g.T q a r := by
  have key : ∀ q a, a ∈ g.syms q → ∃ r, g.T q a r := by
    induction h with
    | init eps qs => intro q a h; simp [syms, Nfa.init, Dict.keys, Dict.getD] at h
    | @step g g' v u op h hP hop ih =>
      intro q a ha
      cases op with
      | addVertex =>
        cases hop
        rw [syms_addVertex] at ha
        split at ha
        · cases ha
        · rename_i hq
          obtain ⟨r, hr⟩ := ih q a ha
          refine ⟨r, ?_⟩
          unfold T targets Nfa.addVertex at *
          simp only [Dict.getD_set]
          rw [if_neg (Ne.symm hq)]
          exact hr
      | addEdge p r b =>
        cases hop
        rw [mem_syms_addEdge] at ha
        rcases ha with ha | ⟨rfl, rfl⟩
        · obtain ⟨r', hr⟩ := ih q a ha
          exact ⟨r', (T_addEdge ..).2 (.inl hr)⟩
        · exact ⟨r, (T_addEdge ..).2 (.inr ⟨rfl, rfl, rfl⟩)⟩
      | removeEdge e => exact absurd hP (by simp [NfaOp.NoRemoval])
      | removeVertex w => exact absurd hP (by simp [NfaOp.NoRemoval])
      | setInitial _ _ => cases hop; exact ih q a ha
      | setInitials _ => cases hop; exact ih q a ha
      | setFinal _ _ => cases hop; exact ih q a ha
      | clear =>
        simp only [exec] at hop
        rw [clear_spec (symHistory h).1] at hop; cases hop
        simp [syms, Dict.keys, Dict.getD] at ha
  exact fun q a => ⟨key q a, fun ⟨_, h⟩ => T_syms h⟩

/-- **C133.** The property as stated holds of the automata on which neither `remove_edge` nor `remove_vertex` was called. -/
theorem C133_no_removal_partial {g : Nfa A} {v : Nat → Prop} {u : Nat → A → Prop} (h : SymHistory (fun _ op => op.NoRemoval) g v u) :
    (∀ a, a ∈ g.alphabet ↔ a ≠ g.eps ∧ ∃ q r, g.Trans q a r) ∧ ∀ q a, a ∈ g.sigma q ↔ a ≠ g.eps ∧ g.delta q a ≠ [] := by
  obtain ⟨hw, _, _⟩ := symHistory h
  refine ⟨fun a => ?_, fun q a => ?_⟩
  · rw [mem_alphabet_syms hw]
    simp only [syms_exact h, trans_iff hw]
  · rw [mem_sigma_syms, delta_ne_nil]
    simp only [syms_exact h, exists_and_left]

/-- Every sequence of calls is such a history. -/
theorem C133_history {P : Nfa A → NfaOp A → Prop} (hP : ∀ g op, P g op) {g : Nfa A} (h : g.Reachable) : ∃ v u, SymHistory P g v u := by
  obtain ⟨eps, qs, ops, h⟩ := h
  exact Runs.invariant (Inv := fun g => ∃ v u, SymHistory P g v u) ⟨_, _, .init eps qs⟩
    (fun s op s' hs h => by obtain ⟨v, u, hc⟩ := hs; exact ⟨_, _, hc.step (hP _ _) h⟩) h

/-- After `0 -ε-> 1 -a-> 2`: the symbol `a` can be read from `0`, through `1`. -/
example : ((((Nfa.init 'ε' [] 3).addEdge 0 1 'ε').2.addEdge 1 2 'a').2.sigma 0 = ['a']) ∧
    ((((Nfa.init 'ε' [] 3).addEdge 0 1 'ε').2.addEdge 1 2 'a').2.alphabet = ['a']) ∧
    ((((Nfa.init 'ε' [] 3).addEdge 0 1 'ε').2.addEdge 1 2 'a').2.sigma 2 = []) := by decide

/-! ## C134 -/

/-- The English property: `add_vertex()` returns a state the automaton does not have. -/
def C134_statement : Prop := ∀ g : Nfa Char, g.Reachable → g.addVertex.1 ∉ g.vertices

/-- **C134, counterexample.** `nfa = Nfa(); nfa.add_edge(0, 1, 'a'); nfa.add_vertex()` returns `0`, which is a state already, and
erases its transition. -/
theorem C134_fresh_counterexample : ¬ C134_statement ∧
    ((Nfa.init 'ε' [] 0).addEdge 0 1 'a').2.accepts ['a'] = false ∧
    (((Nfa.init 'ε' [] 0).addEdge 0 1 'a').2.setFinal 1).accepts ['a'] = true ∧
    (((Nfa.init 'ε' [] 0).addEdge 0 1 'a').2.setFinal 1).addVertex.2.accepts ['a'] = false := by
  refine ⟨fun h => ?_, by decide, by decide, by decide⟩
  have hr : Runs Nfa.exec (Nfa.init 'ε' [] 0) [.addEdge 0 1 'a'] ⟨0, [(0, [('a', [(1, [1])])])], [0], [], 'ε'⟩ := rfl
  exact h _ ⟨_, _, _, hr⟩ (by decide)

/-- The call, if it is an `add_edge`, starts from a state of the automaton. -/
def NfaOp.Known (g : Nfa A) : NfaOp A → Prop
  | .addEdge q _ _ => q ∈ g.vertices
  | _ => True

theorem Nfa.vertices_lt {g : Nfa A} {v : Nat → Prop} {u : Nat → A → Prop} (h : SymHistory NfaOp.Known g v u) : ∀ q ∈ g.vertices, q < g.lastVertexId := by
  induction h with
  | init eps qs => intro q h; simp [vertices, Nfa.init, Dict.keys] at h
  | @step g g' v u op h hP hop ih =>
    have hg' := symHistory (SymHistory.step h hP hop)
    have hg := symHistory h
    intro q hq
    have hs := (hg'.2.1 q).1 hq
    have keep : v q → q < g.lastVertexId := fun hv => ih q ((hg.2.1 q).2 hv)
    cases op with
    | addVertex =>
      cases hop
      rcases hs with hs | hs
      · exact Nat.lt_succ_of_lt (keep hs)
      · rw [hs]; exact Nat.lt_succ_self _
    | addEdge p r b =>
      cases hop
      rcases hs with hs | hs
      · exact keep hs
      · rw [hs]; exact ih p hP
    | removeEdge e => cases hop; rw [(removeEdge_keeps g e).2.1]; exact keep hs
    | removeVertex w =>
      have e : g'.lastVertexId = g.lastVertexId := by
        unfold exec removeVertex at hop
        simp only at hop
        obtain ⟨adj, h1, h2⟩ := except_bind_ok.1 hop
        cases h2
        have hk := (foldl_removeEdge_keeps (((g.edges.filter fun e => w = e.target).foldl Nfa.removeEdge g).outEdges w)
            ((g.edges.filter fun e => w = e.target).foldl Nfa.removeEdge g)).2.1
        have hk' := (foldl_removeEdge_keeps (g.edges.filter fun e => w = e.target) g).2.1
        exact hk.trans hk'
      rw [e]; exact keep hs.1
    | setInitial _ _ => cases hop; exact keep hs
    | setInitials _ => cases hop; exact keep hs
    | setFinal _ _ => cases hop; exact keep hs
    | clear => exact hs.elim

/-- **C134.** As long as `add_edge` is only called on states of the automaton, `add_vertex()` returns a new state, and neither the
other states nor the transitions change. -/
theorem C134_fresh_partial {g : Nfa A} {v : Nat → Prop} {u : Nat → A → Prop} (h : SymHistory NfaOp.Known g v u) :
    g.addVertex.1 ∉ g.vertices ∧ (∀ q, q ∈ g.addVertex.2.vertices ↔ q ∈ g.vertices ∨ q = g.addVertex.1) ∧
      ∀ q a r, g.addVertex.2.Trans q a r ↔ g.Trans q a r := by
  have hn : g.addVertex.1 ∉ g.vertices := fun hm => absurd (vertices_lt h _ hm) (Nat.lt_irrefl _)
  have hw := (symHistory h).1
  refine ⟨hn, fun q => ?_, fun q a r => ?_⟩
  · simp only [vertices, Nfa.addVertex, Dict.mem_keys_set]; exact or_comm
  · rw [trans_iff hw, trans_iff hw.addVertex, T_addVertex hn]

/-- **C134.** `vertices()` yields, once each, the states returned by `add_vertex` or used as the source of an `add_edge`, and not
removed since; `finals()` yields those of them that are final, and `num_vertices()` counts them. -/
theorem C134_states {P : Nfa A → NfaOp A → Prop} {g : Nfa A} {v : Nat → Prop} {u : Nat → A → Prop} (h : SymHistory P g v u) :
    (∀ q, q ∈ g.vertices ↔ v q) ∧ g.vertices.Nodup ∧ g.numVertices = g.vertices.length ∧
      (∀ q, q ∈ g.finals ↔ v q ∧ g.isFinal q = true) ∧ g.finals.Nodup ∧ ∀ q, g.isInitial q = true ↔ q ∈ g.initials := by
  obtain ⟨hw, hv, _⟩ := symHistory h
  have hn : g.vertices.Nodup := hw.outer
  refine ⟨hv, hn, rfl, fun q => ?_, hn.filter _, fun q => by simp [isInitial]⟩
  rw [finals, List.mem_filter, hv]

/-- **C134.** `num_edges()` is the number of the transitions `(q, a, r)` and `out_degree(q)` the number of those leaving `q`,
parallel copies being counted once. -/
theorem C134_counts {g : Nfa A} (h : g.Reachable) :
    (∀ ts : List (Nat × A × Nat), ts.Nodup → (∀ q a r, (q, a, r) ∈ ts ↔ g.Trans q a r) → g.numEdges = ts.length) ∧
    ∀ q, ∀ ts : List (A × Nat), ts.Nodup → (∀ a r, (a, r) ∈ ts ↔ g.Trans q a r) → g.outDegree q = ts.length := by
  have hw := h.wf
  have inj : ∀ e ∈ g.edges, ∀ e' ∈ g.edges, e.source = e'.source → e.distinguisher.1 = e'.distinguisher.1 → e.target = e'.target → e = e' := by
    rintro ⟨q, r, a, s⟩ he ⟨q', r', a', s'⟩ he' h1 h2 h3
    rw [mem_edges_nums hw] at he he'
    cases h1; cases h2; cases h3
    have := he.symm.trans he'
    cases this; rfl
  refine ⟨fun ts hn hm => ?_, fun q ts hn hm => ?_⟩
  · have hp : (g.edges.map fun e => (e.source, e.distinguisher.1, e.target)).Perm ts := by
      refine (List.perm_ext_iff_of_nodup ?_ hn).2 fun ⟨q, a, r⟩ => ?_
      · refine List.Nodup.map_on (fun e he e' he' heq => ?_) (nodup_edges hw)
        simp only [Prod.mk.injEq] at heq
        exact inj e he e' he' heq.1 heq.2.1 heq.2.2
      · rw [hm, List.mem_map]
        constructor
        · rintro ⟨⟨q', r', a', s⟩, he, heq⟩
          cases heq
          exact ⟨s, he⟩
        · rintro ⟨s, he⟩; exact ⟨_, he, rfl⟩
    rw [← hp.length_eq, List.length_map]; rfl
  · have hout : ∀ e, e ∈ g.outEdges q ↔ e ∈ g.edges ∧ e.source = q := by
      intro e
      rw [mem_edges_nums hw, mem_outEdges_nums hw]
      constructor
      · rintro ⟨rfl, h⟩; exact ⟨h, rfl⟩
      · rintro ⟨h, rfl⟩; exact ⟨rfl, h⟩
    have hp : ((g.outEdges q).map fun e => (e.distinguisher.1, e.target)).Perm ts := by
      refine (List.perm_ext_iff_of_nodup ?_ hn).2 fun ⟨a, r⟩ => ?_
      · refine List.Nodup.map_on (fun e he e' he' heq => ?_) (nodup_outEdges hw q)
        simp only [Prod.mk.injEq] at heq
        exact inj e ((hout e).1 he).1 e' ((hout e').1 he').1 (((hout e).1 he).2.trans ((hout e').1 he').2.symm) heq.1 heq.2
      · rw [hm, List.mem_map]
        constructor
        · rintro ⟨⟨q', r', a', s⟩, he, heq⟩
          cases heq
          have := (hout _).1 he
          cases this.2
          exact ⟨s, this.1⟩
        · rintro ⟨s, he⟩; exact ⟨_, (hout _).2 ⟨he, rfl⟩, rfl⟩
    rw [← hp.length_eq, List.length_map]; rfl

/-- **C134.** `edge(q, r)` finds no transition: it answers `(None, False)` if there is none and raises `TypeError` if there is one. -/
theorem C134_edge {g : Nfa A} (h : g.Reachable) (q r : Nat) :
    ((∃ a, g.Trans q a r) → g.edge q r = .error .typeError) ∧ ((¬ ∃ a, g.Trans q a r) → g.edge q r = .ok (none, false)) := by
  have hw := h.wf
  have key : (∃ a, g.Trans q a r) ↔ ((g.outEdges q).any fun e => decide (e.target = r)) = true := by
    rw [List.any_eq_true]
    constructor
    · rintro ⟨a, s, he⟩
      rw [mem_edges_nums hw] at he
      exact ⟨_, (mem_outEdges_nums hw q _).2 ⟨rfl, he⟩, by simp⟩
    · rintro ⟨⟨q', r', a, s⟩, he, ht⟩
      obtain ⟨h1, h2⟩ := (mem_outEdges_nums hw q _).1 he
      simp only [decide_eq_true_eq] at ht
      cases h1; cases ht
      exact ⟨a, s, (mem_edges_nums hw _).2 h2⟩
  rw [key]
  unfold edge
  exact ⟨fun h => if_pos h, fun h => if_neg h⟩

/-- **C134.** `label(e)` is the symbol given to the `add_edge` that returned `e`, and `is_epsilon_transition(e)` tells whether it is
ε. -/
theorem C134_label (g : Nfa A) (q r : Nat) (a : A) :
    (g.addEdge q r a).2.label (g.addEdge q r a).1 = a ∧
      ((g.addEdge q r a).2.isEpsilonTransition (g.addEdge q r a).1 = true ↔ a = g.eps) := ⟨rfl, decide_eq_true_iff⟩

/-- Three transitions, two of them parallel. -/
example :
    let g := ((((Nfa.init 'ε' [] 2).addEdge 0 1 'a').2.addEdge 0 1 'a').2.addEdge 1 0 'ε').2
    g.numEdges = 2 ∧ g.outDegree 0 = 1 ∧ g.edge 0 1 = .error .typeError ∧ g.edge 0 0 = .ok (none, false) ∧ (g.setFinal 1).finals = [1] := by
  refine ⟨by decide, by decide, rfl, rfl, by decide⟩

end PyBGL
