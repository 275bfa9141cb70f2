import Verif.Proofs.NodeHistory
import Verif.Props.C88_C89_NodeAutomaton

/-!
# C21, C22, C89: node automata after every history of calls

The histories include the calls that add a transition towards a state that does not exist yet, and `clear`. `NView.step` and
`INView.step` (Spec/NodeHistory.lean) say what each call does to what is observed.
-/

namespace PyBGL
open Automaton
variable {A : Type} [DecidableEq A]

/-- **C21, every history**: the states in their order, their symbols and the transitions are those given by `NView.step`; every
transition is listed once, and at most one transition leaves a state with a given label. -/
theorem C21_every_history {cs : List (NCall A)} {g : NodeAutomaton A} (h : Runs NodeAutomaton.call .empty cs g) :
    g.vertices = (cs.foldl NView.step .new).states ∧
    (∀ v, g.symbol v = (cs.foldl NView.step .new).symbol v) ∧
    (∀ e, e ∈ g.edges ↔ (cs.foldl NView.step .new).edges e) ∧ g.edges.Nodup ∧
    (∀ a, (g.addVertex a).1 = (cs.foldl NView.step .new).next) ∧
    ∀ e ∈ g.edges, ∀ e' ∈ g.edges, e.source = e'.source → e.distinguisher = e'.distinguisher → e = e' := by
  have hs := NodeAutomaton.Sees_runs h
  refine ⟨hs.states, hs.symbol, fun e => ?_, nodup_edges hs.out, fun a => ?_, ?_⟩
  · unfold NodeAutomaton.edges
    rw [mem_edges hs.out, hs.edges]
  · rw [← hs.next]; cases a <;> rfl
  · intro e he e' he' h1 h2
    unfold NodeAutomaton.edges at he he'
    rw [mem_edges hs.out] at he he'
    rw [h1, h2, he'] at he
    injection he with he
    cases e; cases e'; simp_all

/-- **C21, every history**: the calls that raise. `add_edge` raises `KeyError` exactly on an unknown source, `remove_vertex` exactly
on an unknown state, and no other call raises. -/
theorem C21_every_history_raises {cs : List (NCall A)} {g : NodeAutomaton A} (h : Runs NodeAutomaton.call .empty cs g) :
    (∀ q r, (q ∈ g.vertices → ∃ x, g.addEdge q r = .ok x) ∧ (q ∉ g.vertices → g.addEdge q r = .error .keyError)) ∧
    (∀ u, (u ∈ g.vertices → ∃ g', g.removeVertex u = .ok g') ∧ (u ∉ g.vertices → g.removeVertex u = .error .keyError)) ∧
    ∃ g', g.clear = .ok g' := by
  have hs := NodeAutomaton.Sees_runs h
  refine ⟨fun q r => ⟨fun hq => ?_, NodeAutomaton.addEdge_absent r⟩, fun u => ⟨fun hu => ?_, NodeAutomaton.removeVertex_all_absent hs.out⟩, ?_⟩
  · cases hd : g.a.delta q (g.symbol r) with
    | none => exact ⟨_, (NodeAutomaton.addEdge_spec r hq).2 hd⟩
    | some t => exact ⟨_, (NodeAutomaton.addEdge_spec r hq).1 _ hd⟩
  · obtain ⟨g', h1, _⟩ := NodeAutomaton.removeVertex_all hs.out hu
    exact ⟨g', h1⟩
  · obtain ⟨g', h1, _⟩ := NodeAutomaton.clear_all hs.out
    exact ⟨g', h1⟩

/-- **C21, every history**: the answer of `add_edge`. It is `(None, False)` exactly if the source has a transition labelled by the symbol
of the target. -/
theorem C21_every_history_add_edge {cs : List (NCall A)} {g : NodeAutomaton A} (h : Runs NodeAutomaton.call .empty cs g)
    {q : Nat} (hq : q ∈ g.vertices) (r : Nat) :
    ((∃ e ∈ g.edges, e.source = q ∧ e.distinguisher = g.symbol r) → g.addEdge q r = .ok (none, false, g)) ∧
    ((¬ ∃ e ∈ g.edges, e.source = q ∧ e.distinguisher = g.symbol r) →
      ∃ g', g.addEdge q r = .ok (some ⟨q, r, g.symbol r⟩, true, g')) := by
  have hs := NodeAutomaton.Sees_runs h
  have key : (∃ e ∈ g.edges, e.source = q ∧ e.distinguisher = g.symbol r) ↔ ∃ t, g.a.delta q (g.symbol r) = some t := by
    constructor
    · rintro ⟨e, he, rfl, h2⟩
      unfold NodeAutomaton.edges at he
      rw [mem_edges hs.out, h2] at he
      exact ⟨_, he⟩
    · rintro ⟨t, ht⟩
      exact ⟨⟨q, t, g.symbol r⟩, (mem_edges hs.out).2 ht, rfl, rfl⟩
  constructor
  · intro he
    obtain ⟨t, ht⟩ := key.1 he
    exact (NodeAutomaton.addEdge_spec r hq).1 _ ht
  · intro he
    cases hd : g.a.delta q (g.symbol r) with
    | none => exact ⟨_, (NodeAutomaton.addEdge_spec r hq).2 hd⟩
    | some t => exact absurd (key.2 ⟨t, hd⟩) he

/-- A history with a transition added before its target, a removal by a stale label, and `clear`. -/
example : ∃ g : NodeAutomaton Char, Runs NodeAutomaton.call .empty
    [.op (.addVertex (some 'a')), .op (.addEdge 0 1), .op (.addVertex (some 'b')), .op (.addEdge 0 1), .op (.removeVertex 1),
     .clear, .op (.addVertex none), .op (.addEdge 0 0)] g ∧
    g.symbol 0 = some 'a' ∧ g.edges = [⟨0, 0, some 'a'⟩] := ⟨_, rfl, rfl, rfl⟩

/-- In this history the transition added before its target survives the removal of its target. -/
example : ∃ g : NodeAutomaton Char, Runs NodeAutomaton.call .empty
    [.op (.addVertex (some 'a')), .op (.addEdge 0 1), .op (.addVertex (some 'b')), .op (.addEdge 0 1), .op (.removeVertex 1)] g ∧
    g.vertices = [0] ∧ g.edges = [⟨0, 1, none⟩] := ⟨_, rfl, rfl, rfl⟩

/-! ## C22 -/

/-- **C22, every history**: the states, symbols and transitions are those given by `INView.step`, and `in_edges(r)` lists, once each,
the predecessors it gives, with the current symbol of `r` as label. -/
theorem C22_every_history {cs : List (NCall A)} {g : INodeAutomaton A} (h : Runs INodeAutomaton.call .empty cs g) :
    g.n.vertices = (cs.foldl INView.step .new).states ∧
    (∀ v, g.n.symbol v = (cs.foldl INView.step .new).symbol v) ∧
    (∀ e, e ∈ g.n.edges ↔ (cs.foldl INView.step .new).edges e) ∧ g.n.edges.Nodup ∧
    (∀ a, (g.addVertex a).1 = (cs.foldl INView.step .new).next) ∧
    ∀ r, (g.inEdges r).Nodup ∧ ∀ e, e ∈ g.inEdges r ↔
      e.target = r ∧ e.distinguisher = g.n.symbol r ∧ (cs.foldl INView.step .new).preds e.source r := by
  have hs := INodeAutomaton.Sees_runs h
  refine ⟨hs.n.states, hs.n.symbol, fun e => ?_, nodup_edges hs.n.out, fun a => ?_, fun r => ⟨?_, fun e => ?_⟩⟩
  · unfold NodeAutomaton.edges
    rw [mem_edges hs.n.out, hs.n.edges]
  · rw [← hs.n.next]; cases a <;> rfl
  · unfold INodeAutomaton.inEdges
    exact (hs.sets r).map (by intro a b h; simpa using h)
  · unfold INodeAutomaton.inEdges
    rw [List.mem_map, ← hs.preds]
    constructor
    · rintro ⟨q, hq, rfl⟩; exact ⟨rfl, rfl, hq⟩
    · rintro ⟨h1, h2, h3⟩
      exact ⟨e.source, h3, by cases e; simp_all⟩

/-- **C22, every history**: the calls that raise. `remove_vertex(u)` raises `KeyError` exactly if a predecessor of `u` has no
transition labelled by the symbol of `u`; `remove_edge(e)` exactly if the source of `e` is not among the predecessors of its target;
`add_edge` exactly on an unknown source. -/
theorem C22_every_history_raises {cs : List (NCall A)} {g : INodeAutomaton A} (h : Runs INodeAutomaton.call .empty cs g) :
    (∀ u, ((∃ e ∈ g.inEdges u, ∀ e' ∈ g.n.edges, ¬ (e'.source = e.source ∧ e'.distinguisher = e.distinguisher)) →
        g.removeVertex u = .error .keyError) ∧
      ((∀ e ∈ g.inEdges u, ∃ e' ∈ g.n.edges, e'.source = e.source ∧ e'.distinguisher = e.distinguisher) →
        ∃ g', g.removeVertex u = .ok g')) ∧
    (∀ d, ((∃ e ∈ g.inEdges d.target, e.source = d.source) → ∃ g', g.removeEdge d = .ok g') ∧
      ((∀ e ∈ g.inEdges d.target, e.source ≠ d.source) → g.removeEdge d = .error .keyError)) ∧
    ∀ q r, (q ∈ g.n.vertices → ∃ x, g.addEdge q r = .ok x) ∧ (q ∉ g.n.vertices → g.addEdge q r = .error .keyError) := by
  have hs := INodeAutomaton.Sees_runs h
  obtain ⟨_, h2, h3, _, _, h6⟩ := C22_every_history h
  generalize cs.foldl INView.step .new = s at *
  refine ⟨fun u => ⟨?_, ?_⟩, fun d => ⟨?_, ?_⟩, fun q r => ⟨?_, ?_⟩⟩
  · rintro ⟨e, he, hn⟩
    obtain ⟨_, k2, k3⟩ := ((h6 u).2 e).1 he
    refine (INodeAutomaton.removeVertex_all hs u).1 ⟨e.source, k3, ?_⟩
    rintro ⟨t, ht⟩
    exact hn _ ((h3 _).2 ht) ⟨rfl, by rw [k2, h2]⟩
  · intro hall
    obtain ⟨g', k, _⟩ := (INodeAutomaton.removeVertex_all hs u).2 (by
      intro p hp
      obtain ⟨e', he', h1, h4⟩ := hall ⟨p, u, g.n.symbol u⟩ (((h6 u).2 _).2 ⟨rfl, rfl, hp⟩)
      refine ⟨e'.target, ?_⟩
      have := (h3 _).1 he'
      cases e'
      simp only at h1 h4
      rw [h1, h4, h2] at this
      exact this)
    exact ⟨g', k⟩
  · rintro ⟨e, he, h1⟩
    obtain ⟨_, _, k3⟩ := ((h6 _).2 e).1 he
    rw [h1, ← hs.preds] at k3
    unfold INodeAutomaton.removeEdge setRemoveE
    rw [if_pos k3]
    exact ⟨_, rfl⟩
  · intro hall
    unfold INodeAutomaton.removeEdge setRemoveE
    rw [if_neg]
    · rfl
    · intro hk
      rw [hs.preds] at hk
      exact hall ⟨d.source, d.target, g.n.symbol d.target⟩ (((h6 _).2 _).2 ⟨rfl, rfl, hk⟩) rfl
  · intro hq
    unfold INodeAutomaton.addEdge
    cases hd : g.n.a.delta q (g.n.symbol r) with
    | none => rw [(NodeAutomaton.addEdge_spec r hq).2 hd]; exact ⟨_, rfl⟩
    | some t => rw [(NodeAutomaton.addEdge_spec r hq).1 _ hd]; exact ⟨_, rfl⟩
  · intro hq
    unfold INodeAutomaton.addEdge
    rw [NodeAutomaton.addEdge_absent r hq]
    rfl

/-- A history in which `in_edges` and `edges()` disagree on the label, after which `remove_vertex(1)` raises. -/
example : ∃ g : INodeAutomaton Char, Runs INodeAutomaton.call .empty
    [.op (.addVertex (some 'a')), .op (.addEdge 0 1), .op (.addVertex (some 'b'))] g ∧
    g.n.edges = [⟨0, 1, none⟩] ∧ g.inEdges 1 = [⟨0, 1, some 'b'⟩] ∧ g.removeVertex 1 = .error .keyError :=
  ⟨_, rfl, rfl, rfl, rfl⟩

/-- A history with `remove_vertex` of a state having a self-loop, and `clear`. -/
example : ∃ g : INodeAutomaton Char, Runs INodeAutomaton.call .empty
    [.op (.addVertex (some 'a')), .op (.addVertex (some 'b')), .op (.addEdge 0 0), .op (.addEdge 0 1), .op (.addEdge 1 0),
     .op (.removeVertex 0), .op (.addEdge 1 1), .clear, .op (.addVertex none)] g ∧
    g.n.vertices = [0] ∧ g.n.symbol 0 = some 'a' ∧ g.inEdges 0 = [] :=
  ⟨_, rfl, rfl, rfl, rfl⟩

/-! ## C89 -/

/-- There is a transition from `q` to `r` labelled by the letter `a`. -/
def NodeAutomaton.Labelled (g : NodeAutomaton A) (q : Nat) (a : A) (r : Nat) : Prop := ⟨q, r, some a⟩ ∈ g.edges

theorem NodeAutomaton.deltaWord_all {g : NodeAutomaton A} (hw : AWF g.a) (w : List A) (q : Nat) :
    ((∃ u a v t, w = u ++ a :: v ∧ LPath g.Labelled q u t ∧ t ∉ g.vertices) → g.deltaWord (some q) w = .error .keyError) ∧
    ((∀ u a v t, w = u ++ a :: v → LPath g.Labelled q u t → t ∈ g.vertices) →
      ∃ x, g.deltaWord (some q) w = .ok x ∧ ∀ r, x = some r ↔ LPath g.Labelled q w r) := by
  have hlab : ∀ q a r, g.Labelled q a r ↔ g.a.delta q (some a) = some r := by
    intro q a r; exact mem_edges (e := ⟨q, r, some a⟩) hw
  induction w generalizing q with
  | nil =>
    refine ⟨by rintro ⟨u, a, v, t, h, _⟩; simp at h, fun _ => ⟨some q, rfl, fun r => ?_⟩⟩
    rw [LPath.nil_iff]; simp
  | cons a w ih =>
    by_cases hq : q ∈ g.vertices
    · obtain ⟨d, hd⟩ := (Dict.mem_keys_iff _ _).1 hq
      have hdelta : g.delta q (some a) = .ok (g.a.delta q (some a)) := by
        simp [NodeAutomaton.delta, Dict.getE_of_get? hd, delta_eq, hd, bind, Except.bind]
      have hstep : g.deltaWord (some q) (a :: w) = g.deltaWord (g.a.delta q (some a)) w := by
        simp [NodeAutomaton.deltaWord, hdelta, bind, Except.bind]
      rw [hstep]
      cases hx : g.a.delta q (some a) with
      | none =>
        have hdead : g.deltaWord none w = .ok none := by cases w <;> rfl
        have hno : ∀ v r, ¬ LPath g.Labelled q (a :: v) r := by
          intro v r h
          rw [LPath.cons_iff] at h
          obtain ⟨t, ht, _⟩ := h
          rw [hlab, hx] at ht; cases ht
        refine ⟨?_, fun _ => ⟨none, hdead, fun r => by simp [hno w r]⟩⟩
        rintro ⟨u, b, v, t, h1, h2, h3⟩
        cases u with
        | nil => rw [LPath.nil_iff] at h2; subst h2; exact absurd hq h3
        | cons c u =>
          rw [List.cons_append] at h1
          injection h1 with h1 _
          subst h1
          exact absurd h2 (hno _ _)
      | some p =>
        have hl : g.Labelled q a p := (hlab _ _ _).2 hx
        have huniq : ∀ p', g.Labelled q a p' → p' = p := by
          intro p' h; rw [hlab, hx] at h; injection h with h; exact h.symm
        obtain ⟨i1, i2⟩ := ih p
        constructor
        · rintro ⟨u, b, v, t, h1, h2, h3⟩
          cases u with
          | nil => rw [LPath.nil_iff] at h2; subst h2; exact absurd hq h3
          | cons c u =>
            rw [List.cons_append] at h1
            injection h1 with h1 h1'
            subst h1
            rw [LPath.cons_iff] at h2
            obtain ⟨p', hp', h2⟩ := h2
            rw [huniq p' hp'] at h2
            exact i1 ⟨u, b, v, t, h1', h2, h3⟩
        · intro hall
          obtain ⟨x, hx1, hx2⟩ := i2 (by
            intro u b v t h1 h2
            exact hall (a :: u) b v t (by rw [h1]; rfl) (LPath.cons_iff.2 ⟨p, hl, h2⟩))
          refine ⟨x, hx1, fun r => ?_⟩
          rw [hx2, LPath.cons_iff]
          constructor
          · intro h; exact ⟨p, hl, h⟩
          · rintro ⟨p', hp', h⟩
            rw [huniq p' hp'] at h; exact h
    · have herr : g.deltaWord (some q) (a :: w) = .error .keyError := by
        simp [NodeAutomaton.deltaWord, NodeAutomaton.delta_of_not_mem hq, bind, Except.bind]
      refine ⟨fun _ => herr, fun hall => ?_⟩
      exact absurd (hall [] a w q rfl (LPath.nil_iff.2 rfl)) hq

/-- **C89, every history**: `accepts(w)` raises `KeyError` exactly if a proper prefix of `w` leads, along the labels of the transitions,
from the initial state to a state that does not exist; otherwise it says whether `w` leads to a final state. -/
theorem C89_every_history_accepts {cs : List (NCall A)} {g : NodeAutomaton A} (h : Runs NodeAutomaton.call .empty cs g)
    {q0 : Nat} (hi : g.a.initial = some q0) (w : List A) :
    ((∃ u a v t, w = u ++ a :: v ∧ LPath g.Labelled q0 u t ∧ t ∉ g.vertices) → g.accepts w = .error .keyError) ∧
    ((∀ u a v t, w = u ++ a :: v → LPath g.Labelled q0 u t → t ∈ g.vertices) →
      ∃ b, g.accepts w = .ok b ∧ (b = true ↔ ∃ f, LPath g.Labelled q0 w f ∧ g.a.isFinal f = true)) := by
  obtain ⟨h1, h2⟩ := NodeAutomaton.deltaWord_all (NodeAutomaton.Sees_runs h).out w q0
  constructor
  · intro hx
    simp [NodeAutomaton.accepts, hi, h1 hx, bind, Except.bind]
  · intro hx
    obtain ⟨x, hx1, hx2⟩ := h2 hx
    simp only [NodeAutomaton.accepts, hi, hx1, bind, Except.bind]
    cases x with
    | none =>
      refine ⟨false, rfl, by simp, ?_⟩
      rintro ⟨f, hf, _⟩
      rw [← hx2] at hf; cases hf
    | some r =>
      refine ⟨g.a.isFinal r, rfl, fun hr => ⟨r, (hx2 r).1 rfl, hr⟩, ?_⟩
      rintro ⟨f, hf, hff⟩
      rw [← hx2] at hf
      injection hf with hf
      rw [hf]; exact hff

/-- The automaton `0 -b-> 1`, where `clear` removed state 1 but kept its symbol: `b` is refused, `bb` raises. -/
example : ∃ g : NodeAutomaton Char, Runs NodeAutomaton.call .empty
    [.op (.addVertex (some 'a')), .op (.addVertex (some 'b')), .op (.addEdge 0 1), .clear, .op (.addVertex none), .op (.addEdge 0 1)] g ∧
    g.accepts ['b'] = .ok false ∧ g.accepts ['b', 'b'] = .error .keyError := ⟨_, rfl, rfl, rfl⟩

end PyBGL
