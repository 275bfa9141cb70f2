import Verif.Spec.Tried
import Verif.Proofs.LazyNfa
import Verif.Props.C80_NfaEdges

/-!
# C165: calls on a non-deterministic automaton that raise

The only call that raises is `remove_vertex` of a state that is not there. It is not without effect: the transitions to this state, which `add_edge` does
not forbid, are gone.
-/

namespace PyBGL
open Lazy

variable {A : Type} [DecidableEq A]

section helpers

private theorem each_removeEdge {N : Type} : ∀ (l : List (EdgeDesc (A × N))) (g : Nfa A), PyM.each Nfa.removeEdgeM l g = (.ok (), l.foldl Nfa.removeEdge g)
  | [], _ => rfl
  | e :: l, g => by
    show PyM.each Nfa.removeEdgeM l (g.removeEdge e) = _
    rw [each_removeEdge l]; rfl

/-- The transitions to and from `u` removed. -/
private def cut (u : Nat) (g : Nfa A) : Nfa A :=
  let g1 := (g.edges.filter fun e => u = e.target).foldl Nfa.removeEdge g
  (g1.outEdges u).foldl Nfa.removeEdge g1

private theorem removeVertexM_eq (u : Nat) (g : Nfa A) : Nfa.removeVertexM u g =
    match (cut u g).adj.delE u with
    | .ok adj => (.ok (), { cut u g with adj })
    | .error e => (.error e, cut u g) := by
  show PyM.bind (PyM.each Nfa.removeEdgeM (g.edges.filter fun e => u = e.target)) _ g = _
  simp only [PyM.bind, each_removeEdge]
  show PyM.bind (PyM.each Nfa.removeEdgeM _) _ _ = _
  simp only [PyM.bind, each_removeEdge]
  change PyM.bind (PyM.lift ((cut u g).adj.delE u)) (fun adj => PyM.put { cut u g with adj }) (cut u g) = _
  simp only [PyM.bind, PyM.lift]
  cases (cut u g).adj.delE u <;> rfl

private theorem removeVertex_eq (u : Nat) (g : Nfa A) : g.removeVertex u = ((cut u g).adj.delE u).map fun adj => { cut u g with adj } := by
  show ((cut u g).adj.delE u).bind _ = _
  cases (cut u g).adj.delE u <;> rfl

private theorem cut_keeps (u : Nat) (g : Nfa A) : (cut u g).vertices = g.vertices ∧ (cut u g).lastVertexId = g.lastVertexId ∧
    (cut u g).initials = g.initials ∧ (cut u g).final = g.final ∧ (cut u g).eps = g.eps := by
  obtain ⟨a1, a2, a3, a4, a5⟩ := Nfa.foldl_removeEdge_keeps (g.edges.filter fun e => u = e.target) g
  obtain ⟨b1, b2, b3, b4, b5⟩ := Nfa.foldl_removeEdge_keeps (((g.edges.filter fun e => u = e.target).foldl Nfa.removeEdge g).outEdges u)
    ((g.edges.filter fun e => u = e.target).foldl Nfa.removeEdge g)
  exact ⟨b1.trans a1, b2.trans a2, b3.trans a3, b4.trans a4, b5.trans a5⟩

private theorem delE_cut (u : Nat) (g : Nfa A) : (cut u g).adj.delE u = if u ∈ g.vertices then .ok ((cut u g).adj.erase u) else .error .keyError := by
  have hv := (cut_keeps u g).1
  unfold Nfa.vertices at hv ⊢
  split
  · next h => exact (Dict.delE_ok_iff _ _ _).2 ⟨by rw [hv]; exact h, rfl⟩
  · next h =>
    unfold Dict.delE
    rw [if_neg]
    rw [Dict.contains_iff, ← Dict.mem_keys_iff, hv]; exact h

theorem Nfa.counter_removeVertexM (u : Nat) (g : Nfa A) : (Nfa.removeVertexM u g).2.lastVertexId = g.lastVertexId := by
  rw [removeVertexM_eq]
  split <;> exact (cut_keeps u g).2.1

theorem Nfa.clearM_eq {g : Nfa A} (hg : g.WF) : Nfa.clearM g = (.ok (), { g with lastVertexId := 0, adj := [] }) := by
  have hc := Nfa.clear_spec hg
  have key : ∀ (us : List Nat) (s s' : Nfa A), us.foldlM Nfa.removeVertex s = .ok s' → PyM.each Nfa.removeVertexM us s = (.ok (), s') := by
    intro us
    induction us with
    | nil => intro s s' h; cases h; rfl
    | cons u us ih =>
      intro s s' h
      rw [List.foldlM_cons] at h
      obtain ⟨s1, h1, h2⟩ := except_bind_ok.1 h
      show PyM.bind (Nfa.removeVertexM u) _ s = _
      rw [removeVertex_eq] at h1
      simp only [PyM.bind, removeVertexM_eq]
      cases hd : (cut u s).adj.delE u with
      | error e => rw [hd] at h1; cases h1
      | ok adj => rw [hd] at h1; cases h1; exact ih _ _ h2
  exact key _ _ _ hc

private theorem wf_execM (op : NfaOp A) {g : Nfa A} (hg : g.WF) : (Nfa.execM op g).2.WF := by
  cases op with
  | addVertex => exact hg.addVertex
  | addEdge q r a => exact hg.addEdge q r a
  | removeEdge e => exact hg.removeEdge e
  | removeVertex q => exact (nfa_removeVertexM q g hg).1
  | setInitial q b => exact ⟨hg.outer, hg.mid, hg.inner⟩
  | setInitials q => exact ⟨hg.outer, hg.mid, hg.inner⟩
  | setFinal q b => exact ⟨hg.outer, hg.mid, hg.inner⟩
  | clear => exact (nfa_clearM g hg).1

end helpers

/-- Whatever the calls, and whatever they raised, no key occurs twice in the dictionaries. -/
theorem Nfa.tried_wf {P : Nfa A → NfaOp A → Prop} {eps : A} {qs : List Nat} {n : Nat} {g : Nfa A} {l : List (NfaOp A × Except PyErr Unit)}
    (h : Tried P Nfa.execM (Nfa.init eps qs n) g l) : g.WF := by
  induction h with
  | start => exact Nfa.WF_init eps qs n
  | call op _ _ ih => exact wf_execM op ih

/-- A call raises exactly if it is `remove_vertex` of a state that is not there; the exception is `KeyError`. -/
theorem C165_raises {eps : A} {qs : List Nat} {n : Nat} {g : Nfa A} {l : List (NfaOp A × Except PyErr Unit)}
    (h : Tried Anything Nfa.execM (Nfa.init eps qs n) g l) (op : NfaOp A) (e : PyErr) :
    (Nfa.execM op g).1 = .error e ↔ e = .keyError ∧ ∃ u, op = .removeVertex u ∧ u ∉ g.vertices := by
  cases op with
  | removeVertex u =>
    show (Nfa.removeVertexM u g).1 = _ ↔ _
    rw [removeVertexM_eq, delE_cut]
    by_cases hu : u ∈ g.vertices
    · rw [if_pos hu]
      simp [hu]
    · rw [if_neg hu]
      simp only [Except.error.injEq, NfaOp.removeVertex.injEq, exists_eq_left', hu, not_false_eq_true, and_true]
      exact eq_comm
  | clear =>
    show (Nfa.clearM g).1 = _ ↔ _
    rw [Nfa.clearM_eq (Nfa.tried_wf h)]
    simp
  | addVertex => simp [Nfa.execM]
  | addEdge q r a => simp [Nfa.execM]
  | removeEdge e => simp [Nfa.execM, Nfa.removeEdgeM]
  | setInitial q b => simp [Nfa.execM]
  | setInitials q => simp [Nfa.execM]
  | setFinal q b => simp [Nfa.execM]

/-- A call that does not raise has the effect described by `Nfa.exec` (properties C25 to C28, C80, C113, …). -/
theorem C165_success {eps : A} {qs : List Nat} {n : Nat} {g : Nfa A} {l : List (NfaOp A × Except PyErr Unit)}
    (h : Tried Anything Nfa.execM (Nfa.init eps qs n) g l) (op : NfaOp A) (hok : (Nfa.execM op g).1 = .ok ()) : g.exec op = .ok (Nfa.execM op g).2 := by
  cases op with
  | removeVertex u =>
    change (Nfa.removeVertexM u g).1 = _ at hok
    show g.removeVertex u = .ok (Nfa.removeVertexM u g).2
    rw [removeVertexM_eq] at hok ⊢
    rw [removeVertex_eq]
    cases hd : (cut u g).adj.delE u with
    | error e => rw [hd] at hok; cases hok
    | ok adj => rfl
  | clear =>
    show g.clear = .ok (Nfa.clearM g).2
    rw [Nfa.clearM_eq (Nfa.tried_wf h), Nfa.clear_spec (Nfa.tried_wf h)]
  | addVertex => rfl
  | addEdge q r a => rfl
  | removeEdge e => rfl
  | setInitial q b => rfl
  | setInitials q => rfl
  | setFinal q b => rfl

/-- The effect of a call that raises: the transitions to the missing state are removed; nothing else changes. -/
theorem C165_failure {eps : A} {qs : List Nat} {n : Nat} {g : Nfa A} {l : List (NfaOp A × Except PyErr Unit)}
    (h : Tried Anything Nfa.execM (Nfa.init eps qs n) g l) {op : NfaOp A} {e : PyErr} (he : (Nfa.execM op g).1 = .error e) :
    ∃ u, op = .removeVertex u ∧ u ∉ g.vertices ∧ (∀ d, d ∈ (Nfa.execM op g).2.edges ↔ d ∈ g.edges ∧ d.target ≠ u) ∧
      (Nfa.execM op g).2.vertices = g.vertices ∧ (Nfa.execM op g).2.addVertex.1 = g.addVertex.1 ∧ (Nfa.execM op g).2.initials = g.initials ∧
      (∀ q, (Nfa.execM op g).2.isFinal q = g.isFinal q) ∧ (Nfa.execM op g).2.eps = g.eps := by
  obtain ⟨-, u, rfl, hu⟩ := (C165_raises h _ _).1 he
  have hg := Nfa.tried_wf h
  have hex : (Nfa.execM (.removeVertex u) g).2 = cut u g := by
    show (Nfa.removeVertexM u g).2 = _
    rw [removeVertexM_eq, delE_cut, if_neg hu]
  rw [hex]
  obtain ⟨a1, a2, a3, a4, a5⟩ := cut_keeps u g
  refine ⟨u, rfl, hu, fun d => ?_, a1, a2, a3, fun q => by unfold Nfa.isFinal; rw [a4], a5⟩
  have hw1 := hg.foldl_removeEdge (g.edges.filter fun e => u = e.target)
  have hw : (cut u g).WF := hw1.foldl_removeEdge _
  rw [Nfa.mem_edges_nums hw, Nfa.mem_edges_nums hg]
  unfold cut
  have hv1 := (Nfa.foldl_removeEdge_keeps (g.edges.filter fun e => u = e.target) g).1
  generalize hg1 : (g.edges.filter fun e => u = e.target).foldl Nfa.removeEdge g = g1 at *
  have hout : g1.outEdges u = [] := by
    unfold Nfa.outEdges
    have : u ∉ g1.adj.keys := by
      unfold Nfa.vertices at hv1 hu; rw [hv1]; exact hu
    rw [Dict.getD_eq, (Dict.get?_eq_none_iff _ _).2 this]; rfl
  simp only [hout, List.foldl_nil]
  rw [← hg1, Nfa.nums_foldl_removeEdge _ hg]
  by_cases hd : ∃ e ∈ g.edges.filter (fun e => u = e.target), d.source = e.source ∧ d.distinguisher.1 = e.distinguisher.1 ∧ d.target = e.target
  · rw [if_pos hd]
    obtain ⟨e, h1, h2, h3, h4⟩ := hd
    rw [List.mem_filter, decide_eq_true_iff] at h1
    simp [h4, h1.2]
  · rw [if_neg hd]
    refine ⟨fun k => ⟨k, fun ht => hd ⟨d, ?_, rfl, rfl, rfl⟩⟩, fun k => k.1⟩
    rw [List.mem_filter, decide_eq_true_iff]
    exact ⟨(Nfa.mem_edges_nums hg d).2 k, ht.symm⟩

/-- If the targets of all transitions are states, a call that raises changes nothing that can be observed. -/
theorem C165_harmless {eps : A} {qs : List Nat} {n : Nat} {g : Nfa A} {l : List (NfaOp A × Except PyErr Unit)}
    (h : Tried Anything Nfa.execM (Nfa.init eps qs n) g l) (ht : ∀ d ∈ g.edges, d.target ∈ g.vertices) {op : NfaOp A} {e : PyErr}
    (he : (Nfa.execM op g).1 = .error e) (w : List A) : ((Nfa.execM op g).2.Lang w ↔ g.Lang w) ∧ ∀ d, d ∈ (Nfa.execM op g).2.edges ↔ d ∈ g.edges := by
  obtain ⟨u, -, hu, h1, -, -, h4, h5, h6⟩ := C165_failure h he
  have hd : ∀ d, d ∈ (Nfa.execM op g).2.edges ↔ d ∈ g.edges := fun d => by
    rw [h1]
    exact ⟨fun k => k.1, fun k => ⟨k, fun e => hu (e ▸ ht d k)⟩⟩
  refine ⟨?_, hd⟩
  have hT : (Nfa.execM op g).2.Trans = g.Trans := by
    funext q a r
    unfold Nfa.Trans
    simp only [hd]
  unfold Nfa.Lang
  rw [hT, h4, h6]
  simp only [h5]

/-- `accepts` is right after any history of calls, some of which raised. -/
theorem C165_accepts {eps : A} {qs : List Nat} {n : Nat} {g : Nfa A} {l : List (NfaOp A × Except PyErr Unit)}
    (h : Tried Anything Nfa.execM (Nfa.init eps qs n) g l) {w : List A} (hw : g.eps ∉ w) : g.accepts w = true ↔ g.Lang w := by
  rw [Nfa.accepts_iff_T g hw, Nfa.lang_iff (Nfa.tried_wf h)]

/-- A call that raises may change the language: `remove_vertex(7)` where `7` is no state but is final, and is the target of a transition. -/
theorem C165_failure_counterexample : ∃ (g : Nfa Char) (l : List (NfaOp Char × Except PyErr Unit)) (op : NfaOp Char),
    Tried Anything Nfa.execM (Nfa.init 'e' [] 1) g l ∧ (Nfa.execM op g).1 = .error .keyError ∧ g.accepts ['a'] = true ∧
      (Nfa.execM op g).2.accepts ['a'] = false :=
  ⟨_, _, .removeVertex 7, .call (.setFinal 7 true) trivial (.call (.addEdge 0 7 'a') trivial .start), by decide, by decide, by decide⟩

/-! ## Non-vacuity -/

/-- Two states and a transition between them. -/
private def two : Nfa Char := (Nfa.execM (.addEdge 0 1 'a') (Nfa.init 'e' [] 2)).2

example : Tried Anything Nfa.execM (Nfa.init 'e' [] 2) two [(NfaOp.addEdge 0 1 'a', .ok ())] ∧ (∀ d ∈ two.edges, d.target ∈ two.vertices) ∧
    (Nfa.execM (.removeVertex 2) two).1 = .error .keyError ∧ (Nfa.execM (.removeVertex 1) two).1 = .ok () ∧ 'e' ∉ ['a'] :=
  ⟨.call (NfaOp.addEdge 0 1 'a') trivial .start, by decide, by decide, by decide, by decide⟩

end PyBGL
