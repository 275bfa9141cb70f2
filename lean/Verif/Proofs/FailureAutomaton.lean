import Verif.Model.FailureAutomaton
import Verif.Spec.Tried
import Verif.Proofs.PyM
import Verif.Proofs.Clear
import Verif.Proofs.IncidenceAutomaton

/-!
# State left behind by the mutators of the automata
-/

namespace PyBGL
open PyM
variable {A : Type} [DecidableEq A]

/-- A loop whose body never raises. -/
theorem each_pure {S X : Type} (body : X → PyM S Unit) (f : S → X → S) (h : ∀ x s, body x s = (.ok (), f s x)) :
    ∀ (l : List X) (s : S), each body l s = (.ok (), l.foldl f s)
  | [], _ => rfl
  | x :: l, s => by
    show (body x >>= fun _ => each body l) s = _
    rw [bind_ok (h x s)]
    exact each_pure body f h l _

/-- A loop that modifies a component of the state. -/
theorem foldlM_lens {S T X : Type} (set : S → T → S) (get : S → T) (f : T → X → Except PyErr T) (h1 : ∀ s t, get (set s t) = t) (h2 : ∀ s t t', set (set s t) t' = set s t')
    (h3 : ∀ s, set s (get s) = s) : ∀ (l : List X) (s : S), l.foldlM (fun s x => (f (get s) x).map (set s)) s = (l.foldlM f (get s)).map (set s)
  | [], s => by show Except.ok s = Except.ok (set s (get s)); rw [h3]
  | x :: l, s => by
    rw [List.foldlM_cons, List.foldlM_cons]
    cases hx : f (get s) x with
    | error e => rfl
    | ok t =>
      simp only [emap_ok, ebind_ok]
      rw [foldlM_lens set get f h1 h2 h3 l (set s t), h1]
      cases l.foldlM f t with
      | error e => rfl
      | ok t' => simp only [emap_ok, h2]

namespace Automaton

theorem result_addEdgeM (q r : Nat) (a : A) (g : Automaton A) : (addEdgeM q r a).result g = (g.addEdge q r a).map fun t => ((t.1, t.2.1), t.2.2) := result_atomic _ _

theorem each_removeEdgeM (es : List (EdgeDesc A)) (g : Automaton A) : each removeEdgeM es g = (.ok (), es.foldl removeEdge g) :=
  each_pure removeEdgeM removeEdge (fun _ _ => rfl) es g

/-- The two passes of `remove_vertex` over the transitions. -/
def dropEdges (g : Automaton A) (u : Nat) : Automaton A :=
  let g := (g.edges.filter fun e => u = e.target).foldl removeEdge g
  (g.outEdges u).foldl removeEdge g

theorem removeVertexM_eq (g : Automaton A) (u : Nat) : removeVertexM u g =
    match (g.dropEdges u).adj.delE u with
    | .ok adj => (.ok (), { g.dropEdges u with adj })
    | .error e => (.error e, g.dropEdges u) := by
  unfold removeVertexM dropEdges
  rw [get_bind, bind_ok (each_removeEdgeM _ _), get_bind, bind_ok (each_removeEdgeM _ _), get_bind]
  generalize (List.foldl removeEdge (List.foldl removeEdge g _) _) = g2
  cases hd : g2.adj.delE u with
  | error e => rw [lift_bind_error rfl]
  | ok adj => rw [lift_bind_ok rfl]; rfl

theorem result_removeVertexM (u : Nat) (g : Automaton A) : (removeVertexM u).result g = (g.removeVertex u).map fun g' => ((), g') := by
  unfold result
  rw [removeVertexM_eq]
  unfold removeVertex
  show _ = Except.map _ ((g.dropEdges u).adj.delE u >>= fun adj => .ok { g.dropEdges u with adj })
  cases (g.dropEdges u).adj.delE u <;> rfl

theorem result_execM (op : AOp A) (g : Automaton A) : (execM op).result g = (g.exec op).map fun g' => ((), g') := by
  cases op with
  | addVertex => rfl
  | addEdge q r a =>
    show (_ >>= _ : PyM (Automaton A) Unit).result g = _
    rw [result_bind, result_addEdgeM, exec]
    cases g.addEdge q r a <;> rfl
  | removeEdge e => rfl
  | removeVertex u => exact result_removeVertexM u g
  | setInitial q b => rfl
  | setFinal q b => rfl
  | clear => exact result_each removeVertexM removeVertex (fun u g => result_removeVertexM u g) g.vertices { g with lastVertexId := 0 }

/-- What an exception leaves behind. -/
theorem execM_error {g : Automaton A} (hg : AWF g) {op : AOp A} {err : PyErr} (he : (execM op g).1 = .error err) :
    err = .keyError ∧
    ((∃ q r a, op = .addEdge q r a ∧ q ∉ g.vertices ∧ (execM op g).2 = g) ∨
     (∃ u, op = .removeVertex u ∧ u ∉ g.vertices ∧ (execM op g).2 = (g.edges.filter fun e => u = e.target).foldl removeEdge g)) := by
  have hr : g.exec op = .error err := by
    have h1 := (result_error.mpr he)
    rw [result_execM] at h1
    cases h2 : g.exec op with
    | error e => rw [h2] at h1; simpa using h1
    | ok g' => rw [h2] at h1; cases h1
  cases op with
  | addVertex => cases hr
  | addEdge q r a =>
    have hr' : (g.addEdge q r a).map (·.2.2) = .error err := hr
    have hq : q ∉ g.vertices := by
      intro hq
      cases hd : g.delta q a with
      | none => rw [addEdge_of_free (.inl hd) hq] at hr'; cases hr'
      | some k =>
        cases k with
        | zero => rw [addEdge_of_free (.inr hd) hq] at hr'; cases hr'
        | succ k => rw [addEdge_of_succ hd] at hr'; cases hr'
    have h1 := addEdge_of_not_mem (r := r) (a := a) hq
    rw [h1] at hr'
    refine ⟨by cases hr'; rfl, .inl ⟨q, r, a, rfl, hq, ?_⟩⟩
    have : addEdgeM q r a g = (.error .keyError, g) := atomic_error (by rw [h1]; rfl)
    show ((addEdgeM q r a >>= fun _ => pure ()) g).2 = g
    rw [bind_error this]
  | removeEdge e => cases hr
  | removeVertex u =>
    have hr' : g.removeVertex u = .error err := hr
    have hu : u ∉ g.vertices := by
      intro hu
      obtain ⟨g', h1, -⟩ := removeVertex_spec hg hu
      rw [h1] at hr'; cases hr'
    rw [removeVertex_not_mem hg hu] at hr'
    refine ⟨by cases hr'; rfl, .inr ⟨u, rfl, hu, ?_⟩⟩
    show (removeVertexM u g).2 = _
    rw [removeVertexM_eq]
    obtain ⟨i1, i2, _⟩ := foldl_removeEdge_spec hg (g.edges.filter fun e => u = e.target)
    have hd : g.dropEdges u = (g.edges.filter fun e => u = e.target).foldl removeEdge g := by
      unfold dropEdges
      generalize (g.edges.filter fun e => u = e.target).foldl removeEdge g = g1 at *
      have hn : Dict.get? g1.adj u = none := by
        rw [Dict.get?_eq_none_iff]
        have : Dict.keys g1.adj = g.vertices := i2
        rw [this]; exact hu
      have : g1.outEdges u = [] := by unfold outEdges; simp [Dict.getD, hn]
      simp only [this]; rfl
    have hm : u ∉ Dict.keys (g.dropEdges u).adj := by
      rw [hd]
      have : Dict.keys ((g.edges.filter fun e => u = e.target).foldl removeEdge g).adj = g.vertices := i2
      rw [this]; exact hu
    have hdel : (g.dropEdges u).adj.delE u = .error .keyError := by
      unfold Dict.delE
      rw [if_neg]; rwa [Dict.contains_iff_mem]
    rw [hdel]
    exact hd
  | setInitial q b => cases hr
  | setFinal q b => cases hr
  | clear =>
    have hr' : g.clear = .error err := hr
    rw [clear_spec hg] at hr'; cases hr'

theorem Reachable.exec {g g' : Automaton A} (h : g.Reachable) {op : AOp A} (he : g.exec op = .ok g') : g'.Reachable := by
  obtain ⟨ops, h⟩ := h
  refine ⟨ops ++ [op], ?_⟩
  have h' : ops.foldlM Automaton.exec Automaton.empty = .ok g := h
  unfold Runs
  rw [List.foldlM_append, h']
  show [op].foldlM Automaton.exec g = _
  rw [List.foldlM_cons, he]
  rfl

theorem Reachable.removeEdges {g : Automaton A} (h : g.Reachable) (es : List (EdgeDesc A)) : (es.foldl removeEdge g).Reachable := by
  induction es generalizing g with
  | nil => exact h
  | cons e es ih => exact ih (h.exec (op := .removeEdge e) rfl)

/-- The automata obtained by catching exceptions could have been obtained without. -/
theorem tried_reachable {g : Automaton A} {l : List (AOp A × Except PyErr Unit)} (h : Tried Anything execM empty g l) : g.Reachable := by
  induction h with
  | start => exact ⟨[], rfl⟩
  | @call s l op _ h ih =>
    cases he : (execM op s).1 with
    | error err =>
      rcases (execM_error ih.awf he).2 with ⟨q, r, a, rfl, -, h2⟩ | ⟨u, rfl, -, h2⟩
      · rw [h2]; exact ih
      · rw [h2]; exact ih.removeEdges _
    | ok x =>
      have h1 : (execM op).result s = .ok ((), (execM op s).2) := by
        rw [result_ok]; exact Prod.ext he rfl
      rw [result_execM] at h1
      cases h2 : s.exec op with
      | error e => rw [h2] at h1; cases h1
      | ok g' =>
        rw [h2] at h1
        have : g' = (execM op s).2 := by simpa using h1
        rw [← this]
        exact ih.exec h2

end Automaton

namespace NodeAutomaton

theorem result_addEdgeM (q r : Nat) (g : NodeAutomaton A) : (addEdgeM q r).result g = (g.addEdge q r).map fun t => ((t.1, t.2.1), t.2.2) := result_atomic _ _

theorem each_removeEdgeM (es : List (EdgeDesc (Option A))) (g : NodeAutomaton A) : each removeEdgeM es g = (.ok (), es.foldl removeEdge g) :=
  each_pure removeEdgeM removeEdge (fun _ _ => rfl) es g

theorem removeVertexM_eq (g : NodeAutomaton A) (u : Nat) : removeVertexM u g =
    let g1 := (g.edges.filter fun e => u = e.target).foldl removeEdge g
    match g1.outEdges u with
    | .error e => (.error e, g1)
    | .ok es =>
      match (es.foldl removeEdge g1).a.adj.delE u with
      | .ok adj => (.ok (), ⟨{ (es.foldl removeEdge g1).a with adj }, (es.foldl removeEdge g1).symbols⟩)
      | .error e => (.error e, es.foldl removeEdge g1) := by
  unfold removeVertexM
  rw [get_bind, bind_ok (each_removeEdgeM _ _), get_bind]
  simp only
  generalize (List.foldl removeEdge g _) = g1
  cases ho : g1.outEdges u with
  | error e => rw [lift_bind_error rfl]
  | ok es =>
    rw [lift_bind_ok rfl, bind_ok (each_removeEdgeM _ _), get_bind]
    simp only
    generalize (List.foldl removeEdge g1 _) = g2
    cases hd : g2.a.adj.delE u with
    | error e => rw [lift_bind_error rfl]
    | ok adj => rw [lift_bind_ok rfl]; rfl

theorem result_removeVertexM (u : Nat) (g : NodeAutomaton A) : (removeVertexM u).result g = (g.removeVertex u).map fun g' => ((), g') := by
  unfold result
  rw [removeVertexM_eq]
  unfold removeVertex
  simp only
  generalize (List.foldl removeEdge g _) = g1
  cases g1.outEdges u with
  | error e => rfl
  | ok es =>
    simp only [ebind_ok]
    cases (es.foldl removeEdge g1).a.adj.delE u <;> rfl

theorem result_execM (op : NOp A) (g : NodeAutomaton A) : (execM op).result g = (g.exec op).map fun g' => ((), g') := by
  cases op with
  | addVertex a => rfl
  | addEdge q r =>
    show (_ >>= _ : PyM (NodeAutomaton A) Unit).result g = _
    rw [result_bind, result_addEdgeM, exec]
    cases g.addEdge q r <;> rfl
  | removeEdge e => rfl
  | removeVertex u => exact result_removeVertexM u g
  | setInitial q b => rfl
  | setFinal q b => rfl

theorem exec_of_execM_error {g : NodeAutomaton A} {op : NOp A} {err : PyErr} (he : (execM op g).1 = .error err) : g.exec op = .error err := by
  have h1 := (result_error.mpr he)
  rw [result_execM] at h1
  cases h2 : g.exec op with
  | error e => rw [h2] at h1; simpa using h1
  | ok g' => rw [h2] at h1; cases h1

theorem exec_of_execM_ok {g : NodeAutomaton A} {op : NOp A} {x : Unit} (he : (execM op g).1 = .ok x) : g.exec op = .ok (execM op g).2 := by
  have h1 : (execM op).result g = .ok ((), (execM op g).2) := by
    rw [result_ok]; exact Prod.ext he rfl
  rw [result_execM] at h1
  cases h2 : g.exec op with
  | error e => rw [h2] at h1; cases h1
  | ok g' =>
    rw [h2] at h1
    have : g' = (execM op g).2 := by simpa using h1
    rw [← this]

/-- An exception leaves the automaton unchanged. -/
theorem execM_error {g : NodeAutomaton A} (hg : WF g) {op : NOp A} {err : PyErr} (he : (execM op g).1 = .error err) :
    err = .keyError ∧ (execM op g).2 = g ∧ ((∃ q r, op = .addEdge q r ∧ q ∉ g.vertices) ∨ ∃ u, op = .removeVertex u ∧ u ∉ g.vertices) := by
  have hr := exec_of_execM_error he
  cases op with
  | addVertex a => cases hr
  | addEdge q r =>
    have hr' : (g.addEdge q r).map (·.2.2) = .error err := hr
    have hq : q ∉ g.vertices := by
      intro hq
      cases hd : g.a.delta q (g.symbol r) with
      | none => rw [(addEdge_spec r hq).2 hd] at hr'; cases hr'
      | some k => rw [(addEdge_spec r hq).1 k hd] at hr'; cases hr'
    have h1 := addEdge_absent r hq
    rw [h1] at hr'
    refine ⟨by cases hr'; rfl, ?_, .inl ⟨q, r, rfl, hq⟩⟩
    have : addEdgeM q r g = (.error .keyError, g) := atomic_error (by rw [h1]; rfl)
    show ((addEdgeM q r >>= fun _ => pure ()) g).2 = g
    rw [bind_error this]
  | removeEdge e => cases hr
  | removeVertex u =>
    have hr' : g.removeVertex u = .error err := hr
    have hu : u ∉ g.vertices := by
      intro hu
      obtain ⟨g', h1, -⟩ := removeVertex_spec hg hu
      rw [h1] at hr'; cases hr'
    rw [removeVertex_absent hg hu] at hr'
    refine ⟨by cases hr'; rfl, ?_, .inr ⟨u, rfl, hu⟩⟩
    have hf : (g.edges.filter fun e => u = e.target) = [] := by
      rw [List.filter_eq_nil_iff]
      intro e hm hu'
      simp only [decide_eq_true_eq] at hu'
      simp only [edges, Automaton.mem_edges hg.out] at hm
      exact hu (hu' ▸ hg.closed _ _ _ hm)
    show (removeVertexM u g).2 = _
    rw [removeVertexM_eq, hf]
    have hn : Dict.get? g.a.adj u = none := (Dict.get?_eq_none_iff _ _).mpr hu
    have ho : g.outEdges u = .error .keyError := by simp [outEdges, Dict.getE, hn, bind, Except.bind]
    simp only [List.foldl_nil, ho]
  | setInitial q b => cases hr
  | setFinal q b => cases hr

end NodeAutomaton

namespace IAutomaton

theorem result_addEdgeM (q r : Nat) (a : A) (g : IAutomaton A) : (addEdgeM q r a).result g = (g.addEdge q r a).map fun t => ((t.1, t.2.1), t.2.2) := by
  unfold addEdgeM addEdge super
  rw [result_bind, result_on, Automaton.result_addEdgeM]
  cases g.a.addEdge q r a with
  | error e => rfl
  | ok p =>
    obtain ⟨e, b, g1⟩ := p
    simp only [ebind_ok, emap_ok]
    cases b with
    | false => rfl
    | true =>
      simp only [if_true, result_get_bind, result_lift_bind]
      cases g.inAdj.getE r with
      | error e => rfl
      | ok d =>
        simp only [ebind_ok]
        cases d.get? q <;> rfl

theorem result_removeEdgeM (e : EdgeDesc A) (g : IAutomaton A) : (removeEdgeM e).result g = (g.removeEdge e).map fun g' => ((), g') := by
  unfold removeEdgeM removeEdge super
  rw [result_bind, result_on]
  show (_ >>= _) = _
  simp only [Automaton.removeEdgeM, result, emap_ok, ebind_ok]
  show result (_ >>= _) _ = _
  rw [result_get_bind, result_lift_bind]
  simp only
  cases g.inAdj.getE e.target with
  | error e => rfl
  | ok adjV =>
    simp only [ebind_ok]
    rw [result_lift_bind]
    cases adjV.getE e.source with
    | error e => rfl
    | ok s =>
      simp only [ebind_ok]
      by_cases h : e.distinguisher ∈ s
      · rw [if_pos h, if_pos h]
        by_cases h' : setDiscard s e.distinguisher = []
        · rw [if_pos h', if_pos h']; rfl
        · rw [if_neg h', if_neg h']; rfl
      · rw [if_neg h, if_neg h]; rfl

theorem result_removeVertexM (q : Nat) (g : IAutomaton A) : (removeVertexM q).result g = (g.removeVertex q).map fun g' => ((), g') := by
  have hd : ∀ e (g : IAutomaton A), (delTransitionM e).result g =
      ((delTransition g.a.adj e.source e.distinguisher).map fun adj => (⟨{ g.a with adj }, g.inAdj⟩ : IAutomaton A)).map fun g' => ((), g') := by
    intro e g
    unfold delTransitionM
    rw [result_get_bind, result_lift_bind]
    cases delTransition g.a.adj e.source e.distinguisher <;> rfl
  have hp : ∀ e (g : IAutomaton A), (dropInM q e).result g = ((dropIn q g.inAdj e).map fun i => (⟨g.a, i⟩ : IAutomaton A)).map fun g' => ((), g') := by
    intro e g
    unfold dropInM
    rw [result_get_bind, result_lift_bind]
    cases dropIn q g.inAdj e <;> rfl
  have hin : (removeInM q).result g = ((if g.inAdj.contains q then do
      let adj ← (g.inEdges q).foldlM (fun adj e => delTransition adj e.source e.distinguisher) g.a.adj
      let inAdj ← g.inAdj.delE q
      .ok (adj, inAdj)
    else .ok (g.a.adj, g.inAdj)) : Except PyErr _).map fun p => ((), (⟨{ g.a with adj := p.1 }, p.2⟩ : IAutomaton A)) := by
    unfold removeInM
    rw [result_get_bind]
    by_cases hc : g.inAdj.contains q = true
    · rw [if_pos hc, if_pos hc, result_bind,
        result_each delTransitionM (fun g e => (delTransition g.a.adj e.source e.distinguisher).map fun adj => (⟨{ g.a with adj }, g.inAdj⟩ : IAutomaton A)) hd,
        foldlM_lens (fun (g : IAutomaton A) adj => ⟨{ g.a with adj }, g.inAdj⟩) (fun g => g.a.adj) (fun adj (e : EdgeDesc A) => delTransition adj e.source e.distinguisher)
          (fun _ _ => rfl) (fun _ _ _ => rfl) (fun _ => rfl)]
      cases (g.inEdges q).foldlM (fun adj e => delTransition adj e.source e.distinguisher) g.a.adj with
      | error e => rfl
      | ok adj =>
        simp only [emap_ok, ebind_ok, result_get_bind, result_lift_bind]
        cases g.inAdj.delE q <;> rfl
    · rw [if_neg hc, if_neg hc]; rfl
  have hout : ∀ g : IAutomaton A, (removeOutM q).result g = ((if g.a.adj.contains q then do
      let inAdj ← (g.a.outEdges q).foldlM (dropIn q) g.inAdj
      let adj ← g.a.adj.delE q
      .ok ⟨{ g.a with adj }, inAdj⟩
    else .ok g : Except PyErr (IAutomaton A))).map fun g' => ((), g') := by
    intro g
    unfold removeOutM
    rw [result_get_bind]
    by_cases hc : g.a.adj.contains q = true
    · rw [if_pos hc, if_pos hc, result_bind, result_each (dropInM q) (fun g e => (dropIn q g.inAdj e).map fun i => (⟨g.a, i⟩ : IAutomaton A)) hp,
        foldlM_lens (fun (g : IAutomaton A) i => ⟨g.a, i⟩) (fun g => g.inAdj) (fun i e => dropIn q i e) (fun _ _ => rfl) (fun _ _ _ => rfl) (fun _ => rfl)]
      cases (g.a.outEdges q).foldlM (dropIn q) g.inAdj with
      | error e => rfl
      | ok i =>
        simp only [emap_ok, ebind_ok, result_get_bind, result_lift_bind]
        cases g.a.adj.delE q <;> rfl
    · rw [if_neg hc, if_neg hc]; rfl
  unfold removeVertexM removeVertex
  rw [result_bind, hin]
  by_cases hc : g.inAdj.contains q = true
  · rw [if_pos hc]
    simp only [if_pos hc]
    cases (g.inEdges q).foldlM (fun adj e => delTransition adj e.source e.distinguisher) g.a.adj with
    | error e => rfl
    | ok adj =>
      simp only [ebind_ok]
      cases g.inAdj.delE q with
      | error e => rfl
      | ok inAdj =>
        simp only [emap_ok, ebind_ok]
        rw [hout]
  · rw [if_neg hc]
    simp only [if_neg hc, emap_ok, ebind_ok]
    rw [hout]

theorem result_execM (op : AOp A) (g : IAutomaton A) : (execM op).result g = (g.exec op).map fun g' => ((), g') := by
  cases op with
  | addVertex => rfl
  | addEdge q r a =>
    show (_ >>= _ : PyM (IAutomaton A) Unit).result g = _
    rw [result_bind, result_addEdgeM, exec]
    cases g.addEdge q r a <;> rfl
  | removeEdge e => exact result_removeEdgeM e g
  | removeVertex u => exact result_removeVertexM u g
  | setInitial q b => rfl
  | setFinal q b => rfl
  | clear => exact result_each removeVertexM removeVertex (fun u g => result_removeVertexM u g) g.a.vertices ⟨{ g.a with lastVertexId := 0 }, g.inAdj⟩

theorem exec_of_execM_error {g : IAutomaton A} {op : AOp A} {err : PyErr} (he : (execM op g).1 = .error err) : g.exec op = .error err := by
  have h1 := (result_error.mpr he)
  rw [result_execM] at h1
  cases h2 : g.exec op with
  | error e => rw [h2] at h1; simpa using h1
  | ok g' => rw [h2] at h1; cases h1

theorem exec_of_execM_ok {g : IAutomaton A} {op : AOp A} {x : Unit} (he : (execM op g).1 = .ok x) : g.exec op = .ok (execM op g).2 := by
  have h1 : (execM op).result g = .ok ((), (execM op g).2) := by
    rw [result_ok]; exact Prod.ext he rfl
  rw [result_execM] at h1
  cases h2 : g.exec op with
  | error e => rw [h2] at h1; cases h1
  | ok g' =>
    rw [h2] at h1
    have : g' = (execM op g).2 := by simpa using h1
    rw [← this]

theorem mem_inAdj {g : IAutomaton A} (hw : WF g) {r : Nat} (hr : r ∈ g.a.vertices) : ∃ d, Dict.get? g.inAdj r = some d :=
  (Dict.mem_keys_iff _ _).mp ((hw.keys r).mpr hr)

theorem not_mem_inAdj {g : IAutomaton A} (hw : WF g) {r : Nat} (hr : r ∉ g.a.vertices) : g.inAdj.getE r = .error .keyError := by
  have : Dict.get? g.inAdj r = none := (Dict.get?_eq_none_iff _ _).mpr (fun h => hr ((hw.keys r).mp h))
  simp [Dict.getE, this]

/-- What an exception leaves behind. -/
theorem execM_error {g : IAutomaton A} (hw : WF g) {op : AOp A} {err : PyErr} (he : (execM op g).1 = .error err) :
    err = .keyError ∧
    ((∃ q r a, op = .addEdge q r a ∧ q ∉ g.a.vertices ∧ (execM op g).2 = g) ∨
     (∃ q r a, op = .addEdge q r a ∧ q ∈ g.a.vertices ∧ r ∉ g.a.vertices ∧ (execM op g).2 = ⟨g.a.setDelta q r a, g.inAdj⟩) ∨
     (∃ e, op = .removeEdge e ∧ e ∉ g.a.edges ∧ (execM op g).2 = ⟨g.a.removeEdge e, g.inAdj⟩)) := by
  have hr := exec_of_execM_error he
  cases op with
  | addVertex => cases hr
  | addEdge q r a =>
    have hr' : (g.addEdge q r a).map (·.2.2) = .error err := hr
    by_cases hq : q ∈ g.a.vertices
    · have hfree : ∀ (_ : g.a.delta q a = none ∨ g.a.delta q a = some 0), err = .keyError ∧ r ∉ g.a.vertices ∧ (execM (.addEdge q r a) g).2 = ⟨g.a.setDelta q r a, g.inAdj⟩ := by
        intro hf
        have h1 := Automaton.addEdge_of_free (r := r) hf hq
        have hs : (super (Automaton.addEdgeM q r a) : PyM (IAutomaton A) _) g = (.ok (some ⟨q, r, a⟩, true), ⟨g.a.setDelta q r a, g.inAdj⟩) := by
          have : Automaton.addEdgeM q r a g.a = (.ok (some ⟨q, r, a⟩, true), g.a.setDelta q r a) := atomic_ok (by rw [h1]; rfl)
          unfold super PyM.on
          simp only [this]
        by_cases hrv : r ∈ g.a.vertices
        · exfalso
          obtain ⟨d, hd⟩ := mem_inAdj hw hrv
          have hE : g.inAdj.getE r = .ok d := Dict.getE_of_get? hd
          unfold addEdge at hr'
          rw [h1] at hr'
          simp only [ebind_ok, if_true] at hr'
          rw [hE] at hr'
          simp only [ebind_ok] at hr'
          cases hg : d.get? q <;> simp [hg] at hr'
        · have hE := not_mem_inAdj hw hrv
          have hM : addEdgeM q r a g = (.error .keyError, ⟨g.a.setDelta q r a, g.inAdj⟩) := by
            unfold addEdgeM
            rw [bind_ok hs]
            simp only [if_true]
            rw [get_bind, lift_bind_error hE]
          have hX : execM (.addEdge q r a) g = (.error .keyError, ⟨g.a.setDelta q r a, g.inAdj⟩) := bind_error hM
          rw [hX] at he ⊢
          exact ⟨by cases he; rfl, hrv, rfl⟩
      cases hd : g.a.delta q a with
      | none =>
        obtain ⟨h1, h2, h3⟩ := hfree (.inl hd)
        exact ⟨h1, .inr (.inl ⟨q, r, a, rfl, hq, h2, h3⟩)⟩
      | some k =>
        cases k with
        | zero =>
          obtain ⟨h1, h2, h3⟩ := hfree (.inr hd)
          exact ⟨h1, .inr (.inl ⟨q, r, a, rfl, hq, h2, h3⟩)⟩
        | succ k => unfold addEdge at hr'; rw [Automaton.addEdge_of_succ hd] at hr'; cases hr'
    · have h1 := Automaton.addEdge_of_not_mem (r := r) (a := a) hq
      have hs : (super (Automaton.addEdgeM q r a) : PyM (IAutomaton A) _) g = (.error .keyError, g) := by
        have : Automaton.addEdgeM q r a g.a = (.error .keyError, g.a) := atomic_error (by rw [h1]; rfl)
        unfold super PyM.on
        simp only [this]
      have hX : execM (.addEdge q r a) g = (.error .keyError, g) := bind_error (bind_error hs)
      rw [hX] at he ⊢
      exact ⟨by cases he; rfl, .inl ⟨q, r, a, rfl, hq, rfl⟩⟩
  | removeEdge e =>
    have hne : e ∉ g.a.edges := by
      intro hm
      obtain ⟨g', h1, -⟩ := removeEdge_WF hw hm
      have hr' : g.removeEdge e = .error err := hr
      rw [h1] at hr'; cases hr'
    have hs : (super (Automaton.removeEdgeM e) : PyM (IAutomaton A) _) g = (.ok (), ⟨g.a.removeEdge e, g.inAdj⟩) := rfl
    have hX : execM (.removeEdge e) g = (.error .keyError, ⟨g.a.removeEdge e, g.inAdj⟩) ∨ ∃ x g', execM (.removeEdge e) g = (.ok x, g') := by
      show removeEdgeM e g = _ ∨ ∃ x g', removeEdgeM e g = _
      unfold removeEdgeM
      rw [bind_ok hs, get_bind]
      simp only
      cases h1 : g.inAdj.getE e.target with
      | error er =>
        left
        rw [lift_bind_error rfl]
        have : er = .keyError := by
          unfold Dict.getE at h1
          split at h1
          · cases h1
          · cases h1; rfl
        rw [this]
      | ok d =>
        rw [lift_bind_ok rfl]
        cases h2 : d.getE e.source with
        | error er =>
          left
          rw [lift_bind_error rfl]
          have : er = .keyError := by
            unfold Dict.getE at h2
            split at h2
            · cases h2
            · cases h2; rfl
          rw [this]
        | ok s =>
          right
          rw [lift_bind_ok rfl]
          by_cases hc : e.distinguisher ∈ s
          · rw [if_pos hc]
            by_cases hc' : setDiscard s e.distinguisher = []
            · rw [if_pos hc']; exact ⟨_, _, rfl⟩
            · rw [if_neg hc']; exact ⟨_, _, rfl⟩
          · rw [if_neg hc]; exact ⟨_, _, rfl⟩
    rcases hX with hX | ⟨x, g', hX⟩
    · rw [hX] at he ⊢
      exact ⟨by cases he; rfl, .inr (.inr ⟨e, rfl, hne, rfl⟩)⟩
    · rw [hX] at he; cases he
  | removeVertex u =>
    have hr' : g.removeVertex u = .error err := hr
    by_cases hu : u ∈ g.a.vertices
    · obtain ⟨g', h1, -⟩ := removeVertex_WF hw hu
      rw [h1] at hr'; cases hr'
    · rw [removeVertex_absent hw hu] at hr'; cases hr'
  | setInitial q b => cases hr
  | setFinal q b => cases hr
  | clear =>
    have hr' : g.clear = .error err := hr
    rw [clear_spec hw] at hr'; cases hr'

end IAutomaton

namespace INodeAutomaton

theorem result_addEdgeM (q r : Nat) (g : INodeAutomaton A) : (addEdgeM q r).result g = (g.addEdge q r).map fun t => ((t.1, t.2.1), t.2.2) := by
  unfold addEdgeM addEdge super
  rw [result_bind, result_on, NodeAutomaton.result_addEdgeM]
  cases g.n.addEdge q r with
  | error e => rfl
  | ok p =>
    obtain ⟨e, b, g1⟩ := p
    cases b <;> rfl

theorem result_removeEdgeM (e : EdgeDesc (Option A)) (g : INodeAutomaton A) : (removeEdgeM e).result g = (g.removeEdge e).map fun g' => ((), g') := by
  unfold removeEdgeM removeEdge super
  rw [result_bind, result_on]
  show (_ >>= _) = _
  simp only [NodeAutomaton.removeEdgeM, result, emap_ok, ebind_ok]
  show result (_ >>= _) _ = _
  rw [result_get_bind, result_lift_bind]
  simp only
  cases setRemoveE (g.pred.getD e.target []) e.source <;> rfl

theorem result_removeVertexM (q : Nat) (g : INodeAutomaton A) : (removeVertexM q).result g = (g.removeVertex q).map fun g' => ((), g') := by
  have hd : ∀ a e (g : INodeAutomaton A), (delTransitionM a e).result g =
      ((IAutomaton.delTransition g.n.a.adj e.source a).map fun adj => (⟨⟨{ g.n.a with adj }, g.n.symbols⟩, g.pred⟩ : INodeAutomaton A)).map fun g' => ((), g') := by
    intro a e g
    unfold delTransitionM
    rw [result_get_bind, result_lift_bind]
    cases IAutomaton.delTransition g.n.a.adj e.source a <;> rfl
  have hin : (removeInM q).result g = (g.dropIn q).map fun p => ((), (⟨⟨{ g.n.a with adj := p.1 }, g.n.symbols⟩, p.2⟩ : INodeAutomaton A)) := by
    unfold removeInM dropIn
    rw [result_get_bind]
    by_cases hc : g.pred.contains q = true
    · rw [if_pos hc, if_pos hc, result_bind,
        result_each (delTransitionM (g.n.symbol q))
          (fun g' e => (IAutomaton.delTransition g'.n.a.adj e.source (g.n.symbol q)).map fun adj => (⟨⟨{ g'.n.a with adj }, g'.n.symbols⟩, g'.pred⟩ : INodeAutomaton A)) (hd _),
        foldlM_lens (fun (g : INodeAutomaton A) adj => ⟨⟨{ g.n.a with adj }, g.n.symbols⟩, g.pred⟩) (fun g => g.n.a.adj) (fun adj (e : EdgeDesc (Option A)) => IAutomaton.delTransition adj e.source (g.n.symbol q))
          (fun _ _ => rfl) (fun _ _ _ => rfl) (fun _ => rfl)]
      cases (g.inEdges q).foldlM (fun adj e => IAutomaton.delTransition adj e.source (g.n.symbol q)) g.n.a.adj <;> rfl
    · rw [if_neg hc, if_neg hc]; rfl
  have hdr : ∀ (es : List (EdgeDesc (Option A))) (g : INodeAutomaton A), each (dropPredM q) es g = (.ok (), ⟨g.n, es.foldl (dropPred q) g.pred⟩) := by
    intro es
    induction es with
    | nil => intro g; rfl
    | cons e es ih =>
      intro g
      show (dropPredM q e >>= fun _ => each (dropPredM q) es) g = _
      rw [bind_ok (show dropPredM q e g = _ from rfl), ih]
      rfl
  have hout : ∀ g : INodeAutomaton A, (removeOutM q).result g = ((if g.n.a.adj.contains q then do
      let es ← g.n.outEdges q
      let pred := es.foldl (dropPred q) g.pred
      let adj ← g.n.a.adj.delE q
      .ok ⟨⟨{ g.n.a with adj }, g.n.symbols⟩, pred⟩
    else .ok g : Except PyErr (INodeAutomaton A))).map fun g' => ((), g') := by
    intro g
    unfold removeOutM
    rw [result_get_bind]
    by_cases hc : g.n.a.adj.contains q = true
    · rw [if_pos hc, if_pos hc, result_lift_bind]
      cases g.n.outEdges q with
      | error e => rfl
      | ok es =>
        simp only [ebind_ok]
        rw [result_bind, result_ok.mpr (hdr es g)]
        simp only [ebind_ok]
        rw [result_get_bind, result_lift_bind]
        simp only
        cases g.n.a.adj.delE q <;> rfl
    · rw [if_neg hc, if_neg hc]; rfl
  unfold removeVertexM removeVertex
  rw [result_bind, hin]
  cases g.dropIn q with
  | error e => rfl
  | ok p =>
    simp only [emap_ok, ebind_ok]
    rw [hout]

theorem result_execM (op : NOp A) (g : INodeAutomaton A) : (execM op).result g = (g.exec op).map fun g' => ((), g') := by
  cases op with
  | addVertex a => rfl
  | addEdge q r =>
    show (_ >>= _ : PyM (INodeAutomaton A) Unit).result g = _
    rw [result_bind, result_addEdgeM, exec]
    cases g.addEdge q r <;> rfl
  | removeEdge e => exact result_removeEdgeM e g
  | removeVertex u => exact result_removeVertexM u g
  | setInitial q b => rfl
  | setFinal q b => rfl

theorem exec_of_execM_error {g : INodeAutomaton A} {op : NOp A} {err : PyErr} (he : (execM op g).1 = .error err) : g.exec op = .error err := by
  have h1 := (result_error.mpr he)
  rw [result_execM] at h1
  cases h2 : g.exec op with
  | error e => rw [h2] at h1; simpa using h1
  | ok g' => rw [h2] at h1; cases h1

theorem exec_of_execM_ok {g : INodeAutomaton A} {op : NOp A} {x : Unit} (he : (execM op g).1 = .ok x) : g.exec op = .ok (execM op g).2 := by
  have h1 : (execM op).result g = .ok ((), (execM op g).2) := by
    rw [result_ok]; exact Prod.ext he rfl
  rw [result_execM] at h1
  cases h2 : g.exec op with
  | error e => rw [h2] at h1; cases h1
  | ok g' =>
    rw [h2] at h1
    have : g' = (execM op g).2 := by simpa using h1
    rw [← this]

/-- What an exception leaves behind. -/
theorem execM_error {g : INodeAutomaton A} (hw : WF g) {op : NOp A} {err : PyErr} (he : (execM op g).1 = .error err) :
    err = .keyError ∧
    ((∃ q r, op = .addEdge q r ∧ q ∉ g.n.vertices ∧ (execM op g).2 = g) ∨
     (∃ e, op = .removeEdge e ∧ e.source ∉ g.pred.getD e.target [] ∧ (execM op g).2 = ⟨g.n.removeEdge e, g.pred⟩)) := by
  have hr := exec_of_execM_error he
  cases op with
  | addVertex a => cases hr
  | addEdge q r =>
    have hr' : (g.addEdge q r).map (·.2.2) = .error err := hr
    have hq : q ∉ g.n.vertices := by
      intro hq
      unfold addEdge at hr'
      cases hd : g.n.a.delta q (g.n.symbol r) with
      | none => rw [(NodeAutomaton.addEdge_spec r hq).2 hd] at hr'; cases hr'
      | some k => rw [(NodeAutomaton.addEdge_spec r hq).1 k hd] at hr'; cases hr'
    have h1 := NodeAutomaton.addEdge_absent r hq
    have hs : (super (NodeAutomaton.addEdgeM q r) : PyM (INodeAutomaton A) _) g = (.error .keyError, g) := by
      have : NodeAutomaton.addEdgeM q r g.n = (.error .keyError, g.n) := atomic_error (by rw [h1]; rfl)
      unfold super PyM.on
      simp only [this]
    have hX : execM (.addEdge q r) g = (.error .keyError, g) := bind_error (bind_error hs)
    rw [hX] at he ⊢
    exact ⟨by cases he; rfl, .inl ⟨q, r, rfl, hq, rfl⟩⟩
  | removeEdge e =>
    have hs : (super (NodeAutomaton.removeEdgeM e) : PyM (INodeAutomaton A) _) g = (.ok (), ⟨g.n.removeEdge e, g.pred⟩) := rfl
    have hM : removeEdgeM e g = ((lift (setRemoveE (g.pred.getD e.target []) e.source) >>= fun s => put ⟨g.n.removeEdge e, g.pred.set e.target s⟩ : PyM (INodeAutomaton A) Unit))
        ⟨g.n.removeEdge e, g.pred⟩ := by
      unfold removeEdgeM
      rw [bind_ok hs, get_bind]
    by_cases hm : e.source ∈ g.pred.getD e.target []
    · exfalso
      have h2 : setRemoveE (g.pred.getD e.target []) e.source = .ok (setDiscard (g.pred.getD e.target []) e.source) := by
        unfold setRemoveE; rw [if_pos hm]
      rw [lift_bind_ok h2] at hM
      have he' : (removeEdgeM e g).1 = .error err := he
      rw [hM] at he'; cases he'
    · have h2 : setRemoveE (g.pred.getD e.target []) e.source = .error .keyError := by
        unfold setRemoveE; rw [if_neg hm]
      rw [lift_bind_error h2] at hM
      have hX : execM (.removeEdge e) g = (.error .keyError, ⟨g.n.removeEdge e, g.pred⟩) := hM
      rw [hX] at he ⊢
      exact ⟨by cases he; rfl, .inr ⟨e, rfl, hm, rfl⟩⟩
  | removeVertex u =>
    have hr' : g.removeVertex u = .error err := hr
    obtain ⟨g', h1, -⟩ := removeVertex_spec hw u
    rw [h1] at hr'; cases hr'
  | setInitial q b => cases hr
  | setFinal q b => cases hr

end INodeAutomaton

end PyBGL
