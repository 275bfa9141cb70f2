import Verif.Spec.NodeHistory
import Verif.Proofs.NodeAutomaton
import Verif.Proofs.InEdges

/-!
# Node automata after every history of calls
-/

namespace PyBGL
open Automaton
variable {A : Type} [DecidableEq A]

namespace NodeAutomaton

/-- The automaton is what is observed. -/
structure Sees (g : NodeAutomaton A) (s : NView A) : Prop where
  out : AWF g.a
  next : g.a.lastVertexId = s.next
  states : g.a.vertices = s.states
  symbol : ∀ v, g.symbol v = s.symbol v
  edges : ∀ q a r, g.a.delta q a = some r ↔ s.edges ⟨q, r, a⟩

theorem Sees_new : Sees (empty : NodeAutomaton A) .new :=
  ⟨AWF_empty, rfl, rfl, fun _ => rfl, fun _ _ _ => by simp [empty, Automaton.empty, Automaton.delta, Dict.getD, NView.new]⟩

/-- Removing edges one by one, in terms of the labels they are removed by. -/
theorem foldl_removeEdge_map (g : NodeAutomaton A) (es : List (EdgeDesc (Option A))) :
    es.foldl removeEdge g =
      ⟨(es.map fun e => (⟨e.source, e.target, g.symbol e.target⟩ : EdgeDesc (Option A))).foldl Automaton.removeEdge g.a, g.symbols⟩ := by
  induction es generalizing g with
  | nil => rfl
  | cons e es ih =>
    rw [List.foldl_cons, removeEdge_eq, ih]
    rfl

omit [DecidableEq A] in
theorem symbol_addVertex (g : NodeAutomaton A) (a : Option A) (v : Nat) :
    (g.addVertex a).2.symbol v = if v = g.a.lastVertexId ∧ a.isSome then a else g.symbol v := by
  cases a with
  | none => simp; rfl
  | some a =>
    show Dict.get? (g.symbols.set g.a.lastVertexId a) v = _
    rw [Dict.get?_set]
    by_cases h : v = g.a.lastVertexId
    · simp [h]
    · rw [if_neg (Ne.symm h), if_neg (by simp [h])]; rfl

/-- `remove_vertex` on any automaton. -/
theorem removeVertex_all {g : NodeAutomaton A} (hw : AWF g.a) {u : Nat} (hu : u ∈ g.vertices) :
    ∃ g', g.removeVertex u = .ok g' ∧ AWF g'.a ∧ g'.symbols = g.symbols ∧
      g'.a.vertices = g.a.vertices.filter (· ≠ u) ∧ g'.a.lastVertexId = g.a.lastVertexId ∧
      ∀ q a r, g'.a.delta q a = some r ↔ g.a.delta q a = some r ∧ q ≠ u ∧
        ¬ (a = g.symbol u ∧ ∃ b, g.a.delta q b = some u) := by
  unfold removeVertex
  rw [foldl_removeEdge_map]
  obtain ⟨i1, i2, i3, i4, i5, i6⟩ := foldl_removeEdge_spec hw
    ((g.edges.filter fun e => u = e.target).map fun e => (⟨e.source, e.target, g.symbol e.target⟩ : EdgeDesc (Option A)))
  generalize ((g.edges.filter fun e => u = e.target).map fun e =>
    (⟨e.source, e.target, g.symbol e.target⟩ : EdgeDesc (Option A))).foldl Automaton.removeEdge g.a = g1 at *
  have hu1 : u ∈ (⟨g1, g.symbols⟩ : NodeAutomaton A).vertices := by
    show u ∈ g1.vertices; rw [i2]; exact hu
  dsimp only
  rw [outEdges_eq hu1]
  simp only [bind, Except.bind]
  rw [foldl_removeEdge_map]
  obtain ⟨j1, j2, j3, j4, j5, j6⟩ := foldl_removeEdge_spec i1
    ((g1.outEdges u).map fun e => (⟨e.source, e.target, (⟨g1, g.symbols⟩ : NodeAutomaton A).symbol e.target⟩ : EdgeDesc (Option A)))
  have hsrc : ∀ e ∈ ((g1.outEdges u).map fun e => (⟨e.source, e.target, (⟨g1, g.symbols⟩ : NodeAutomaton A).symbol e.target⟩ : EdgeDesc (Option A))),
      e.source = u := by
    intro e he
    obtain ⟨d, hd, rfl⟩ := List.mem_map.1 he
    exact ((mem_outEdges i1).1 hd).1
  generalize ((g1.outEdges u).map fun e =>
    (⟨e.source, e.target, (⟨g1, g.symbols⟩ : NodeAutomaton A).symbol e.target⟩ : EdgeDesc (Option A))) = es2 at *
  generalize es2.foldl Automaton.removeEdge g1 = g2 at *
  have hu2 : u ∈ Dict.keys g2.adj := by
    have : u ∈ g2.vertices := by rw [j2]; exact hu1
    exact this
  have hdel : g2.adj.delE u = .ok (g2.adj.erase u) := (Dict.delE_ok_iff _ _ _).2 ⟨hu2, rfl⟩
  simp only [hdel]
  have hdl : ∀ q a, ({ g2 with adj := g2.adj.erase u } : Automaton (Option A)).delta q a = if u = q then none else g2.delta q a := by
    intro q a
    simp only [delta_eq, Dict.get?_erase j1.outer]
    by_cases h : u = q <;> simp [h]
  have hv : ({ g2 with adj := g2.adj.erase u } : Automaton (Option A)).vertices = g.a.vertices.filter (· ≠ u) := by
    show Dict.keys (g2.adj.erase u) = _
    rw [Dict.keys_erase _ j1.outer]
    have : Dict.keys g2.adj = g.a.vertices := j2.trans i2
    rw [this]
  refine ⟨_, rfl, ⟨Dict.nodupKeys_erase j1.outer _, ?_, ?_⟩, rfl, hv, j3.trans i3, ?_⟩
  · intro q d h
    simp only [Dict.get?_erase j1.outer] at h
    split at h
    · cases h
    · exact j1.inner q d h
  · intro q hq
    rw [hv] at hq
    show q < g2.lastVertexId
    rw [j3, i3]
    exact hw.lt q (List.mem_filter.1 hq).1
  · intro q a r
    rw [hdl]
    by_cases h : u = q
    · rw [if_pos h]
      simp only [reduceCtorEq, false_iff]
      exact fun h' => h'.2.1 h.symm
    · rw [if_neg h, j6, if_neg, i6]
      · by_cases hc : ∃ e ∈ ((g.edges.filter fun e => u = e.target).map fun e =>
          (⟨e.source, e.target, g.symbol e.target⟩ : EdgeDesc (Option A))), e.source = q ∧ e.distinguisher = a
        · rw [if_pos hc]
          simp only [reduceCtorEq, false_iff]
          rintro ⟨h1, h2, h3⟩
          apply h3
          obtain ⟨e, he, rfl, rfl⟩ := hc
          obtain ⟨d, hd, rfl⟩ := List.mem_map.1 he
          obtain ⟨hd1, hd2⟩ := List.mem_filter.1 hd
          unfold edges at hd1
          rw [mem_edges hw] at hd1
          have hd2 : u = d.target := by simpa using hd2
          exact ⟨by rw [hd2], d.distinguisher, by rw [hd1, hd2]⟩
        · rw [if_neg hc]
          refine ⟨fun h1 => ⟨h1, fun h2 => h h2.symm, ?_⟩, fun h1 => h1.1⟩
          rintro ⟨rfl, b, hb⟩
          apply hc
          refine ⟨⟨q, u, g.symbol u⟩, List.mem_map.2 ⟨⟨q, u, b⟩, ?_, rfl⟩, rfl, rfl⟩
          rw [List.mem_filter]
          exact ⟨(mem_edges hw).2 hb, by simp⟩
      · rintro ⟨e, he, h1, _⟩
        exact h ((hsrc e he).symm.trans h1)

/-- `remove_vertex` of an unknown state. -/
theorem removeVertex_all_absent {g : NodeAutomaton A} (hw : AWF g.a) {u : Nat} (hu : u ∉ g.vertices) :
    g.removeVertex u = .error .keyError := by
  unfold removeVertex
  rw [foldl_removeEdge_map]
  obtain ⟨i1, i2, i3, i4, i5, i6⟩ := foldl_removeEdge_spec hw
    ((g.edges.filter fun e => u = e.target).map fun e => (⟨e.source, e.target, g.symbol e.target⟩ : EdgeDesc (Option A)))
  generalize ((g.edges.filter fun e => u = e.target).map fun e =>
    (⟨e.source, e.target, g.symbol e.target⟩ : EdgeDesc (Option A))).foldl Automaton.removeEdge g.a = g1 at *
  have hn : Dict.get? g1.adj u = none := by
    rw [Dict.get?_eq_none_iff]
    have : Dict.keys g1.adj = g.vertices := i2
    rw [this]; exact hu
  simp [outEdges, Dict.getE, hn, bind, Except.bind]

/-- The number of the next state plays no role in `remove_vertex`. -/
theorem removeVertex_next (g : NodeAutomaton A) (n u : Nat) :
    (⟨{ g.a with lastVertexId := n }, g.symbols⟩ : NodeAutomaton A).removeVertex u =
      (g.removeVertex u).map fun g' => ⟨{ g'.a with lastVertexId := n }, g'.symbols⟩ := by
  have hr : ∀ (es : List (EdgeDesc (Option A))) (g : NodeAutomaton A),
      es.foldl removeEdge ⟨{ g.a with lastVertexId := n }, g.symbols⟩ =
        ⟨{ (es.foldl removeEdge g).a with lastVertexId := n }, (es.foldl removeEdge g).symbols⟩ := by
    intro es
    induction es with
    | nil => intro g; rfl
    | cons e es ih =>
      intro g
      rw [List.foldl_cons, List.foldl_cons, ← ih]
      congr 1
      unfold removeEdge
      simp only [symbol]
      cases Dict.get? g.a.adj e.source with
      | none => rfl
      | some d =>
        by_cases hc : d.contains (Dict.get? g.symbols e.target) = true <;> simp [hc]
  unfold removeVertex
  have h1 : (⟨{ g.a with lastVertexId := n }, g.symbols⟩ : NodeAutomaton A).edges = g.edges := rfl
  rw [h1, hr]
  generalize (g.edges.filter fun e => u = e.target).foldl removeEdge g = g1
  have h2 : (⟨{ g1.a with lastVertexId := n }, g1.symbols⟩ : NodeAutomaton A).outEdges u = g1.outEdges u := rfl
  dsimp only
  rw [h2]
  cases g1.outEdges u with
  | error e => rfl
  | ok es =>
    simp only [bind, Except.bind]
    rw [hr]
    cases (es.foldl removeEdge g1).a.adj.delE u <;> rfl

theorem removeVertices_next (us : List Nat) (n : Nat) (g : NodeAutomaton A) :
    us.foldlM removeVertex ⟨{ g.a with lastVertexId := n }, g.symbols⟩ =
      (us.foldlM removeVertex g).map fun g' => ⟨{ g'.a with lastVertexId := n }, g'.symbols⟩ := by
  induction us generalizing g with
  | nil => rfl
  | cons u us ih =>
    rw [List.foldlM_cons, List.foldlM_cons, removeVertex_next]
    cases h : g.removeVertex u with
    | error e => rfl
    | ok g1 => exact ih g1

theorem removeVertices_all (us : List Nat) {g : NodeAutomaton A} (hw : AWF g.a) (hnd : us.Nodup) (hus : ∀ u ∈ us, u ∈ g.vertices) :
    ∃ g', us.foldlM removeVertex g = .ok g' ∧ AWF g'.a ∧ g'.symbols = g.symbols ∧
      g'.a.vertices = g.a.vertices.filter (· ∉ us) := by
  induction us generalizing g with
  | nil => exact ⟨g, rfl, hw, rfl, by simp⟩
  | cons u us ih =>
    rw [List.nodup_cons] at hnd
    obtain ⟨g1, h1, h2, h3, h4, _, _⟩ := removeVertex_all hw (hus u (by simp))
    obtain ⟨g', k1, k2, k3, k4⟩ := ih h2 hnd.2 (by
      intro v hv
      show v ∈ g1.a.vertices
      rw [h4, List.mem_filter]
      refine ⟨hus v (by simp [hv]), ?_⟩
      simp only [ne_eq, decide_not, Bool.not_eq_true', decide_eq_false_iff_not]
      rintro rfl; exact hnd.1 hv)
    refine ⟨g', ?_, k2, k3.trans h3, ?_⟩
    · rw [List.foldlM_cons, h1]; exact k1
    · rw [k4, h4, List.filter_filter]
      congr 1
      funext v
      by_cases h : v = u <;> simp [h]

/-- `clear` never raises: it removes every state and every transition, and keeps the symbols. -/
theorem clear_all {g : NodeAutomaton A} (hw : AWF g.a) :
    ∃ g', g.clear = .ok g' ∧ AWF g'.a ∧ g'.a.lastVertexId = 0 ∧ g'.a.vertices = [] ∧ g'.symbols = g.symbols := by
  obtain ⟨g', h1, h2, h3, h4⟩ := removeVertices_all g.vertices hw hw.outer (fun _ h => h)
  have hv : g'.a.vertices = [] := by
    rw [h4, List.filter_eq_nil_iff]
    intro v hv
    have : v ∈ g.vertices := hv
    simpa using this
  refine ⟨⟨{ g'.a with lastVertexId := 0 }, g'.symbols⟩, ?_, ⟨h2.outer, h2.inner, ?_⟩, rfl, hv, h3⟩
  · unfold clear
    have : ({ g with a := { g.a with lastVertexId := 0 } } : NodeAutomaton A).vertices = g.vertices := rfl
    simp only [this]
    rw [removeVertices_next, h1]; rfl
  · intro q hq
    have : q ∈ g'.a.vertices := hq
    rw [hv] at this; cases this

omit [DecidableEq A] in
theorem setInitial_same (a : Automaton (Option A)) (q : Nat) (b : Bool) :
    (a.setInitial q b).adj = a.adj ∧ (a.setInitial q b).lastVertexId = a.lastVertexId := by
  unfold Automaton.setInitial; split
  · exact ⟨rfl, rfl⟩
  · split <;> exact ⟨rfl, rfl⟩

/-- One call. -/
theorem Sees_call {g g' : NodeAutomaton A} {s : NView A} {c : NCall A} (h : Sees g s) (hc : g.call c = .ok g') : Sees g' (s.step c) := by
  obtain ⟨hw, hn, hv, hs, he⟩ := h
  cases c with
  | clear =>
    obtain ⟨g1, k1, k2, k3, k4, k5⟩ := clear_all hw
    have : g.clear = .ok g' := hc
    rw [k1] at this; cases this
    refine ⟨k2, k3, k4, ?_, ?_⟩
    · intro v; show Dict.get? g'.symbols v = _; rw [k5]; exact hs v
    · intro q a r
      rw [delta_not_mem a (by rw [k4]; simp)]
      simp [NView.step]
  | op o =>
    cases o with
    | addVertex a =>
      cases hc
      refine ⟨?_, ?_, ?_, ?_, ?_⟩
      · rw [addVertex_a]; exact AWF_addVertex hw
      · rw [addVertex_a]; show g.a.lastVertexId + 1 = s.next + 1; rw [hn]
      · rw [addVertex_a, vertices_addVertex hw, hv, hn]; rfl
      · intro v; rw [symbol_addVertex, hn, hs]; rfl
      · intro q b r; rw [addVertex_a, delta_addVertex hw, he]; rfl
    | addEdge q r =>
      have hc : (g.addEdge q r).map (·.2.2) = .ok g' := hc
      by_cases hq : q ∈ g.vertices
      · cases hd : g.a.delta q (g.symbol r) with
        | none =>
          rw [(addEdge_spec r hq).2 hd] at hc; cases hc
          refine ⟨AWF_setDelta hw _ _ hq, hn, (vertices_setDelta _ _ hq).trans hv, hs, ?_⟩
          have hno : ¬ ∃ t, s.edges ⟨q, t, s.symbol r⟩ := by
            rintro ⟨t, ht⟩
            rw [← he, ← hs, hd] at ht; cases ht
          intro q' a' r'
          simp only [NView.step, delta_setDelta, EdgeDesc.mk.injEq]
          by_cases hx : q = q' ∧ g.symbol r = a'
          · rw [if_pos hx]
            obtain ⟨rfl, rfl⟩ := hx
            rw [← he, hd, ← hs] 
            rw [← hs] at hno
            simp [hno, eq_comm]
          · rw [if_neg hx, he]
            refine ⟨fun h => .inl h, ?_⟩
            rintro (h | ⟨⟨rfl, rfl, rfl⟩, _⟩)
            · exact h
            · rw [hs] at hx; exact absurd ⟨rfl, rfl⟩ hx
        | some t =>
          rw [(addEdge_spec r hq).1 _ hd] at hc; cases hc
          refine ⟨hw, hn, hv, hs, ?_⟩
          intro q' a' r'
          rw [he]
          refine ⟨fun h => .inl h, ?_⟩
          rintro (h | ⟨_, h⟩)
          · exact h
          · exact absurd ⟨t, by rw [← he, ← hs]; exact hd⟩ h
      · rw [addEdge_absent r hq] at hc; cases hc
    | removeEdge d =>
      have hc : Except.ok (g.removeEdge d) = Except.ok g' := hc
      rw [removeEdge_eq] at hc
      cases hc
      obtain ⟨h1, h2, h3, h4, h5, h6⟩ := Automaton.removeEdge_spec hw ⟨d.source, d.target, g.symbol d.target⟩
      refine ⟨h1, h3.trans hn, h2.trans hv, hs, ?_⟩
      intro q a r
      simp only [NView.step]
      rw [h6]
      simp only
      rw [← he, ← hs]
      by_cases hx : d.source = q ∧ g.symbol d.target = a
      · rw [if_pos hx]; simp [hx.1, hx.2]
      · rw [if_neg hx]
        exact ⟨fun h => ⟨h, fun h' => hx ⟨h'.1.symm, h'.2.symm⟩⟩, fun h => h.1⟩
    | removeVertex u =>
      have hc : g.removeVertex u = .ok g' := hc
      by_cases hu : u ∈ g.vertices
      · obtain ⟨g1, k1, k2, k3, k4, k5, k6⟩ := removeVertex_all hw hu
        rw [k1] at hc; cases hc
        refine ⟨k2, k5.trans hn, by rw [k4, hv]; rfl, ?_, ?_⟩
        · intro v; show Dict.get? g'.symbols v = _; rw [k3]; exact hs v
        · intro q a r
          simp only [NView.step]
          rw [k6, he, hs]
          simp only [he]
      · rw [removeVertex_all_absent hw hu] at hc; cases hc
    | setInitial q b =>
      cases hc
      obtain ⟨e1, e2⟩ := setInitial_same g.a q b
      have hd : ∀ p a, (g.a.setInitial q b).delta p a = g.a.delta p a := by intro p a; rw [delta_eq, delta_eq, e1]
      have hvv : (g.a.setInitial q b).vertices = g.a.vertices := by unfold Automaton.vertices; rw [e1]
      refine ⟨⟨by simpa only [e1] using hw.outer, by simpa only [e1] using hw.inner, ?_⟩, e2.trans hn, hvv.trans hv, hs, ?_⟩
      · intro p hp; simp only [hvv] at hp; simp only [e2]; exact hw.lt p hp
      · intro p a r; simp only [hd]; exact he p a r
    | setFinal q b => cases hc; exact ⟨⟨hw.outer, hw.inner, hw.lt⟩, hn, hv, hs, he⟩

theorem Sees_runs {cs : List (NCall A)} {g : NodeAutomaton A} (h : Runs NodeAutomaton.call .empty cs g) :
    Sees g (cs.foldl NView.step .new) := by
  have aux : ∀ (cs : List (NCall A)) (g₀ : NodeAutomaton A) (s : NView A), Sees g₀ s → Runs NodeAutomaton.call g₀ cs g →
      Sees g (cs.foldl NView.step s) := by
    intro cs
    induction cs with
    | nil => intro g₀ s h hr; rw [hr.nil]; exact h
    | cons c cs ih =>
      intro g₀ s h hr
      unfold Runs at hr
      rw [List.foldlM_cons, except_bind_ok] at hr
      obtain ⟨g1, k1, k2⟩ := hr
      exact ih g1 _ (Sees_call h k1) k2
  exact aux cs _ _ Sees_new h

end NodeAutomaton

namespace INodeAutomaton

/-- The automaton is what is observed. -/
structure Sees (g : INodeAutomaton A) (s : INView A) : Prop where
  n : NodeAutomaton.Sees g.n s.toNView
  outer : Dict.NodupKeys g.pred
  sets : ∀ r, (g.pred.getD r []).Nodup
  preds : ∀ p t, p ∈ g.pred.getD t [] ↔ s.preds p t

theorem Sees_new : Sees (empty : INodeAutomaton A) .new :=
  ⟨NodeAutomaton.Sees_new, Dict.nodupKeys_nil, by simp [empty, Dict.getD], by simp [empty, Dict.getD, INView.new]⟩

/-- The removal of the in-edges of a state. -/
theorem dropIn_all {g : INodeAutomaton A} (hw : AWF g.n.a) (hs : ∀ r, (g.pred.getD r []).Nodup) (u : Nat) :
    ((∃ q ∈ g.pred.getD u [], g.n.a.delta q (g.n.symbol u) = none) → g.dropIn u = .error .keyError) ∧
    ((∀ q ∈ g.pred.getD u [], g.n.a.delta q (g.n.symbol u) ≠ none) →
      ∃ g1 : Automaton (Option A), g.dropIn u = .ok (g1.adj, g.pred.erase u) ∧ ({ g.n.a with adj := g1.adj } : Automaton (Option A)) = g1 ∧
        AWF g1 ∧ g1.vertices = g.n.a.vertices ∧ g1.lastVertexId = g.n.a.lastVertexId ∧
        ∀ q a r, g1.delta q a = some r ↔ g.n.a.delta q a = some r ∧ ¬ (a = g.n.symbol u ∧ q ∈ g.pred.getD u [])) := by
  have hmem : ∀ e, e ∈ g.inEdges u ↔ e.target = u ∧ e.distinguisher = g.n.symbol u ∧ e.source ∈ g.pred.getD u [] := by
    intro e
    unfold inEdges
    rw [List.mem_map]
    constructor
    · rintro ⟨q, hq, rfl⟩; exact ⟨rfl, rfl, hq⟩
    · rintro ⟨h1, h2, h3⟩
      exact ⟨e.source, h3, by cases e; simp_all⟩
  have hnd : (g.inEdges u).Nodup := by
    unfold inEdges
    exact (hs u).map (by intro a b h; simpa using h)
  have hsame : ∀ (es : List (EdgeDesc (Option A))) adj, (∀ e ∈ es, e.distinguisher = g.n.symbol u) →
      es.foldlM (fun adj e => IAutomaton.delTransition adj e.source (g.n.symbol u)) adj =
      es.foldlM (fun adj e => IAutomaton.delTransition adj e.source e.distinguisher) adj := by
    intro es
    induction es with
    | nil => intro adj _; rfl
    | cons e es ih =>
      intro adj hes
      rw [List.foldlM_cons, List.foldlM_cons, hes e (by simp)]
      congr 1; funext adj'
      exact ih adj' (fun e' he' => hes e' (by simp [he']))
  have hfold := hsame (g.inEdges u) g.n.a.adj (fun e he => ((hmem e).1 he).2.1)
  obtain ⟨f1, f2⟩ := IAutomaton.foldlM_delTransition_iff hw (u := u) (g.inEdges u) hnd (fun e he => ((hmem e).1 he).1)
  obtain ⟨i1, i2, i3, i4, i5, i6⟩ := foldl_removeEdge_spec hw (g.inEdges u)
  have hcontains : ∀ q ∈ g.pred.getD u [], g.pred.contains u = true := by
    intro q hq
    rw [Dict.contains_iff]
    cases h : Dict.get? g.pred u with
    | none => simp [Dict.getD, h] at hq
    | some l => exact ⟨l, rfl⟩
  constructor
  · rintro ⟨q, hq, hn⟩
    unfold dropIn
    rw [if_pos (hcontains q hq), hfold, f2 ⟨⟨q, u, g.n.symbol u⟩, (hmem _).2 ⟨rfl, rfl, hq⟩, hn⟩]
    rfl
  · intro hall
    have hok := f1 (fun e he => by
      obtain ⟨_, h2, h3⟩ := (hmem e).1 he
      rw [h2]; exact hall _ h3)
    refine ⟨(g.inEdges u).foldl Automaton.removeEdge g.n.a, ?_, ?_, i1, i2, i3, ?_⟩
    · unfold dropIn
      by_cases hc : g.pred.contains u = true
      · rw [if_pos hc, hfold, hok]; rfl
      · rw [if_neg hc]
        have hnone : Dict.get? g.pred u = none := by
          rw [Dict.get?_eq_none_iff, ← Dict.contains_iff_mem]; exact hc
        have he : g.inEdges u = [] := by simp [inEdges, Dict.getD, hnone]
        rw [he]
        have : ∀ d : Dict Nat (List Nat), u ∉ Dict.keys d → d.erase u = d := by
          intro d
          induction d with
          | nil => intro _; rfl
          | cons p d ih =>
            intro h
            simp only [Dict.keys, List.map_cons, List.mem_cons, not_or] at h
            obtain ⟨k, v⟩ := p
            simp only [Dict.erase, if_neg (Ne.symm h.1)]
            rw [ih h.2]
        rw [this]
        · rfl
        · rw [← Dict.contains_iff_mem]; exact hc
    · generalize (g.inEdges u).foldl Automaton.removeEdge g.n.a = g1 at *
      cases g1; simp only at i3 i4 i5; simp [← i3, ← i4, ← i5]
    · intro q a r
      rw [i6]
      by_cases hc : ∃ e ∈ g.inEdges u, e.source = q ∧ e.distinguisher = a
      · rw [if_pos hc]
        simp only [reduceCtorEq, false_iff]
        rintro ⟨_, h2⟩
        obtain ⟨e, he, rfl, rfl⟩ := hc
        obtain ⟨_, k2, k3⟩ := (hmem e).1 he
        exact h2 ⟨k2, k3⟩
      · rw [if_neg hc]
        refine ⟨fun h => ⟨h, ?_⟩, fun h => h.1⟩
        rintro ⟨rfl, hq⟩
        exact hc ⟨⟨q, u, g.n.symbol u⟩, (hmem _).2 ⟨rfl, rfl, hq⟩, rfl, rfl⟩

/-- `remove_vertex` raises exactly if a predecessor of the state has no transition labelled by the symbol of the state. -/
theorem removeVertex_all {g : INodeAutomaton A} {s : INView A} (h : Sees g s) (u : Nat) :
    ((∃ p, s.preds p u ∧ ¬ ∃ t, s.edges ⟨p, t, s.symbol u⟩) → g.removeVertex u = .error .keyError) ∧
    ((∀ p, s.preds p u → ∃ t, s.edges ⟨p, t, s.symbol u⟩) →
      ∃ g', g.removeVertex u = .ok g' ∧ Sees g' (s.removeVertex u)) := by
  obtain ⟨⟨hw, hn, hv, hsy, he⟩, ho, hs, hp⟩ := h
  obtain ⟨d1, d2⟩ := dropIn_all hw hs u
  constructor
  · rintro ⟨p, h1, h2⟩
    unfold removeVertex
    rw [d1 ⟨p, (hp _ _).2 h1, ?_⟩]
    · rfl
    · cases hd : g.n.a.delta p (g.n.symbol u) with
      | none => rfl
      | some t => exact absurd ⟨t, by rw [← hsy, ← he]; exact hd⟩ h2
  · intro hall
    obtain ⟨g1, k1, k2, k3, k4, k5, k6⟩ := d2 (by
      intro q hq hnone
      obtain ⟨t, ht⟩ := hall q ((hp _ _).1 hq)
      rw [← hsy, ← he, hnone] at ht; cases ht)
    have hpe : ∀ p r, p ∈ (g.pred.erase u).getD r [] ↔ r ≠ u ∧ p ∈ g.pred.getD r [] := by
      intro p r
      unfold Dict.getD
      rw [Dict.get?_erase ho]
      by_cases h : u = r
      · simp [h]
      · simp [h, Ne.symm h]
    have hps : ∀ r, ((g.pred.erase u).getD r []).Nodup := by
      intro r
      unfold Dict.getD
      rw [Dict.get?_erase ho]
      by_cases h : u = r
      · simp [h]
      · rw [if_neg h]; exact hs r
    unfold removeVertex
    rw [k1]
    simp only [bind, Except.bind, k2]
    by_cases hu : u ∈ g.n.a.vertices
    · have hu1 : u ∈ g1.vertices := by rw [k4]; exact hu
      rw [if_pos ((Dict.contains_iff_mem _ _).2 hu1)]
      have hdel : g1.adj.delE u = .ok (g1.adj.erase u) := (Dict.delE_ok_iff _ _ _).2 ⟨hu1, rfl⟩
      rw [NodeAutomaton.outEdges_eq (g := ⟨g1, g.n.symbols⟩) hu1]
      simp only [hdel]
      obtain ⟨j1, j2, j3⟩ := foldl_dropPred u (g1.outEdges u) (g.pred.erase u) (Dict.nodupKeys_erase ho _) hps
      have hd2 : ∀ q a, ({ g.n.a with adj := g1.adj.erase u } : Automaton (Option A)).delta q a = if u = q then none else g1.delta q a := by
        intro q a
        simp only [delta_eq, Dict.get?_erase k3.outer]
        by_cases h : u = q <;> simp [h]
      have hvv : ({ g.n.a with adj := g1.adj.erase u } : Automaton (Option A)).vertices = g.n.a.vertices.filter (· ≠ u) := by
        show Dict.keys (g1.adj.erase u) = _
        rw [Dict.keys_erase _ k3.outer]
        have : Dict.keys g1.adj = g.n.a.vertices := k4
        rw [this]
      refine ⟨_, rfl, ⟨⟨Dict.nodupKeys_erase k3.outer _, ?_, ?_⟩, hn, ?_, hsy, ?_⟩, j1, j2, ?_⟩
      · intro q d h
        simp only [Dict.get?_erase k3.outer] at h
        split at h
        · cases h
        · exact k3.inner q d h
      · intro q hq
        rw [hvv] at hq
        exact hw.lt q (List.mem_filter.1 hq).1
      · rw [hvv, hv]; rfl
      · intro q a r
        simp only [INView.removeVertex]
        rw [hd2]
        by_cases h : u = q
        · rw [if_pos h]
          simp only [reduceCtorEq, false_iff]
          exact fun h' => h'.2.1 h.symm
        · rw [if_neg h, k6, he, hsy, hp]
          exact ⟨fun h1 => ⟨h1.1, Ne.symm h, h1.2⟩, fun h1 => ⟨h1.1, h1.2.2⟩⟩
      · intro p t
        rw [j3, hpe, hp]
        simp only [INView.removeVertex]
        have : (∃ e ∈ g1.outEdges u, e.target = t) ↔ ∃ b, s.edges ⟨u, t, b⟩ ∧ ¬ (b = s.symbol u ∧ s.preds u u) := by
          constructor
          · rintro ⟨e, h1, rfl⟩
            obtain ⟨h2, h3⟩ := (mem_outEdges k3).1 h1
            rw [k6, he, hsy, hp, h2] at h3
            exact ⟨_, h3⟩
          · rintro ⟨b, hb⟩
            rw [← hsy, ← hp, ← he, ← k6] at hb
            exact ⟨⟨u, t, b⟩, (mem_outEdges k3).2 ⟨rfl, hb⟩, rfl⟩
        rw [this]
        tauto
    · have hu1 : u ∉ g1.vertices := by rw [k4]; exact hu
      rw [if_neg (by rw [Dict.contains_iff_mem]; exact hu1)]
      have hno : ∀ t b, ¬ s.edges ⟨u, t, b⟩ := by
        intro t b h
        rw [← he] at h
        exact hu (delta_mem_vertices h)
      refine ⟨_, rfl, ⟨k3, k5.trans hn, ?_, hsy, ?_⟩, Dict.nodupKeys_erase ho _, hps, ?_⟩
      · simp only [INView.removeVertex]
        rw [k4, ← hv, List.filter_eq_self.2]
        intro v hv'
        simp only [ne_eq, decide_not, Bool.not_eq_true', decide_eq_false_iff_not]
        rintro rfl; exact hu hv'
      · intro q a r
        simp only [INView.removeVertex]
        rw [k6, he, hsy, hp]
        refine ⟨fun h1 => ⟨h1.1, ?_, h1.2⟩, fun h1 => ⟨h1.1, h1.2.2⟩⟩
        rintro rfl
        exact hno _ _ h1.1
      · intro p t
        rw [hpe, hp]
        simp only [INView.removeVertex]
        refine ⟨fun h1 => ⟨h1.2, h1.1, ?_⟩, fun h1 => ⟨h1.2.1, h1.1⟩⟩
        rintro ⟨_, b, hb, _⟩
        exact hno _ _ hb

/-- The number of the next state plays no role in `remove_vertex`. -/
theorem removeVertex_next (g : INodeAutomaton A) (n u : Nat) :
    (⟨⟨{ g.n.a with lastVertexId := n }, g.n.symbols⟩, g.pred⟩ : INodeAutomaton A).removeVertex u =
      (g.removeVertex u).map fun g' => ⟨⟨{ g'.n.a with lastVertexId := n }, g'.n.symbols⟩, g'.pred⟩ := by
  unfold removeVertex
  have h1 : (⟨⟨{ g.n.a with lastVertexId := n }, g.n.symbols⟩, g.pred⟩ : INodeAutomaton A).dropIn u = g.dropIn u := rfl
  rw [h1]
  cases g.dropIn u with
  | error e => rfl
  | ok x =>
    obtain ⟨adj, pred⟩ := x
    simp only [bind, Except.bind]
    by_cases hc : adj.contains u = true
    · rw [if_pos hc, if_pos hc]
      have h2 : (⟨{ g.n.a with lastVertexId := n, adj := adj }, g.n.symbols⟩ : NodeAutomaton A).outEdges u =
        (⟨{ g.n.a with adj := adj }, g.n.symbols⟩ : NodeAutomaton A).outEdges u := rfl
      simp only [h2]
      cases (⟨{ g.n.a with adj := adj }, g.n.symbols⟩ : NodeAutomaton A).outEdges u with
      | error e => rfl
      | ok es =>
        simp only
        cases adj.delE u <;> rfl
    · rw [if_neg hc, if_neg hc]; rfl

theorem removeVertices_next (us : List Nat) (n : Nat) (g : INodeAutomaton A) :
    us.foldlM removeVertex ⟨⟨{ g.n.a with lastVertexId := n }, g.n.symbols⟩, g.pred⟩ =
      (us.foldlM removeVertex g).map fun g' => ⟨⟨{ g'.n.a with lastVertexId := n }, g'.n.symbols⟩, g'.pred⟩ := by
  induction us generalizing g with
  | nil => rfl
  | cons u us ih =>
    rw [List.foldlM_cons, List.foldlM_cons, removeVertex_next]
    cases h : g.removeVertex u with
    | error e => rfl
    | ok g1 => exact ih g1

theorem removeVertex_ok {g g' : INodeAutomaton A} {s : INView A} (h : Sees g s) {u : Nat} (hr : g.removeVertex u = .ok g') :
    Sees g' (s.removeVertex u) := by
  obtain ⟨h1, h2⟩ := removeVertex_all h u
  by_cases hc : ∃ p, s.preds p u ∧ ¬ ∃ t, s.edges ⟨p, t, s.symbol u⟩
  · rw [h1 hc] at hr; cases hr
  · obtain ⟨g1, k1, k2⟩ := h2 (fun p hp => by
      by_contra hn; exact hc ⟨p, hp, hn⟩)
    rw [k1] at hr; cases hr; exact k2

theorem removeVertices_ok (us : List Nat) {g g' : INodeAutomaton A} {s : INView A} (h : Sees g s) (hr : us.foldlM removeVertex g = .ok g') :
    Sees g' (us.foldl INView.removeVertex s) := by
  induction us generalizing g s with
  | nil => cases hr; exact h
  | cons u us ih =>
    rw [List.foldlM_cons, except_bind_ok] at hr
    obtain ⟨g1, k1, k2⟩ := hr
    exact ih (removeVertex_ok h k1) k2

omit [DecidableEq A] in
theorem view_last (us : List Nat) (n : Nat) (s : INView A) :
    us.foldl INView.removeVertex { s with next := n } = { us.foldl INView.removeVertex s with next := n } := by
  induction us generalizing s with
  | nil => rfl
  | cons u us ih => exact ih (s.removeVertex u)

omit [DecidableEq A] in
theorem view_states (us : List Nat) (s : INView A) :
    (us.foldl INView.removeVertex s).states = s.states.filter (· ∉ us) := by
  induction us generalizing s with
  | nil => simp
  | cons u us ih =>
    rw [List.foldl_cons, ih]
    simp only [INView.removeVertex]
    rw [List.filter_filter]
    congr 1
    funext v
    by_cases h : v = u <;> simp [h]

/-- One call. -/
theorem Sees_call {g g' : INodeAutomaton A} {s : INView A} {c : NCall A} (h : Sees g s) (hc : g.call c = .ok g') : Sees g' (s.step c) := by
  cases c with
  | clear =>
    have hc : g.n.vertices.foldlM removeVertex ⟨⟨{ g.n.a with lastVertexId := 0 }, g.n.symbols⟩, g.pred⟩ = .ok g' := hc
    rw [removeVertices_next] at hc
    cases h1 : g.n.vertices.foldlM removeVertex g with
    | error e => rw [h1] at hc; cases hc
    | ok g1 =>
      rw [h1] at hc
      cases hc
      have h2 := removeVertices_ok _ h h1
      have hv : g.n.vertices = s.states := h.n.states
      rw [hv] at h2
      simp only [INView.step]
      rw [view_last]
      have hnil : (s.states.foldl INView.removeVertex s).states = [] := by
        rw [view_states, List.filter_eq_nil_iff]
        intro v hv
        simpa using hv
      refine ⟨⟨⟨h2.n.out.outer, h2.n.out.inner, ?_⟩, rfl, h2.n.states, h2.n.symbol, h2.n.edges⟩, h2.outer, h2.sets, h2.preds⟩
      intro q hq
      have : q ∈ g1.n.a.vertices := hq
      rw [h2.n.states, hnil] at this
      cases this
  | op o =>
    cases o with
    | removeVertex u => exact removeVertex_ok h hc
    | addVertex a =>
      have hc : (Except.ok (⟨(g.n.addVertex a).2, g.pred⟩ : INodeAutomaton A) : Except PyErr (INodeAutomaton A)) = Except.ok g' := by rw [← hc]; rfl
      cases hc
      exact ⟨NodeAutomaton.Sees_call (c := .op (.addVertex a)) h.n rfl, h.outer, h.sets, h.preds⟩
    | setInitial q b =>
      cases hc
      exact ⟨NodeAutomaton.Sees_call (c := .op (.setInitial q b)) h.n rfl, h.outer, h.sets, h.preds⟩
    | setFinal q b =>
      cases hc
      exact ⟨NodeAutomaton.Sees_call (c := .op (.setFinal q b)) h.n rfl, h.outer, h.sets, h.preds⟩
    | removeEdge d =>
      have hc : (setRemoveE (g.pred.getD d.target []) d.source >>= fun x => Except.ok (⟨g.n.removeEdge d, g.pred.set d.target x⟩ : INodeAutomaton A)) = .ok g' := hc
      rw [except_bind_ok] at hc
      obtain ⟨x, h1, h2⟩ := hc
      cases h2
      unfold setRemoveE at h1
      split at h1
      · cases h1
        refine ⟨NodeAutomaton.Sees_call (c := .op (.removeEdge d)) h.n rfl, Dict.nodupKeys_set h.outer _ _, ?_, ?_⟩
        · intro r
          simp only
          rw [Dict.getD_set]; split
          · exact nodup_setDiscard (h.sets _) _
          · exact h.sets r
        · intro p t
          simp only [INView.step]
          rw [Dict.getD_set, ← h.preds]
          split
          · rename_i ht
            subst ht
            rw [mem_setDiscard]; simp
          · rename_i ht
            exact ⟨fun h' => ⟨h', fun h2 => ht h2.2.symm⟩, fun h' => h'.1⟩
      · cases h1
    | addEdge q r =>
      have hc : (g.addEdge q r).map (·.2.2) = .ok g' := hc
      unfold addEdge at hc
      by_cases hq : q ∈ g.n.vertices
      · cases hd : g.n.a.delta q (g.n.symbol r) with
        | none =>
          have ha := (NodeAutomaton.addEdge_spec r hq).2 hd
          rw [ha] at hc
          simp only [bind, Except.bind, if_true, Except.map] at hc
          cases hc
          have hno : ¬ ∃ t, s.edges ⟨q, t, s.symbol r⟩ := by
            rintro ⟨t, ht⟩
            rw [← h.n.edges, ← h.n.symbol, hd] at ht; cases ht
          refine ⟨NodeAutomaton.Sees_call (c := .op (.addEdge q r)) h.n (by
            show (g.n.addEdge q r).map _ = _
            rw [ha]; rfl), Dict.nodupKeys_set h.outer _ _, ?_, ?_⟩
          · intro t
            simp only
            rw [Dict.getD_set]; split
            · exact nodup_setAdd (h.sets _) _
            · exact h.sets t
          · intro p t
            simp only [INView.step]
            rw [Dict.getD_set, ← h.preds]
            split
            · rename_i ht
              subst ht
              rw [mem_setAdd]; simp [hno]
            · rename_i ht
              refine ⟨fun h' => .inl h', ?_⟩
              rintro (h' | h')
              · exact h'
              · exact absurd h'.2.1.symm ht
        | some t =>
          have ha := (NodeAutomaton.addEdge_spec r hq).1 _ hd
          rw [ha] at hc
          simp only [bind, Except.bind, Except.map, Bool.false_eq_true, if_false] at hc
          cases hc
          refine ⟨NodeAutomaton.Sees_call (c := .op (.addEdge q r)) h.n (by
            show (g.n.addEdge q r).map _ = _
            rw [ha]; rfl), h.outer, h.sets, ?_⟩
          intro p t'
          simp only [INView.step]
          rw [← h.preds]
          refine ⟨fun h' => .inl h', ?_⟩
          rintro (h' | h')
          · exact h'
          · exact absurd ⟨t, by rw [← h.n.edges, ← h.n.symbol]; exact hd⟩ h'.2.2
      · rw [NodeAutomaton.addEdge_absent r hq] at hc; cases hc

theorem Sees_runs {cs : List (NCall A)} {g : INodeAutomaton A} (h : Runs INodeAutomaton.call .empty cs g) :
    Sees g (cs.foldl INView.step .new) := by
  have aux : ∀ (cs : List (NCall A)) (g₀ : INodeAutomaton A) (s : INView A), Sees g₀ s → Runs INodeAutomaton.call g₀ cs g →
      Sees g (cs.foldl INView.step s) := by
    intro cs
    induction cs with
    | nil => intro g₀ s h hr; rw [hr.nil]; exact h
    | cons c cs ih =>
      intro g₀ s h hr
      unfold Runs at hr
      rw [List.foldlM_cons, except_bind_ok] at hr
      obtain ⟨g1, k1, k2⟩ := hr
      exact ih g1 _ (Sees_call h k1) k2
  exact aux cs _ _ Sees_new h

end INodeAutomaton
end PyBGL
