import Verif.Model.NodeAutomaton
import Verif.Proofs.IncidenceAutomaton

/-!
# Invariants of the node automata
-/

namespace PyBGL
open Automaton
variable {A : Type} [DecidableEq A]

namespace NodeAutomaton

/-- Invariant of a `NodeAutomaton` whose edges were added towards existing states. -/
structure WF (g : NodeAutomaton A) : Prop where
  out : AWF g.a
  label : ∀ q a r, g.a.delta q a = some r → a = g.symbol r
  closed : ∀ q a r, g.a.delta q a = some r → r ∈ g.a.vertices
  symLt : ∀ q a, g.symbol q = some a → q < g.a.lastVertexId

theorem WF_empty : WF (empty : NodeAutomaton A) :=
  ⟨AWF_empty, fun _ _ _ h => (by cases h), fun _ _ _ h => (by cases h), fun _ _ h => (by cases h)⟩

theorem symbol_addVertex_ne (g : NodeAutomaton A) (a : Option A) {q : Nat} (h : q ≠ g.a.lastVertexId) :
    (g.addVertex a).2.symbol q = g.symbol q := by
  cases a with
  | none => rfl
  | some a =>
    show Dict.get? (g.symbols.set g.a.lastVertexId a) q = _
    rw [Dict.get?_set_ne _ _ (Ne.symm h)]; rfl

theorem addVertex_a (g : NodeAutomaton A) (a : Option A) : (g.addVertex a).2.a = g.a.addVertex.2 := by
  cases a <;> rfl

theorem symbol_addVertex_self {g : NodeAutomaton A} (hw : WF g) (a : Option A) :
    (g.addVertex a).2.symbol g.a.lastVertexId = a := by
  cases a with
  | none =>
    show g.symbol g.a.lastVertexId = none
    cases h : g.symbol g.a.lastVertexId with
    | none => rfl
    | some b => exact absurd (hw.symLt _ _ h) (Nat.lt_irrefl _)
  | some a =>
    show Dict.get? (g.symbols.set g.a.lastVertexId a) _ = _
    simp [Dict.get?_set]

theorem WF_addVertex {g : NodeAutomaton A} (hw : WF g) (a : Option A) : WF (g.addVertex a).2 := by
  have hlt : ∀ q x r, g.a.delta q x = some r → r ≠ g.a.lastVertexId := by
    intro q x r h e
    have := hw.out.lt r (hw.closed _ _ _ h); omega
  refine ⟨?_, ?_, ?_, ?_⟩
  · rw [addVertex_a]; exact AWF_addVertex hw.out
  · intro q x r h
    rw [addVertex_a, delta_addVertex hw.out] at h
    rw [symbol_addVertex_ne g a (hlt _ _ _ h)]
    exact hw.label _ _ _ h
  · intro q x r h
    rw [addVertex_a, delta_addVertex hw.out] at h
    rw [addVertex_a, vertices_addVertex hw.out]
    simp [hw.closed _ _ _ h]
  · intro q x h
    rw [addVertex_a]
    show q < g.a.lastVertexId + 1
    by_cases hq : q = g.a.lastVertexId
    · omega
    · rw [symbol_addVertex_ne g a hq] at h
      have := hw.symLt _ _ h; omega

theorem addEdge_spec {g : NodeAutomaton A} {q : Nat} (r : Nat) (hq : q ∈ g.vertices) :
    (∀ r', g.a.delta q (g.symbol r) = some r' → g.addEdge q r = .ok (none, false, g)) ∧
    (g.a.delta q (g.symbol r) = none → g.addEdge q r =
      .ok (some ⟨q, r, g.symbol r⟩, true, ⟨g.a.setDelta q r (g.symbol r), g.symbols⟩)) := by
  obtain ⟨d, hd⟩ := (Dict.mem_keys_iff _ _).1 hq
  have hg : g.a.adj.getD q [] = d := by simp [Dict.getD, hd]
  constructor
  · intro r' h
    rw [delta_eq, hd] at h
    have hc : d.contains (g.symbol r) = true := (Dict.contains_iff _ _).2 ⟨r', h⟩
    simp [addEdge, Dict.getE_of_get? hd, bind, Except.bind, hc]
  · intro h
    rw [delta_eq, hd] at h
    have hc : d.contains (g.symbol r) = false := by
      rw [Bool.eq_false_iff, ne_eq, Dict.contains_iff]
      rintro ⟨v, hv⟩
      simp only [Option.bind_some] at h
      rw [hv] at h; cases h
    simp [addEdge, Dict.getE_of_get? hd, bind, Except.bind, hc, setDelta, hg]

theorem addEdge_absent {g : NodeAutomaton A} {q : Nat} (r : Nat) (hq : q ∉ g.vertices) :
    g.addEdge q r = .error .keyError := by
  have : Dict.get? g.a.adj q = none := (Dict.get?_eq_none_iff _ _).2 hq
  simp [addEdge, Dict.getE, this, bind, Except.bind]

theorem WF_setDelta {g : NodeAutomaton A} (hw : WF g) {q r : Nat} (hq : q ∈ g.vertices) (hr : r ∈ g.vertices) :
    WF ⟨g.a.setDelta q r (g.symbol r), g.symbols⟩ := by
  refine ⟨AWF_setDelta hw.out _ _ hq, ?_, ?_, hw.symLt⟩
  · intro q' x r' h
    show x = g.symbol r'
    rw [delta_setDelta] at h
    split at h
    · rename_i hc; cases h; exact hc.2.symm
    · exact hw.label _ _ _ h
  · intro q' x r' h
    show r' ∈ (g.a.setDelta q r (g.symbol r)).vertices
    rw [vertices_setDelta _ _ hq]
    rw [delta_setDelta] at h
    split at h
    · cases h; exact hr
    · exact hw.closed _ _ _ h

theorem removeEdge_eq (g : NodeAutomaton A) (e : EdgeDesc (Option A)) :
    g.removeEdge e = ⟨g.a.removeEdge ⟨e.source, e.target, g.symbol e.target⟩, g.symbols⟩ := by
  unfold removeEdge Automaton.removeEdge
  cases h : Dict.get? g.a.adj e.source with
  | none => simp
  | some d => simp only; split <;> rfl

theorem WF_sub {g : NodeAutomaton A} (hw : WF g) {a' : Automaton (Option A)} (h1 : AWF a')
    (h2 : ∀ q x r, a'.delta q x = some r → g.a.delta q x = some r ∧ r ∈ a'.vertices)
    (h3 : a'.lastVertexId = g.a.lastVertexId) : WF ⟨a', g.symbols⟩ :=
  ⟨h1, fun q x r h => hw.label q x r (h2 q x r h).1, fun q x r h => (h2 q x r h).2,
    fun q a h => by show q < a'.lastVertexId; rw [h3]; exact hw.symLt q a h⟩

theorem WF_removeEdge {g : NodeAutomaton A} (hw : WF g) (e : EdgeDesc (Option A)) : WF (g.removeEdge e) := by
  rw [removeEdge_eq]
  obtain ⟨h1, h2, h3, h4, h5, h6⟩ := Automaton.removeEdge_spec hw.out ⟨e.source, e.target, g.symbol e.target⟩
  refine WF_sub hw h1 ?_ h3
  intro q x r h
  rw [h6] at h
  split at h
  · cases h
  · exact ⟨h, by rw [h2]; exact hw.closed _ _ _ h⟩

theorem foldl_removeEdge_eq (g : NodeAutomaton A) (es : List (EdgeDesc (Option A)))
    (hes : ∀ e ∈ es, e.distinguisher = g.symbol e.target) :
    es.foldl removeEdge g = ⟨es.foldl Automaton.removeEdge g.a, g.symbols⟩ := by
  induction es generalizing g with
  | nil => rfl
  | cons e es ih =>
    have he := hes e (by simp)
    have hee : (⟨e.source, e.target, g.symbol e.target⟩ : EdgeDesc (Option A)) = e := by
      cases e; simp at he; simp [he]
    rw [List.foldl_cons, removeEdge_eq, ih, List.foldl_cons, hee]
    intro e' he'
    exact hes e' (by simp [he'])

theorem outEdges_eq {g : NodeAutomaton A} {q : Nat} (hq : q ∈ g.vertices) :
    g.outEdges q = .ok (g.a.outEdges q) := by
  obtain ⟨d, hd⟩ := (Dict.mem_keys_iff _ _).1 hq
  simp [outEdges, Automaton.outEdges, Dict.getE_of_get? hd, bind, Except.bind, Dict.getD, hd]

theorem removeVertex_eq {g : NodeAutomaton A} (hw : WF g) {u : Nat} (hu : u ∈ g.vertices) :
    g.removeVertex u = (g.a.removeVertex u).map (fun a => ⟨a, g.symbols⟩) := by
  unfold removeVertex Automaton.removeVertex
  have e1 := foldl_removeEdge_eq g (g.edges.filter fun e => u = e.target) (by
    intro e he
    simp only [List.mem_filter, edges, mem_edges hw.out] at he
    exact hw.label _ _ _ he.1)
  obtain ⟨i1, i2, i3, i4, i5, i6⟩ := foldl_removeEdge_spec hw.out (g.a.edges.filter fun e => u = e.target)
  simp only [edges] at e1
  simp only [edges, e1]
  generalize (g.a.edges.filter fun e => u = e.target).foldl Automaton.removeEdge g.a = g1 at *
  have hu1 : u ∈ (⟨g1, g.symbols⟩ : NodeAutomaton A).vertices := by
    show u ∈ g1.vertices; rw [i2]; exact hu
  rw [outEdges_eq hu1]
  simp only [bind, Except.bind]
  rw [foldl_removeEdge_eq]
  · cases ((g1.outEdges u).foldl Automaton.removeEdge g1).adj.delE u <;> rfl
  · intro e he
    rw [mem_outEdges i1] at he
    have := he.2
    rw [i6] at this
    split at this
    · cases this
    · exact hw.label _ _ _ this

theorem removeVertex_spec {g : NodeAutomaton A} (hw : WF g) {u : Nat} (hu : u ∈ g.vertices) :
    ∃ g', g.removeVertex u = .ok g' ∧ WF g' ∧ g'.symbols = g.symbols ∧
      g'.a.vertices = g.a.vertices.filter (· ≠ u) ∧
      ∀ q a, g'.a.delta q a = if q = u ∨ g.a.delta q a = some u then none else g.a.delta q a := by
  obtain ⟨g1, h1, h2, h3, h4, h5, h6, h7⟩ := Automaton.removeVertex_spec hw.out hu
  refine ⟨⟨g1, g.symbols⟩, by rw [removeVertex_eq hw hu, h1]; rfl, ?_, rfl, h3, h7⟩
  refine WF_sub hw h2 ?_ h4
  intro q x r h
  rw [h7] at h
  split at h
  · cases h
  · rename_i hc
    refine ⟨h, ?_⟩
    rw [h3, List.mem_filter]
    refine ⟨hw.closed _ _ _ h, ?_⟩
    simp only [ne_eq, decide_not, Bool.not_eq_true', decide_eq_false_iff_not]
    rintro rfl; exact hc (.inr h)

theorem removeVertex_absent {g : NodeAutomaton A} (hw : WF g) {u : Nat} (hu : u ∉ g.vertices) :
    g.removeVertex u = .error .keyError := by
  unfold removeVertex
  have e1 := foldl_removeEdge_eq g (g.edges.filter fun e => u = e.target) (by
    intro e he
    simp only [List.mem_filter, edges, mem_edges hw.out] at he
    exact hw.label _ _ _ he.1)
  obtain ⟨i1, i2, i3, i4, i5, i6⟩ := foldl_removeEdge_spec hw.out (g.a.edges.filter fun e => u = e.target)
  simp only [edges] at e1
  simp only [edges, e1]
  generalize (g.a.edges.filter fun e => u = e.target).foldl Automaton.removeEdge g.a = g1 at *
  have hn : Dict.get? g1.adj u = none := by
    rw [Dict.get?_eq_none_iff]
    have : Dict.keys g1.adj = g.vertices := i2
    rw [this]; exact hu
  simp [outEdges, Dict.getE, hn, bind, Except.bind]

/-- The calls covered by the partial theorem: edges are added towards existing states. -/
def Safe (g : NodeAutomaton A) : NOp A → Prop
  | .addEdge _ r => r ∈ g.vertices
  | _ => True

theorem WF_setInitial {g : NodeAutomaton A} (hw : WF g) (q : Nat) (b : Bool) :
    WF ⟨g.a.setInitial q b, g.symbols⟩ := by
  have : (g.a.setInitial q b).adj = g.a.adj ∧ (g.a.setInitial q b).lastVertexId = g.a.lastVertexId := by
    unfold Automaton.setInitial; split
    · exact ⟨rfl, rfl⟩
    · split <;> exact ⟨rfl, rfl⟩
  generalize g.a.setInitial q b = g2 at *
  obtain ⟨n, adj, q0, f⟩ := g2
  simp only at this
  obtain ⟨rfl, rfl⟩ := this
  exact ⟨⟨hw.out.1, hw.out.2, hw.out.3⟩, hw.label, hw.closed, hw.symLt⟩

theorem exec_WF {g g' : NodeAutomaton A} {op : NOp A} (hw : WF g) (hs : Safe g op)
    (h : g.exec op = .ok g') : WF g' := by
  cases op with
  | addVertex a => cases h; exact WF_addVertex hw a
  | addEdge q r =>
    simp only [exec] at h
    by_cases hq : q ∈ g.vertices
    · cases hd : g.a.delta q (g.symbol r) with
      | none =>
        rw [(addEdge_spec r hq).2 hd] at h; cases h
        exact WF_setDelta hw hq hs
      | some r' =>
        rw [(addEdge_spec r hq).1 _ hd] at h; cases h; exact hw
    · rw [addEdge_absent r hq] at h; cases h
  | removeEdge e => cases h; exact WF_removeEdge hw e
  | removeVertex u =>
    simp only [exec] at h
    by_cases hu : u ∈ g.vertices
    · obtain ⟨g1, h1, h2, _⟩ := removeVertex_spec hw hu
      rw [h1] at h; cases h; exact h2
    · rw [removeVertex_absent hw hu] at h; cases h
  | setInitial q b => cases h; exact WF_setInitial hw q b
  | setFinal q b => cases h; exact ⟨⟨hw.out.1, hw.out.2, hw.out.3⟩, hw.label, hw.closed, hw.symLt⟩

end NodeAutomaton

namespace INodeAutomaton

/-- Invariant of an `IncidenceNodeAutomaton`. -/
structure WF (g : INodeAutomaton A) : Prop where
  n : NodeAutomaton.WF g.n
  outer : Dict.NodupKeys g.pred
  sets : ∀ r, (g.pred.getD r []).Nodup
  mirror : ∀ q r, q ∈ g.pred.getD r [] ↔ g.n.a.delta q (g.n.symbol r) = some r

theorem WF_empty : WF (empty : INodeAutomaton A) :=
  ⟨NodeAutomaton.WF_empty, Dict.nodupKeys_nil, by simp [empty, Dict.getD],
    by simp [empty, NodeAutomaton.empty, Automaton.empty, Automaton.delta, Dict.getD]⟩

theorem mem_inEdges {g : INodeAutomaton A} (hw : WF g) (r : Nat) (e : EdgeDesc (Option A)) :
    e ∈ g.inEdges r ↔ e.target = r ∧ e ∈ g.n.edges := by
  unfold inEdges NodeAutomaton.edges
  rw [mem_edges hw.n.out, List.mem_map]
  constructor
  · rintro ⟨q, hq, rfl⟩
    exact ⟨rfl, (hw.mirror q r).1 hq⟩
  · rintro ⟨rfl, h⟩
    have hl := hw.n.label _ _ _ h
    refine ⟨e.source, ?_, ?_⟩
    · rw [hw.mirror, ← hl]; exact h
    · cases e; simp at hl; simp [hl]

theorem nodup_inEdges {g : INodeAutomaton A} (hw : WF g) (r : Nat) : (g.inEdges r).Nodup := by
  unfold inEdges
  exact (hw.sets r).map (by intro a b h; simpa using h)

theorem getD_set_same {K V : Type} [DecidableEq K] (d : Dict K V) (k : K) (v w : V) :
    (d.set k v).getD k w = v := by rw [Dict.getD_set, if_pos rfl]

theorem foldl_dropPred (q : Nat) (es : List (EdgeDesc (Option A))) (pred : Dict Nat (List Nat))
    (h1 : Dict.NodupKeys pred) (h2 : ∀ r, (pred.getD r []).Nodup) :
    Dict.NodupKeys (es.foldl (dropPred q) pred) ∧ (∀ r, ((es.foldl (dropPred q) pred).getD r []).Nodup) ∧
    ∀ p r, p ∈ (es.foldl (dropPred q) pred).getD r [] ↔
      p ∈ pred.getD r [] ∧ ¬ (p = q ∧ ∃ e ∈ es, e.target = r) := by
  induction es generalizing pred with
  | nil => exact ⟨h1, h2, by simp⟩
  | cons e es ih =>
    rw [List.foldl_cons]
    have k1 : Dict.NodupKeys (dropPred q pred e) := Dict.nodupKeys_set h1 _ _
    have k2 : ∀ r, ((dropPred q pred e).getD r []).Nodup := by
      intro r
      unfold dropPred
      rw [Dict.getD_set]; split
      · exact nodup_setDiscard (h2 _) _
      · exact h2 r
    obtain ⟨i1, i2, i3⟩ := ih _ k1 k2
    refine ⟨i1, i2, ?_⟩
    intro p r
    rw [i3]
    have : p ∈ (dropPred q pred e).getD r [] ↔ p ∈ pred.getD r [] ∧ ¬ (p = q ∧ e.target = r) := by
      unfold dropPred
      rw [Dict.getD_set]
      split
      · rename_i h; subst h; rw [mem_setDiscard]; simp
      · rename_i h; simp [h]
    rw [this]
    simp only [List.mem_cons, exists_eq_or_imp]
    by_cases hp : p = q <;> by_cases ht : e.target = r <;> simp [hp, ht]

theorem removeVertex_spec {g : INodeAutomaton A} (hw : WF g) (u : Nat) :
    ∃ g', g.removeVertex u = .ok g' ∧ WF g' ∧ g'.n.symbols = g.n.symbols ∧
      g'.n.vertices = g.n.vertices.filter (· ≠ u) ∧
      ∀ q a, g'.n.a.delta q a = if q = u ∨ g.n.a.delta q a = some u then none else g.n.a.delta q a := by
  unfold removeVertex
  obtain ⟨i1, i2, i3, i4, i5, i6⟩ := foldl_removeEdge_spec hw.n.out (g.inEdges u)
  have hin := mem_inEdges hw u
  have hfold : (g.inEdges u).foldlM (fun adj e => IAutomaton.delTransition adj e.source (g.n.symbol u)) g.n.a.adj =
      .ok ((g.inEdges u).foldl Automaton.removeEdge g.n.a).adj := by
    rw [← IAutomaton.foldlM_delTransition hw.n.out (u := u) (g.inEdges u) (nodup_inEdges hw u)]
    · have : ∀ (es : List (EdgeDesc (Option A))) adj, (∀ e ∈ es, e.distinguisher = g.n.symbol u) →
          es.foldlM (fun adj e => IAutomaton.delTransition adj e.source (g.n.symbol u)) adj =
          es.foldlM (fun adj e => IAutomaton.delTransition adj e.source e.distinguisher) adj := by
        intro es
        induction es with
        | nil => intro adj _; rfl
        | cons e es ih =>
          intro adj hes
          rw [List.foldlM_cons, List.foldlM_cons, hes e (by simp)]
          congr 1; funext adj'
          exact ih adj' (fun e' he' => hes e' (by simp [he']))
      apply this
      intro e he
      unfold inEdges at he
      obtain ⟨q, _, rfl⟩ := List.mem_map.1 he
      rfl
    · intro e he
      rw [hin] at he
      obtain ⟨h1, h2⟩ := he
      unfold NodeAutomaton.edges at h2
      rw [mem_edges hw.n.out] at h2
      exact ⟨h1, by rw [h2, h1]⟩
  generalize hg1 : (g.inEdges u).foldl Automaton.removeEdge g.n.a = g1 at *
  have hg1eq : ({ g.n.a with adj := g1.adj } : Automaton (Option A)) = g1 := by
    cases g1; simp only at i3 i4 i5; simp [← i3, ← i4, ← i5]
  have hd1 : ∀ q a, g1.delta q a = if g.n.a.delta q a = some u then none else g.n.a.delta q a := by
    intro q a
    rw [i6]
    by_cases h : g.n.a.delta q a = some u
    · rw [if_pos h, if_pos]
      exact ⟨⟨q, u, a⟩, (hin _).2 ⟨rfl, (mem_edges hw.n.out).2 h⟩, rfl, rfl⟩
    · rw [if_neg h, if_neg]
      rintro ⟨e, he, rfl, rfl⟩
      rw [hin] at he
      obtain ⟨h1, h2⟩ := he
      unfold NodeAutomaton.edges at h2
      rw [mem_edges hw.n.out] at h2
      exact h (by rw [h2, h1])
  -- the first phase
  have hphase1 : g.dropIn u = .ok (g1.adj, g.pred.erase u) := by
    unfold dropIn
    by_cases hc : g.pred.contains u = true
    · rw [if_pos hc, hfold]; rfl
    · rw [if_neg hc]
      have hnone : Dict.get? g.pred u = none := by
        rw [Dict.get?_eq_none_iff, ← Dict.contains_iff_mem]; exact hc
      have he : g.inEdges u = [] := by simp [inEdges, Dict.getD, hnone]
      have h1 : g1 = g.n.a := by rw [← hg1, he]; rfl
      have h2 : g.pred.erase u = g.pred := by
        have : ∀ d : Dict Nat (List Nat), u ∉ Dict.keys d → d.erase u = d := by
          intro d
          induction d with
          | nil => intro _; rfl
          | cons p d ih =>
            intro h
            simp only [Dict.keys, List.map_cons, List.mem_cons, not_or] at h
            obtain ⟨k, v⟩ := p
            simp only [Dict.erase, if_neg (Ne.symm h.1)]
            rw [ih h.2]
        apply this
        rw [← Dict.contains_iff_mem]; exact hc
      rw [h1, h2]
  have hpe : ∀ p r, p ∈ (g.pred.erase u).getD r [] ↔ r ≠ u ∧ p ∈ g.pred.getD r [] := by
    intro p r
    unfold Dict.getD
    rw [Dict.get?_erase hw.outer]
    by_cases h : u = r
    · simp [h]
    · simp [h, Ne.symm h]
  have hps : ∀ r, ((g.pred.erase u).getD r []).Nodup := by
    intro r
    unfold Dict.getD
    rw [Dict.get?_erase hw.outer]
    by_cases h : u = r
    · simp [h]
    · rw [if_neg h]; exact hw.sets r
  rw [hphase1]
  simp only [bind, Except.bind, hg1eq]
  by_cases hu : u ∈ g.n.a.vertices
  · have hu1 : u ∈ g1.vertices := by rw [i2]; exact hu
    rw [if_pos ((Dict.contains_iff_mem _ _).2 hu1)]
    have hdel1 : g1.adj.delE u = .ok (g1.adj.erase u) := (Dict.delE_ok_iff _ _ _).2 ⟨hu1, rfl⟩
    rw [NodeAutomaton.outEdges_eq (g := ⟨g1, g.n.symbols⟩) hu1]
    simp only [hdel1]
    have hd2 : ∀ q a, ({ g.n.a with adj := g1.adj.erase u } : Automaton (Option A)).delta q a =
        if q = u ∨ g.n.a.delta q a = some u then none else g.n.a.delta q a := by
      intro q a
      have e1 : ({ g.n.a with adj := g1.adj.erase u } : Automaton (Option A)).delta q a =
          if u = q then none else g1.delta q a := by
        simp only [delta_eq, Dict.get?_erase i1.outer]
        by_cases h : u = q <;> simp [h]
      rw [e1, hd1]
      by_cases h : q = u
      · simp [h]
      · simp [h, Ne.symm h]
    have hv2 : Dict.keys (g1.adj.erase u) = g.n.vertices.filter (· ≠ u) := by
      rw [Dict.keys_erase _ i1.outer, show Dict.keys g1.adj = Dict.keys g.n.a.adj from i2]; rfl
    obtain ⟨j1, j2, j3⟩ := foldl_dropPred u (g1.outEdges u) (g.pred.erase u)
      (Dict.nodupKeys_erase hw.outer _) hps
    have hAWF : AWF ({ g.n.a with adj := g1.adj.erase u } : Automaton (Option A)) := by
      refine ⟨Dict.nodupKeys_erase i1.outer _, ?_, ?_⟩
      · intro q d h
        simp only [Dict.get?_erase i1.outer] at h
        split at h
        · cases h
        · exact i1.inner _ _ h
      · intro q h
        simp only [Automaton.vertices] at h
        rw [hv2, List.mem_filter] at h
        exact hw.n.out.lt _ h.1
    refine ⟨_, rfl, ⟨NodeAutomaton.WF_sub hw.n hAWF ?_ rfl, j1, j2, ?_⟩, rfl, hv2, hd2⟩
    · intro q x r h
      rw [hd2] at h
      split at h
      · cases h
      · rename_i hc
        refine ⟨h, ?_⟩
        show r ∈ Dict.keys (g1.adj.erase u)
        rw [hv2, List.mem_filter]
        refine ⟨hw.n.closed _ _ _ h, ?_⟩
        simp only [ne_eq, decide_not, Bool.not_eq_true', decide_eq_false_iff_not]
        rintro rfl; exact hc (.inr h)
    · intro q r
      simp only
      show _ ↔ ({ g.n.a with adj := g1.adj.erase u } : Automaton (Option A)).delta q (g.n.symbol r) = some r
      rw [j3, hpe, hd2, hw.mirror]
      by_cases hq : q = u
      · subst hq
        simp only [true_and, true_or, if_true, reduceCtorEq, iff_false, not_and, not_not]
        rintro ⟨hr, hd⟩
        refine ⟨⟨q, r, g.n.symbol r⟩, ?_, rfl⟩
        rw [mem_outEdges i1]
        refine ⟨rfl, ?_⟩
        simp only
        rw [hd1, hd, if_neg]
        simpa using hr
      · simp only [hq, false_and, not_false_eq_true, and_true, false_or]
        by_cases hd : g.n.a.delta q (g.n.symbol r) = some u
        · rw [if_pos hd, hd]
          simp only [Option.some.injEq, reduceCtorEq, iff_false, not_and]
          intro h h'; exact h h'.symm
        · rw [if_neg hd]
          constructor
          · exact fun h => h.2
          · intro h
            refine ⟨?_, h⟩
            rintro rfl; exact hd h
  · have hu1 : u ∉ Dict.keys g1.adj := by
      have : Dict.keys g1.adj = g.n.a.vertices := i2
      rw [this]; exact hu
    rw [if_neg (by rw [Dict.contains_iff_mem]; exact hu1)]
    have hno : ∀ q a, g.n.a.delta q a ≠ some u := fun q a h => hu (hw.n.closed _ _ _ h)
    have hdd : ∀ q a, g1.delta q a = g.n.a.delta q a := by
      intro q a; rw [hd1, if_neg (hno q a)]
    refine ⟨_, rfl, ⟨NodeAutomaton.WF_sub hw.n i1 ?_ i3, Dict.nodupKeys_erase hw.outer _, hps, ?_⟩, rfl, ?_, ?_⟩
    · intro q x r h
      rw [hdd] at h
      exact ⟨h, by rw [i2]; exact hw.n.closed _ _ _ h⟩
    · intro q r
      show _ ↔ g1.delta q (g.n.symbol r) = some r
      rw [hpe, hdd, hw.mirror]
      constructor
      · exact fun h => h.2
      · intro h; exact ⟨fun e => hno _ _ (e ▸ h), h⟩
    · show g1.vertices = _
      rw [i2]
      symm
      apply List.filter_eq_self.2
      intro q hq
      simp only [ne_eq, decide_not, Bool.not_eq_true', decide_eq_false_iff_not]
      rintro rfl; exact hu hq
    · intro q a
      show g1.delta q a = _
      rw [hdd]
      by_cases hq : q = u
      · subst hq; rw [if_pos (.inl rfl)]; exact delta_not_mem a hu
      · rw [if_neg (by simp [hq, hno])]

/-- The calls covered by the partial theorem: edges are added towards existing states. -/
def Safe (g : INodeAutomaton A) (op : NOp A) : Prop := NodeAutomaton.Safe g.n op

theorem exec_WF {g g' : INodeAutomaton A} {op : NOp A} (hw : WF g) (hs : Safe g op)
    (h : g.exec op = .ok g') : WF g' := by
  cases op with
  | addVertex a =>
    cases h
    have ha := NodeAutomaton.addVertex_a g.n a
    have e : (g.addVertex a).2 = ⟨(g.n.addVertex a).2, g.pred⟩ := rfl
    rw [e]
    refine ⟨NodeAutomaton.WF_addVertex hw.n a, hw.outer, hw.sets, ?_⟩
    intro q r
    show q ∈ g.pred.getD r [] ↔ (g.n.addVertex a).2.a.delta q ((g.n.addVertex a).2.symbol r) = some r
    rw [hw.mirror, ha, delta_addVertex hw.n.out]
    by_cases hr : r = g.n.a.lastVertexId
    · have hno : ∀ q x, g.n.a.delta q x ≠ some r := by
        intro q x hx
        have := hw.n.out.lt r (hw.n.closed _ _ _ hx); omega
      simp [hno]
    · rw [NodeAutomaton.symbol_addVertex_ne _ _ hr]
  | addEdge q r =>
    simp only [exec] at h
    unfold addEdge at h
    by_cases hq : q ∈ g.n.vertices
    · cases hd : g.n.a.delta q (g.n.symbol r) with
      | none =>
        rw [(NodeAutomaton.addEdge_spec r hq).2 hd] at h
        cases h
        refine ⟨NodeAutomaton.WF_setDelta hw.n hq hs, Dict.nodupKeys_set hw.outer _ _, ?_, ?_⟩
        · intro r'
          simp only [Dict.getD_set]
          split
          · exact nodup_setAdd (hw.sets r) q
          · exact hw.sets r'
        · intro q' r'
          show q' ∈ Dict.getD _ r' [] ↔ (g.n.a.setDelta q r (g.n.symbol r)).delta q' (g.n.symbol r') = some r'
          rw [delta_setDelta, Dict.getD_set]
          by_cases hr : r = r'
          · subst hr
            rw [if_pos rfl, mem_setAdd, hw.mirror]
            by_cases hqq : q = q'
            · subst hqq; simp
            · simp [hqq, Ne.symm hqq]
          · rw [if_neg hr, hw.mirror]
            by_cases hc : q = q' ∧ g.n.symbol r = g.n.symbol r'
            · rw [if_pos hc]
              obtain ⟨rfl, h2⟩ := hc
              rw [← h2, hd]; simp [hr]
            · rw [if_neg hc]
      | some r' =>
        rw [(NodeAutomaton.addEdge_spec r hq).1 _ hd] at h; cases h; exact hw
    · rw [NodeAutomaton.addEdge_absent r hq] at h; cases h
  | removeEdge e =>
    simp only [exec] at h
    unfold removeEdge at h
    cases hs' : setRemoveE (g.pred.getD e.target []) e.source with
    | error x => rw [hs'] at h; cases h
    | ok s =>
      rw [hs'] at h
      obtain ⟨hm, rfl⟩ := (setRemoveE_ok_iff _ _ _).1 hs'
      cases h
      rw [hw.mirror] at hm
      obtain ⟨k1, k2, k3, k4, k5, k6⟩ :=
        Automaton.removeEdge_spec hw.n.out ⟨e.source, e.target, g.n.symbol e.target⟩
      refine ⟨NodeAutomaton.WF_removeEdge hw.n e, Dict.nodupKeys_set hw.outer _ _, ?_, ?_⟩
      · intro r'
        simp only [Dict.getD_set]
        split
        · exact nodup_setDiscard (hw.sets _) _
        · exact hw.sets r'
      · intro q r
        simp only [NodeAutomaton.removeEdge_eq]
        show q ∈ Dict.getD _ r [] ↔ Automaton.delta _ q (g.n.symbol r) = some r
        rw [k6, Dict.getD_set]
        simp only
        by_cases hr : e.target = r
        · subst hr
          rw [if_pos rfl, mem_setDiscard, hw.mirror]
          by_cases hqq : e.source = q
          · subst hqq; simp
          · simp [hqq, Ne.symm hqq]
        · rw [if_neg hr, hw.mirror]
          by_cases hc : e.source = q ∧ g.n.symbol e.target = g.n.symbol r
          · rw [if_pos hc]
            obtain ⟨rfl, h2⟩ := hc
            rw [← h2, hm]; simp [hr]
          · rw [if_neg hc]
  | removeVertex u =>
    simp only [exec] at h
    obtain ⟨g1, h1, h2, _⟩ := removeVertex_spec hw u
    rw [h1] at h; cases h; exact h2
  | setInitial q b =>
    cases h
    refine ⟨NodeAutomaton.WF_setInitial hw.n q b, hw.outer, hw.sets, ?_⟩
    intro p r
    have e : ∀ x, (g.n.a.setInitial q b).delta p x = g.n.a.delta p x := by
      intro x
      have : (g.n.a.setInitial q b).adj = g.n.a.adj := by
        unfold Automaton.setInitial; split
        · rfl
        · split <;> rfl
      rw [delta_eq, delta_eq, this]
    show _ ↔ (g.n.a.setInitial q b).delta p (g.n.symbol r) = some r
    rw [e]; exact hw.mirror p r
  | setFinal q b =>
    cases h
    exact ⟨⟨⟨hw.n.out.1, hw.n.out.2, hw.n.out.3⟩, hw.n.label, hw.n.closed, hw.n.symLt⟩, hw.outer, hw.sets,
      hw.mirror⟩

end INodeAutomaton
end PyBGL
