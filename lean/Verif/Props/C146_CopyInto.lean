import Verif.Proofs.CopyInto
import Verif.Props.C94_AutomatonCopy
import Verif.Props.C98_UndirectedCopy
import Verif.Proofs.IncidenceGraph

/-!
# C146: copies into a graph that is not empty, maps that are not empty, callbacks

`IsCopy` is in Spec/CopyInto.lean.
-/

namespace PyBGL
variable {V E : Type} [DecidableEq V] [DecidableEq E]

omit [DecidableEq E] in
/-- `DirectedGraph` as the class of `g_dup`. -/
theorem adds_directed : CopyInto.Adds (CopyClass.directed E) (fun d => AdjWF d.adj ∧ ∀ x ∈ d.vertices, x < d.lastVertexId) Graph.vertices Graph.edges
    (fun x y _ f => f.source = x ∧ f.target = y) (fun _ _ _ => False) (fun _ _ => False) := by
  refine ⟨?_, ?_, fun _ _ _ _ _ _ h => h.elim, fun _ _ _ _ _ _ _ h => h.elim⟩
  · rintro d ⟨hw, hb⟩
    obtain ⟨h1, h2⟩ := Graph.edgeAdder.vertex d hw hb
    have hv : ∀ x, x ∈ d.addVertex.2.vertices ↔ x ∈ d.vertices ∨ x = d.addVertex.1 := by
      intro x
      simp [Graph.addVertex, Graph.vertices, Dict.mem_keys_set, or_comm]
    refine ⟨⟨h1, ?_⟩, fun h => Nat.lt_irrefl _ (hb _ h), hv, fun f => ?_⟩
    · intro x hx
      show x < d.lastVertexId + 1
      rcases (hv x).mp hx with h | h
      · have := hb x h; omega
      · have : x = d.lastVertexId := h
        omega
    · show f ∈ d.addVertex.2.edges ↔ _
      rw [Graph.mem_edges h1, Graph.mem_edges hw]; exact h2 f
  · rintro d x y e ⟨hw, hb⟩ hx hy _
    obtain ⟨f, d', h1, h2, h3, h4, h5, h6, h7⟩ := Graph.edgeAdder.edge d x y hw hx hy
    refine ⟨f, d', h1, ⟨h2, ?_⟩, ?_, fun z => by rw [h5], fun f' => ?_, h7⟩
    · rw [h5, h4]; exact hb
    · rw [Graph.mem_edges hw]; exact h3
    · rw [Graph.mem_edges h2, Graph.mem_edges hw]; exact h6 f'

/-- **C146** (`graph_copy` into a `DirectedGraph`). Whatever the graph `g` whose part reached from `s` is finite, the `DirectedGraph` `d0` and the
content of the maps: the part reached is added to `d0`, everything else in `d0` and in the maps remains, and the callbacks receive one call per vertex
and edge copied, each edge after its ends, whatever they do with them; an exception they raise is the one raised by `graph_copy`. -/
theorem C146_directed {g : GraphI V E} (hs : g.SourcesOK) (hn : ∀ u, (g.outEdges u).Nodup) (s : V) (vrel : Option (V → Bool))
    (erel : Option (E → Bool)) {U : List V} (hU : ∀ v, Reach (g.through (relevant g vrel erel)) s v → v ∈ U)
    {d0 : Graph} {l : GLog} (h0 : History Graph.exec .empty d0 l) (vm0 : Dict V Nat) (em0 : Dict E (EdgeDesc Nat)) :
    ∃ d vm em calls, (∀ (σ : Type) (cb : Visitor (CopyCall V E Graph (EdgeDesc Nat)) σ) (st : σ),
        Returns (copyInto (.directed E) cb s g d0 vrel erel vm0 em0 st) ((emit cb calls st).map fun st' => (d, vm, em, st'))) ∧
      d.vertices.Nodup ∧ d.edges.Nodup ∧
      IsCopy Graph.vertices Graph.edges (fun x y _ f => f.source = x ∧ f.target = y) g (relevant g vrel erel) s d0 vm0 em0 d vm em calls := by
  have hi := Graph.history_inv h0
  obtain ⟨d, vm, em, calls, h1, h2, h3⟩ := CopyInto.copyInto_spec adds_directed hs hn (fun _ _ _ _ _ h => h.elim) s vrel erel hU
    ⟨hi.wf, hi.bound⟩ vm0 em0
  exact ⟨d, vm, em, calls, h1, h2.1.outer, Graph.nodup_edges h2.1, h3⟩

omit [DecidableEq E] in
/-- `UndirectedGraph` as the class of `g_dup`. -/
theorem adds_undirected : CopyInto.Adds (CopyClass.undirected E) (fun d => (AdjWF d.adj ∧ UGraph.Sym d) ∧ ∀ x ∈ d.vertices, x < d.lastVertexId)
    Graph.vertices UGraph.edges (fun x y _ f => f.source = min x y ∧ f.target = max x y) (fun _ _ _ => False) (fun _ _ => False) := by
  refine ⟨?_, ?_, fun _ _ _ _ _ _ h => h.elim, fun _ _ _ _ _ _ _ h => h.elim⟩
  · rintro d ⟨hw, hb⟩
    obtain ⟨h1, h2⟩ := UGraph.edgeAdder.vertex d hw hb
    have hv : ∀ x, x ∈ d.addVertex.2.vertices ↔ x ∈ d.vertices ∨ x = d.addVertex.1 := by
      intro x
      simp [Graph.addVertex, Graph.vertices, Dict.mem_keys_set, or_comm]
    refine ⟨⟨h1, ?_⟩, fun h => Nat.lt_irrefl _ (hb _ h), hv, h2⟩
    intro x hx
    show x < d.lastVertexId + 1
    rcases (hv x).mp hx with h | h
    · have := hb x h; omega
    · have : x = d.lastVertexId := h
      omega
  · rintro d x y e ⟨hw, hb⟩ hx hy _
    obtain ⟨f, d', h1, h2, h3, h4, h5, h6, h7⟩ := UGraph.edgeAdder.edge d x y hw hx hy
    exact ⟨f, d', h1, ⟨h2, by rw [h5, h4]; exact hb⟩, h3, fun z => by rw [h5], h6, h7⟩

/-- **C146** (`graph_copy` into an `UndirectedGraph`): the same, the ends of a copy being sorted. -/
theorem C146_undirected {g : GraphI V E} (hs : g.SourcesOK) (hn : ∀ u, (g.outEdges u).Nodup) (s : V) (vrel : Option (V → Bool))
    (erel : Option (E → Bool)) {U : List V} (hU : ∀ v, Reach (g.through (relevant g vrel erel)) s v → v ∈ U)
    {d0 : Graph} {l : GLog} (h0 : History UGraph.exec .empty d0 l) (vm0 : Dict V Nat) (em0 : Dict E (EdgeDesc Nat)) :
    ∃ d vm em calls, (∀ (σ : Type) (cb : Visitor (CopyCall V E Graph (EdgeDesc Nat)) σ) (st : σ),
        Returns (copyInto (.undirected E) cb s g d0 vrel erel vm0 em0 st) ((emit cb calls st).map fun st' => (d, vm, em, st'))) ∧
      d.vertices.Nodup ∧ (∀ u v n, ⟨u, v, n⟩ ∈ UGraph.outEdges d u ↔ ⟨v, u, n⟩ ∈ UGraph.outEdges d v) ∧
      IsCopy Graph.vertices UGraph.edges (fun x y _ f => f.source = min x y ∧ f.target = max x y) g (relevant g vrel erel) s d0 vm0 em0 d vm em
        calls := by
  have hi := UGraph.history_inv h0
  obtain ⟨d, vm, em, calls, h1, h2, h3⟩ := CopyInto.copyInto_spec adds_undirected hs hn (fun _ _ _ _ _ h => h.elim) s vrel erel hU
    ⟨⟨hi.wf, hi.sym⟩, hi.bound⟩ vm0 em0
  refine ⟨d, vm, em, calls, h1, h2.1.1.outer, fun u v n => ?_, h3⟩
  simp only [UGraph.outEdges]
  rw [Graph.mem_outEdges h2.1.1, Graph.mem_outEdges h2.1.1]
  simpa using h2.1.2 u v n

omit [DecidableEq E] in
/-- `IncidenceGraph` as the class of `g_dup`. -/
theorem adds_incidence : CopyInto.Adds (CopyClass.incidence E) (fun d => IGraph.WF d ∧ ∀ x ∈ d.vertices, x < d.g.lastVertexId) IGraph.vertices IGraph.edges
    (fun x y _ f => f.source = x ∧ f.target = y) (fun _ _ _ => False) (fun _ _ => False) := by
  refine ⟨?_, ?_, fun _ _ _ _ _ _ h => h.elim, fun _ _ _ _ _ _ _ h => h.elim⟩
  · rintro d ⟨hw, hb⟩
    obtain ⟨⟨k1, k2⟩, h2, h3, h4⟩ := adds_directed (E := E).vertex d.g ⟨hw.out, hb⟩
    have hnew : d.g.lastVertexId ∉ d.vertices := h2
    have hnew' : d.g.lastVertexId ∉ Dict.keys d.inAdj := fun h => hnew ((hw.keys _).1 h)
    refine ⟨⟨⟨k1, hw.inn.addKey _, ?_, ?_⟩, k2⟩, h2, h3, h4⟩
    · intro u
      show u ∈ Dict.keys (d.inAdj.set _ _) ↔ u ∈ Dict.keys (d.g.adj.set _ _)
      rw [Dict.mem_keys_set, Dict.mem_keys_set, hw.keys]; rfl
    · intro u v n
      show n ∈ lk (d.inAdj.set _ _) v u ↔ n ∈ lk (d.g.adj.set _ _) u v
      rw [lk_addKey, lk_addKey]
      have z1 : ∀ x, lk d.inAdj d.g.lastVertexId x = [] := fun x =>
        lk_of_none ((Dict.get?_eq_none_iff _ _).2 hnew') x
      have z2 : ∀ x, lk d.g.adj d.g.lastVertexId x = [] := fun x =>
        lk_of_none ((Dict.get?_eq_none_iff _ _).2 hnew) x
      have := hw.mirror u v n
      split <;> split
      · simp
      · rename_i h1 h2; subst h1; rw [z1] at this; rw [← this]
      · rename_i h1 h2; subst h2; rw [z2] at this; rw [this]
      · exact this
  · rintro d x y e ⟨hw, hb⟩ hx hy _
    obtain ⟨n, d', h1, h2, h3, h4, h5, h6⟩ := IGraph.addEdge_spec hw x y hx hy
    refine ⟨_, d', h1, ⟨h2, ?_⟩, ?_, fun z => by rw [h5], fun f' => ?_, rfl, rfl⟩
    · rw [h5, h4]; exact hb
    · show _ ∉ d.g.edges
      rw [Graph.mem_edges hw.out]; exact h3
    · show f' ∈ d'.g.edges ↔ f' ∈ d.g.edges ∨ _
      rw [Graph.mem_edges h2.out, Graph.mem_edges hw.out, h6]
      obtain ⟨a, b, c⟩ := f'
      simp

/-- **C146** (`graph_copy` into an `IncidenceGraph`): the same, and the in-edges of the result mirror its edges. -/
theorem C146_incidence {g : GraphI V E} (hs : g.SourcesOK) (hn : ∀ u, (g.outEdges u).Nodup) (s : V) (vrel : Option (V → Bool))
    (erel : Option (E → Bool)) {U : List V} (hU : ∀ v, Reach (g.through (relevant g vrel erel)) s v → v ∈ U)
    {d0 : IGraph} {l : GLog} (h0 : History IGraph.exec .empty d0 l) (vm0 : Dict V Nat) (em0 : Dict E (EdgeDesc Nat)) :
    ∃ d vm em calls, (∀ (σ : Type) (cb : Visitor (CopyCall V E IGraph (EdgeDesc Nat)) σ) (st : σ),
        Returns (copyInto (.incidence E) cb s g d0 vrel erel vm0 em0 st) ((emit cb calls st).map fun st' => (d, vm, em, st'))) ∧
      d.vertices.Nodup ∧ d.edges.Nodup ∧ (∀ v f, f ∈ d.inEdges v ↔ f ∈ d.edges ∧ f.target = v) ∧
      IsCopy IGraph.vertices IGraph.edges (fun x y _ f => f.source = x ∧ f.target = y) g (relevant g vrel erel) s d0 vm0 em0 d vm em calls := by
  have hi := IGraph.history_inv h0
  obtain ⟨d, vm, em, calls, h1, h2, h3⟩ := CopyInto.copyInto_spec adds_incidence hs hn (fun _ _ _ _ _ h => h.elim) s vrel erel hU
    ⟨hi.wf, hi.bound⟩ vm0 em0
  refine ⟨d, vm, em, calls, h1, h2.1.out.outer, Graph.nodup_edges h2.1.out, fun v f => ?_, h3⟩
  rw [IGraph.mem_inEdges h2.1]
  show _ ↔ f ∈ d.g.edges ∧ _
  rw [Graph.mem_edges h2.1.out, and_comm]

/-! ## Automata -/

variable {A : Type} [DecidableEq A]

/-- `Automaton` as the class of `g_dup`. -/
theorem adds_automaton (q0 : Option Nat) (final : Dict Nat Bool) : CopyInto.Adds (CopyClass.automaton A) (fun d => AWF d ∧ d.q0 = q0 ∧ d.final = final)
    Automaton.vertices (fun d => d.edges.map some) (fun x y e f => f = some ⟨x, y, e.distinguisher⟩)
    (fun x e f => ∃ y, f = some ⟨x, y, e.distinguisher⟩) (fun e e' => e.distinguisher = e'.distinguisher) := by
  have hmem : ∀ {d : Automaton A}, AWF d → ∀ f, f ∈ d.edges.map some ↔ ∃ x y a, f = some ⟨x, y, a⟩ ∧ d.delta x a = some y := by
    intro d hw f
    rw [List.mem_map]
    constructor
    · rintro ⟨⟨x, y, a⟩, h, rfl⟩; exact ⟨x, y, a, rfl, (Automaton.mem_edges hw).mp h⟩
    · rintro ⟨x, y, a, rfl, h⟩; exact ⟨⟨x, y, a⟩, (Automaton.mem_edges hw).mpr h, rfl⟩
  refine ⟨?_, ?_, ?_, ?_⟩
  · rintro d ⟨hw, hq, hf⟩
    have hw' := Automaton.AWF_addVertex hw
    refine ⟨⟨hw', hq, hf⟩, Automaton.fresh hw, fun x => ?_, fun f => ?_⟩
    · show x ∈ d.addVertex.2.vertices ↔ _
      rw [Automaton.vertices_addVertex hw, List.mem_append, List.mem_singleton]; rfl
    · show f ∈ d.addVertex.2.edges.map some ↔ _
      rw [hmem hw', hmem hw]
      simp only [Automaton.delta_addVertex hw]
  · rintro d x y e ⟨hw, hq, hf⟩ hx hy hc
    have hnone : d.delta x e.distinguisher = none := by
      cases h : d.delta x e.distinguisher with
      | none => rfl
      | some z => exact (hc (some ⟨x, z, e.distinguisher⟩) ((hmem hw _).mpr ⟨_, _, _, rfl, h⟩) ⟨z, rfl⟩).elim
    have hw' := Automaton.AWF_setDelta hw y e.distinguisher hx
    refine ⟨some ⟨x, y, e.distinguisher⟩, d.setDelta x y e.distinguisher, ?_, ⟨hw', hq, hf⟩, ?_, fun z => ?_, fun f' => ?_, rfl⟩
    · show (d.addEdge x y e.distinguisher).map _ = _
      rw [Automaton.addEdge_of_free (.inl hnone) hx]; rfl
    · rw [hmem hw]
      rintro ⟨x', y', a, h1, h2⟩
      cases h1
      rw [hnone] at h2; simp at h2
    · rw [Automaton.vertices_setDelta _ _ hx]
    · rw [hmem hw', hmem hw]
      simp only [Automaton.delta_setDelta]
      constructor
      · rintro ⟨x', y', a, rfl, h⟩
        split at h
        · rename_i h'; obtain ⟨rfl, rfl⟩ := h'; cases h; exact .inr rfl
        · exact .inl ⟨x', y', a, rfl, h⟩
      · rintro (⟨x', y', a, rfl, h⟩ | rfl)
        · refine ⟨x', y', a, rfl, ?_⟩
          rw [if_neg]
          · exact h
          · rintro ⟨rfl, rfl⟩; rw [hnone] at h; simp at h
        · exact ⟨x, y, _, rfl, by simp⟩
  · rintro d x e f ⟨hw, _⟩ hf ⟨y, rfl⟩
    obtain ⟨x', y', a, h1, h2⟩ := (hmem hw _).mp hf
    cases h1
    by_contra h
    rw [Automaton.delta_not_mem _ h] at h2
    simp at h2
  · rintro x y x' e e' f rfl ⟨z, h⟩
    simp only [Option.some.injEq, EdgeDesc.mk.injEq] at h
    exact ⟨h.1, h.2.2⟩

/-- **C146** (`automaton_copy` with maps given). Whatever the automata `g` and `d0` and the content of the maps: the part of `g` reached from `s` is added
to `d0`, whose initial state, final states and transitions remain, and the callbacks receive one call per state and transition copied. -/
theorem C146_automaton {g : Automaton A} (hg : g.Reachable) (s : Nat) (vrel : Option (Nat → Bool)) (erel : Option (EdgeDesc A → Bool))
    {d0 : Automaton A} (h0 : d0.Reachable) (vm0 : Dict Nat Nat) (em0 : Dict (EdgeDesc A) (Option (EdgeDesc A))) :
    ∃ d vm em calls, (∀ (σ : Type) (cb : Visitor (CopyCall Nat (EdgeDesc A) (Automaton A) (Option (EdgeDesc A))) σ) (st : σ),
        Returns (copyInto (.automaton A) cb s g.toI d0 vrel erel vm0 em0 st) ((emit cb calls st).map fun st' => (d, vm, em, st'))) ∧
      d.vertices.Nodup ∧ d.edges.Nodup ∧ d.initial = d0.initial ∧ (∀ q, d.isFinal q = d0.isFinal q) ∧
      IsCopy Automaton.vertices (fun d => d.edges.map some) (fun x y e f => f = some ⟨x, y, e.distinguisher⟩) g.toI (relevant g.toI vrel erel) s d0 vm0
        em0 d vm em calls := by
  have hw := hg.awf
  have hU : ∀ v, Reach (g.toI.through (relevant g.toI vrel erel)) s v → v ∈ s :: g.edges.map EdgeDesc.target := by
    intro v hr
    refine Reach.closed (P := fun x => x ∈ s :: g.edges.map EdgeDesc.target) ?_ hr (by simp)
    intro x _ e he
    have he : e ∈ g.outEdges x := (List.mem_filter.mp he).1
    exact List.mem_cons_of_mem _ (List.mem_map.mpr ⟨e, (Automaton.mem_edges hw).mpr ((Automaton.mem_outEdges hw).mp he).2, rfl⟩)
  obtain ⟨d, vm, em, calls, h1, h2, h3⟩ := CopyInto.copyInto_spec (adds_automaton d0.q0 d0.final) (Automaton.sourcesOK hw) (Automaton.nodup_outEdges hw)
    (by
      intro u e he e' he' h
      obtain ⟨rfl, h1⟩ := (Automaton.mem_outEdges hw).mp he
      obtain ⟨h2, h3⟩ := (Automaton.mem_outEdges hw).mp he'
      obtain ⟨x, y, a⟩ := e
      obtain ⟨x', y', a'⟩ := e'
      simp only at h h1 h2 h3
      subst h h2
      rw [h1] at h3
      cases h3; rfl) s vrel erel hU ⟨h0.awf, rfl, rfl⟩ vm0 em0
  refine ⟨d, vm, em, calls, h1, h2.1.outer, Automaton.nodup_edges h2.1, h2.2.1, fun q => ?_, h3⟩
  unfold Automaton.isFinal
  rw [h2.2.2]

/-- **C146** (language). If the initial state of `d0` is one of its states and its transitions stay in it, the copy does not change the words
it accepts. -/
theorem C146_language {g : Automaton A} (hg : g.Reachable) (s : Nat) (vrel : Option (Nat → Bool)) (erel : Option (EdgeDesc A → Bool))
    {d0 : Automaton A} (h0 : d0.Reachable) (hq : ∀ q, d0.initial = some q → q ∈ d0.vertices) (hclosed : ∀ e ∈ d0.edges, e.target ∈ d0.vertices)
    (vm0 : Dict Nat Nat) (em0 : Dict (EdgeDesc A) (Option (EdgeDesc A))) {σ : Type}
    (cb : Visitor (CopyCall Nat (EdgeDesc A) (Automaton A) (Option (EdgeDesc A))) σ) (st : σ) {d : Automaton A} {vm em st'}
    (hr : Returns (copyInto (.automaton A) cb s g.toI d0 vrel erel vm0 em0 st) (.ok (d, vm, em, st'))) (w : List A) :
    d.Lang w ↔ d0.Lang w := by
  obtain ⟨d1, vm1, em1, calls, h1, _, _, h4, h5, c⟩ := C146_automaton hg s vrel erel h0 vm0 em0
  have hd : d1 = d := by
    obtain ⟨N, hN⟩ := hr
    obtain ⟨M, hM⟩ := h1 σ cb st
    have e1 := hN (max N M) (by omega)
    rw [hM (max N M) (by omega)] at e1
    cases hc : emit cb calls st with
    | error err => rw [hc] at e1; simp [Except.map] at e1
    | ok x => rw [hc] at e1; simp only [Except.map, Option.some.injEq, Except.ok.injEq, Prod.mk.injEq] at e1; exact e1.1
  subst hd
  have hw0 := h0.awf
  have hsrc : ∀ x ∈ d0.vertices, ∀ a y, d1.Trans x a y ↔ d0.Trans x a y := by
    intro x hx a y
    have hm := c.final.edges (some ⟨x, y, a⟩)
    simp only [List.mem_map, Option.some.injEq, exists_eq_right] at hm
    show (⟨x, y, a⟩ : EdgeDesc A) ∈ d1.edges ↔ ⟨x, y, a⟩ ∈ d0.edges
    rw [hm]
    refine ⟨?_, .inl⟩
    rintro (h | ⟨e, he⟩)
    · exact h
    · exfalso
      obtain ⟨l1, d', l2, hl⟩ : ∃ l1 d' l2, calls = l1 ++ .edge e (some ⟨x, y, a⟩) d' :: l2 := CopyInto.split_edgeCalls he
      obtain ⟨x', y', k1, _, k3⟩ := c.ends _ _ _ _ _ hl
      simp only [Option.some.injEq, EdgeDesc.mk.injEq] at k3
      obtain ⟨rfl, _⟩ := k3
      exact c.vertices_new.2 x (List.mem_map.mpr ⟨_, by rw [hl]; simp only [vertexCalls_append, List.mem_append]; exact .inl k1, rfl⟩) hx
  have hpath : ∀ w x r, x ∈ d0.vertices → (LPath d1.Trans x w r ↔ LPath d0.Trans x w r) := by
    intro w
    induction w with
    | nil => intro x r _; simp only [LPath.nil_iff]
    | cons a w ih =>
      intro x r hx
      simp only [LPath.cons_iff]
      constructor
      · rintro ⟨y, k1, k2⟩
        have k3 := (hsrc x hx a y).mp k1
        exact ⟨y, k3, (ih y r (hclosed _ k3)).mp k2⟩
      · rintro ⟨y, k3, k2⟩
        exact ⟨y, (hsrc x hx a y).mpr k3, (ih y r (hclosed _ k3)).mpr k2⟩
  unfold Automaton.Lang
  rw [show d1.q0 = d0.q0 from h4]
  constructor
  · rintro ⟨q, r, k1, k2, k3⟩
    exact ⟨q, r, k1, (hpath w q r (hq q k1)).mp k2, by rw [← h5]; exact k3⟩
  · rintro ⟨q, r, k1, k2, k3⟩
    exact ⟨q, r, k1, (hpath w q r (hq q k1)).mpr k2, by rw [h5]; exact k3⟩

/-- Non-vacuity: a triangle with two parallel edges, copied from 1 into a graph that has two vertices and an edge, with maps that hold old entries;
the callbacks record what they receive, or raise at the second edge. -/
def exCopyInto : GraphI Nat (EdgeDesc Nat) where
  vertices := [0, 1, 2, 3]
  edges := [⟨0, 1, 0⟩, ⟨1, 2, 0⟩, ⟨1, 2, 1⟩, ⟨2, 0, 0⟩, ⟨3, 0, 0⟩]
  outEdges := fun u => [⟨0, 1, 0⟩, ⟨1, 2, 0⟩, ⟨1, 2, 1⟩, ⟨2, 0, 0⟩, ⟨3, 0, 0⟩].filter (fun e => e.source == u)
  inEdges := fun _ => []
  source := EdgeDesc.source
  target := EdgeDesc.target

example : exCopyInto.SourcesOK ∧ (∀ u, (exCopyInto.outEdges u).Nodup) ∧
    (∀ v, Reach (exCopyInto.through (relevant exCopyInto none none)) 1 v → v ∈ [0, 1, 2]) := by
  refine ⟨?_, ?_, ?_⟩
  · intro u e he
    have := (List.mem_filter.mp he).2
    have h : e.source = u := by simpa using this
    exact h
  · intro u
    exact List.Nodup.filter _ (by decide)
  · intro v hr
    refine Reach.closed (P := fun x => x ∈ [0, 1, 2]) ?_ hr (by simp)
    intro x hx e he
    have he := (List.mem_filter.mp he).1
    have := List.mem_filter.mp he
    simp only [List.mem_cons, List.not_mem_nil, or_false] at this
    rcases this with ⟨rfl | rfl | rfl | rfl | rfl, h⟩ <;> simp [exCopyInto, GraphI.through] at *

example : (copyInto (.directed (EdgeDesc Nat)) recorder 1 exCopyInto ⟨2, [(0, [(1, [0])]), (1, [])]⟩ none none [(0, 9), (3, 7)] [] [] 40).map
      (·.map fun r => (r.1.adj, r.2.1, r.2.2.1, vertexCalls r.2.2.2, edgeCalls r.2.2.2)) =
    some (.ok ([(0, [(1, [0])]), (1, []), (2, [(3, [0, 1])]), (3, [(4, [0])]), (4, [(2, [0])])], [(0, 4), (3, 7), (1, 2), (2, 3)],
      [(⟨1, 2, 0⟩, ⟨2, 3, 0⟩), (⟨2, 0, 0⟩, ⟨3, 4, 0⟩), (⟨0, 1, 0⟩, ⟨4, 2, 0⟩), (⟨1, 2, 1⟩, ⟨2, 3, 1⟩)], [(1, 2), (2, 3), (0, 4)],
      [(⟨1, 2, 0⟩, ⟨2, 3, 0⟩), (⟨2, 0, 0⟩, ⟨3, 4, 0⟩), (⟨0, 1, 0⟩, ⟨4, 2, 0⟩), (⟨1, 2, 1⟩, ⟨2, 3, 1⟩)])) := by
  rfl

end PyBGL
