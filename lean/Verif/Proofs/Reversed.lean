import Verif.Spec.ReverseHistory
import Verif.Proofs.IncidenceGraph
import Verif.Proofs.InEdges

namespace PyBGL
open Graph

namespace RIGraph
open IGraph

theorem mem_outEdges {g : Rev IGraph} (hw : WF g.base) (u : Nat) (e : EdgeDesc Nat) :
    e ∈ outEdges g u ↔ g.source e = u ∧ e.distinguisher ∈ lk g.base.g.adj e.source e.target := by
  unfold outEdges Rev.source
  split
  · exact IGraph.mem_inEdges hw u e
  · exact Graph.mem_outEdges hw.out u e

theorem mem_inEdges {g : Rev IGraph} (hw : WF g.base) (u : Nat) (e : EdgeDesc Nat) :
    e ∈ inEdges g u ↔ g.target e = u ∧ e.distinguisher ∈ lk g.base.g.adj e.source e.target := by
  unfold inEdges Rev.target
  split
  · exact Graph.mem_outEdges hw.out u e
  · exact IGraph.mem_inEdges hw u e

theorem nodup_outEdges {g : Rev IGraph} (hw : WF g.base) (u : Nat) : (outEdges g u).Nodup := by
  unfold outEdges
  split
  · exact IGraph.nodup_inEdges hw u
  · exact Graph.nodup_outEdges hw.out u

theorem nodup_inEdges {g : Rev IGraph} (hw : WF g.base) (u : Nat) : (inEdges g u).Nodup := by
  unfold inEdges
  split
  · exact Graph.nodup_outEdges hw.out u
  · exact IGraph.nodup_inEdges hw u

theorem removeEdge_base (g : Rev IGraph) (es : List (EdgeDesc Nat)) {b : IGraph} (h : es.foldlM IGraph.removeEdge g.base = .ok b) :
    es.foldlM removeEdge g = .ok { g with base := b } := by
  induction es generalizing g with
  | nil =>
    simp only [List.foldlM_nil, pure, Except.pure, Except.ok.injEq] at h ⊢
    subst h; rfl
  | cons e es ih =>
    simp only [List.foldlM_cons, bind, Except.bind] at h ⊢
    cases hr : g.base.removeEdge e with
    | error x => rw [hr] at h; cases h
    | ok b1 =>
      rw [hr] at h
      have hg : removeEdge g e = .ok { g with base := b1 } := by simp [removeEdge, hr, bind, Except.bind]
      rw [hg]
      exact ih { g with base := b1 } h

theorem removeVertex_aux {g : Rev IGraph} (hw : WF g.base) (u : Nat) :
    ∃ g2 : IGraph, removeVertex g u = (do
        let adj ← g2.g.adj.delE u
        let inAdj ← g2.inAdj.delE u
        .ok { g with base := ⟨{ g2.g with adj }, inAdj⟩ }) ∧
      WF g2 ∧ g2.g.lastVertexId = g.base.g.lastVertexId ∧ g2.vertices = g.base.vertices ∧
      ∀ e : EdgeDesc Nat, e.distinguisher ∈ lk g2.g.adj e.source e.target ↔
        e.distinguisher ∈ lk g.base.g.adj e.source e.target ∧ e.source ≠ u ∧ e.target ≠ u := by
  obtain ⟨b1, a1, a2, a3, a4, a5⟩ := removeEdges_spec hw (inEdges g u) (nodup_inEdges hw u) fun e he => ((mem_inEdges hw u e).mp he).2
  have hw1 : WF ({ g with base := b1 } : Rev IGraph).base := a2
  obtain ⟨b2, c1, c2, c3, c4, c5⟩ := removeEdges_spec a2 (outEdges { g with base := b1 } u) (nodup_outEdges hw1 u)
    fun e he => ((mem_outEdges hw1 u e).mp he).2
  refine ⟨b2, ?_, c2, c3.trans a3, c4.trans a4, ?_⟩
  · have h1 := removeEdge_base g _ a1
    have h2 := removeEdge_base { g with base := b1 } _ c1
    simp only [removeVertex, h1, bind, Except.bind]
    simp only [h2]
  · intro e
    rw [c5, a5, mem_outEdges hw1, mem_inEdges hw]
    have : ({ g with base := b1 } : Rev IGraph).source e = g.source e := rfl
    rw [this, show ({ g with base := b1 } : Rev IGraph).base = b1 from rfl, a5, mem_inEdges hw]
    unfold Rev.source Rev.target
    split <;> tauto

theorem removeVertex_spec {g : Rev IGraph} (hw : WF g.base) (u : Nat) (hu : u ∈ g.base.vertices) :
    ∃ b : IGraph, removeVertex g u = .ok { g with base := b } ∧ WF b ∧ b.g.lastVertexId = g.base.g.lastVertexId ∧
      b.vertices = g.base.vertices.filter (· ≠ u) ∧
      ∀ e : EdgeDesc Nat, e.distinguisher ∈ lk b.g.adj e.source e.target ↔
        e.distinguisher ∈ lk g.base.g.adj e.source e.target ∧ e.source ≠ u ∧ e.target ≠ u := by
  obtain ⟨g2, h1, w, l, v, m⟩ := removeVertex_aux hw u
  have hv2 : u ∈ g2.vertices := by rw [v]; exact hu
  have hk : u ∈ Dict.keys g2.g.adj := hv2
  have hk2 : u ∈ Dict.keys g2.inAdj := (w.keys u).2 hv2
  have d1 := (Dict.delE_ok_iff _ _ _).2 ⟨hk, rfl⟩
  have d2 := (Dict.delE_ok_iff _ _ _).2 ⟨hk2, rfl⟩
  have hm : ∀ e : EdgeDesc Nat, e.distinguisher ∈ lk (g2.g.adj.erase u) e.source e.target ↔
        e.distinguisher ∈ lk g.base.g.adj e.source e.target ∧ e.source ≠ u ∧ e.target ≠ u := by
    intro e
    rw [lk_eraseKey w.out]
    split
    · rename_i h; simp [h]
    · exact m e
  refine ⟨⟨{ g2.g with adj := g2.g.adj.erase u }, g2.inAdj.erase u⟩, ?_,
    ⟨w.out.erase u, w.inn.erase u, ?_, ?_⟩, l, ?_, hm⟩
  · rw [h1, d1, d2]; rfl
  · intro x
    show x ∈ Dict.keys (g2.inAdj.erase u) ↔ x ∈ Dict.keys (g2.g.adj.erase u)
    rw [Dict.keys_erase _ w.inn.outer, Dict.keys_erase _ w.out.outer, List.mem_filter, List.mem_filter, w.keys]
    rfl
  · intro x y n
    show n ∈ lk (g2.inAdj.erase u) y x ↔ n ∈ lk (g2.g.adj.erase u) x y
    have := hm ⟨x, y, n⟩
    simp only at this
    rw [this, lk_eraseKey w.inn]
    split
    · rename_i h; simp [h]
    · rename_i h
      rw [w.mirror]
      exact m ⟨x, y, n⟩
  · show Dict.keys (g2.g.adj.erase u) = _
    rw [Dict.keys_erase _ w.out.outer]
    have : Dict.keys g2.g.adj = g.base.vertices := v
    rw [this]

theorem removeVertex_absent {g : Rev IGraph} (hw : WF g.base) (u : Nat) (hu : u ∉ g.base.vertices) : removeVertex g u = .error .keyError := by
  obtain ⟨g2, h1, w, l, v, m⟩ := removeVertex_aux hw u
  have hk : u ∉ Dict.keys g2.g.adj := by show u ∉ g2.vertices; rw [v]; exact hu
  rw [← Dict.contains_iff_mem] at hk
  rw [h1]
  simp [Dict.delE, hk, bind, Except.bind]

theorem removeVertices_spec : ∀ (us : List Nat) {g : Rev IGraph}, WF g.base → us.Nodup → (∀ u ∈ us, u ∈ g.base.vertices) →
    ∃ b : IGraph, us.foldlM removeVertex g = .ok { g with base := b } ∧ WF b ∧ b.g.lastVertexId = g.base.g.lastVertexId ∧
      ∀ u, u ∈ b.vertices ↔ u ∈ g.base.vertices ∧ u ∉ us
  | [], g, hw, _, _ => ⟨g.base, rfl, hw, rfl, by simp⟩
  | u :: us, g, hw, hnd, h => by
    rw [List.nodup_cons] at hnd
    obtain ⟨b1, a1, a2, a3, a4, a5⟩ := removeVertex_spec hw u (h u (by simp))
    have hm : ∀ x, x ∈ b1.vertices ↔ x ∈ g.base.vertices ∧ x ≠ u := by
      intro x; rw [a4]; simp
    obtain ⟨b2, c1, c2, c3, c4⟩ := removeVertices_spec us (g := { g with base := b1 }) a2 hnd.2 (by
      intro x hx
      show x ∈ b1.vertices
      rw [hm]
      exact ⟨h x (by simp [hx]), by rintro rfl; exact hnd.1 hx⟩)
    refine ⟨b2, ?_, c2, c3.trans a3, ?_⟩
    · simp only [List.foldlM_cons, a1, bind, Except.bind]; exact c1
    · intro x
      rw [c4]
      show x ∈ b1.vertices ∧ _ ↔ _
      rw [hm]
      simp only [List.mem_cons, not_or, and_assoc]

theorem clear_spec {g : Rev IGraph} (hw : WF g.base) : clear g = .ok { g with base := ⟨⟨0, []⟩, []⟩ } := by
  obtain ⟨b, a, w, c, d⟩ := removeVertices_spec g.base.vertices (g := { g with base := ⟨{ g.base.g with lastVertexId := 0 }, g.base.inAdj⟩ })
    ⟨hw.out, hw.inn, hw.keys, hw.mirror⟩ hw.out.outer (fun u hu => hu)
  have hv : ∀ u, u ∉ b.vertices := fun u hu => by
    have := (d u).1 hu
    exact this.2 this.1
  have nil : ∀ dd : Dict Nat (Dict Nat (List Nat)), (∀ u, u ∉ Dict.keys dd) → dd = [] := by
    intro dd h
    cases dd with
    | nil => rfl
    | cons p l => exact absurd (show p.1 ∈ Dict.keys (p :: l) by simp [Dict.keys]) (h p.1)
  have h1 : b.g.adj = [] := nil _ hv
  have h2 : b.inAdj = [] := nil _ (fun u hu => hv u ((w.keys u).1 hu))
  have h3 : b = ⟨⟨0, []⟩, []⟩ := by
    obtain ⟨⟨l, adj⟩, i⟩ := b
    simp at c h1 h2
    simp [c, h1, h2]
  rw [← h3]
  exact a

theorem exec_inv {g g' : Rev IGraph} {l : GLog} {op : GOp} {out : GOut} (hi : IGraph.HInv g.base l) (h : exec g (.call op) = .ok (out, g')) :
    IGraph.HInv g'.base ((op, out) :: l) ∧ g'.swapped = g.swapped := by
  cases op with
  | addVertex =>
    simp only [exec, Except.ok.injEq, Prod.mk.injEq] at h
    obtain ⟨rfl, rfl⟩ := h
    exact ⟨IGraph.exec_inv hi rfl, rfl⟩
  | addEdge u v =>
    obtain ⟨⟨e, g1⟩, h1, h2⟩ := except_map_ok h
    simp only [Prod.mk.injEq] at h2
    obtain ⟨rfl, rfl⟩ := h2
    unfold addEdge at h1
    obtain ⟨⟨e', b⟩, h3, h4⟩ := except_bind_ok.mp h1
    cases h4
    exact ⟨IGraph.exec_inv hi (by simp [IGraph.exec, h3, Except.map]), rfl⟩
  | removeEdge e =>
    obtain ⟨g1, h1, h2⟩ := except_map_ok h
    simp only [Prod.mk.injEq] at h2
    obtain ⟨rfl, rfl⟩ := h2
    unfold removeEdge at h1
    obtain ⟨b, h3, h4⟩ := except_bind_ok.mp h1
    cases h4
    exact ⟨IGraph.exec_inv hi (by simp [IGraph.exec, h3, Except.map]), rfl⟩
  | removeVertex u =>
    obtain ⟨g1, h1, h2⟩ := except_map_ok h
    simp only [Prod.mk.injEq] at h2
    obtain ⟨rfl, rfl⟩ := h2
    by_cases hu : u ∈ g.base.vertices
    · obtain ⟨b, a, w, c, d, f⟩ := removeVertex_spec hi.wf u hu
      rw [a] at h1
      simp only [Except.ok.injEq] at h1
      subst h1
      have hv : ∀ x, x ∈ b.vertices ↔ x ∈ g.base.vertices ∧ x ≠ u := by
        intro x; rw [d]; simp
      refine ⟨⟨w, ?_, ?_, ?_, ?_, ?_⟩, rfl⟩
      · show ∀ x ∈ _, x < b.g.lastVertexId
        rw [c]; exact hi.issued
      · intro x hx
        show x < b.g.lastVertexId
        rw [c]; exact hi.bound x ((hv x).1 hx).1
      · intro x
        show x ∈ b.vertices ↔ _
        rw [hv, hi.verts]; simp [liveVertices]
      · intro e
        show e.distinguisher ∈ lk b.g.adj e.source e.target ↔ _
        rw [f, hi.eds e]
        simp [liveEdges]
      · intro e he
        simp only [liveEdges, List.mem_filter, decide_eq_true_eq] at he
        show e.source ∈ b.vertices ∧ e.target ∈ b.vertices
        rw [hv, hv]
        exact ⟨⟨(hi.src e he.1).1, he.2.1⟩, ⟨(hi.src e he.1).2, he.2.2⟩⟩
    · rw [removeVertex_absent hi.wf u hu] at h1; simp at h1
  | clear =>
    obtain ⟨g1, h1, h2⟩ := except_map_ok h
    simp only [Prod.mk.injEq] at h2
    obtain ⟨rfl, rfl⟩ := h2
    rw [clear_spec hi.wf] at h1
    simp only [Except.ok.injEq] at h1
    subst h1
    refine ⟨⟨⟨adjWF_nil, adjWF_nil, ?_, ?_⟩, ?_, ?_, ?_, ?_, ?_⟩, rfl⟩ <;>
      simp [issuedVertices, liveVertices, liveEdges, IGraph.vertices, Graph.vertices, Dict.keys, lk]

theorem history_inv {g : Rev IGraph} {l : List (ROp × GOut)} (h : RHistory g l) : IGraph.HInv g.base (methodCalls l) ∧ g.swapped = oddReversals l := by
  induction h with
  | start => exact ⟨IGraph.history_inv .start, rfl⟩
  | @call g g' l op out _ hc ih =>
    cases op with
    | call op =>
      obtain ⟨h1, h2⟩ := exec_inv ih.1 hc
      exact ⟨h1, h2.trans ih.2⟩
    | reverse =>
      simp only [exec, Except.ok.injEq, Prod.mk.injEq] at hc
      obtain ⟨rfl, rfl⟩ := hc
      exact ⟨ih.1, by simp [Rev.reverse, oddReversals, ih.2]⟩

end RIGraph

namespace RIAutomaton
open Automaton IAutomaton
variable {A : Type} [DecidableEq A]

theorem dropSeen_spec {g : Automaton A} (hg : AWF g) (q : Nat) (items : List (A × Nat)) (hnd : (items.map Prod.fst).Nodup) :
    ((∀ p ∈ items, p.2 ≠ q ∧ g.delta p.2 p.1 ≠ none) →
      ∃ g' : Automaton A, dropSeen q items g.adj = .ok g'.adj ∧ AWF g' ∧ g'.vertices = g.vertices ∧ g'.lastVertexId = g.lastVertexId ∧ g'.q0 = g.q0 ∧
        g'.final = g.final ∧ ∀ x b, g'.delta x b = if (b, x) ∈ items then none else g.delta x b) ∧
    ((∃ p ∈ items, p.2 = q ∨ g.delta p.2 p.1 = none) →
      dropSeen q items g.adj = .error .keyError ∨ dropSeen q items g.adj = .error .runtimeError) := by
  induction items generalizing g with
  | nil => exact ⟨fun _ => ⟨g, rfl, hg, rfl, rfl, rfl, rfl, by simp⟩, by simp⟩
  | cons p items ih =>
    obtain ⟨a, r⟩ := p
    rw [List.map_cons, List.nodup_cons] at hnd
    obtain ⟨hn1, hn2⟩ := hnd
    cases hd : g.delta r a with
    | none =>
      refine ⟨fun h => absurd hd (h (a, r) (by simp)).2, fun _ => .inl ?_⟩
      simp [dropSeen, delTransition_none hd, bind, Except.bind]
    | some r' =>
      have h1 := delTransition_eq hd
      obtain ⟨i1, i2, i3, i4, i5, i6⟩ := Automaton.removeEdge_spec hg ⟨r, r', a⟩
      by_cases hr : r = q
      · refine ⟨fun h => absurd hr (h (a, r) (by simp)).1, fun _ => .inr ?_⟩
        subst hr
        simp [dropSeen, h1, bind, Except.bind]
      · have hstep : dropSeen q ((a, r) :: items) g.adj = dropSeen q items (g.removeEdge ⟨r, r', a⟩).adj := by
          simp [dropSeen, h1, bind, Except.bind, hr]
        rw [hstep]
        have hkeep : ∀ p ∈ items, (g.removeEdge ⟨r, r', a⟩).delta p.2 p.1 = g.delta p.2 p.1 := by
          intro p hp
          rw [i6, if_neg]
          rintro ⟨_, h⟩
          exact hn1 (List.mem_map.mpr ⟨p, hp, h.symm⟩)
        obtain ⟨j1, j2⟩ := ih i1 hn2
        constructor
        · intro h
          obtain ⟨g', k1, k2, k3, k4, k5, k6, k7⟩ := j1 fun p hp => ⟨(h p (by simp [hp])).1, by rw [hkeep p hp]; exact (h p (by simp [hp])).2⟩
          refine ⟨g', k1, k2, k3.trans i2, k4.trans i3, k5.trans i4, k6.trans i5, fun x b => ?_⟩
          rw [k7, i6]
          by_cases hm : (b, x) ∈ items
          · simp [hm]
          · by_cases hx : r = x ∧ a = b
            · obtain ⟨rfl, rfl⟩ := hx
              simp
            · rw [if_neg hm, if_neg hx, if_neg]
              simp only [List.mem_cons, Prod.mk.injEq, not_or]
              exact ⟨fun h => hx ⟨h.2.symm, h.1.symm⟩, hm⟩
        · rintro ⟨p, hp, h⟩
          refine j2 ?_
          rcases List.mem_cons.mp hp with rfl | hp
          · rcases h with h | h
            · exact absurd h hr
            · rw [hd] at h; cases h
          · exact ⟨p, hp, by rwa [hkeep p hp]⟩

theorem mem_items {g : Automaton A} (hg : AWF g) {q r : Nat} {a : A} : (a, r) ∈ g.adj.getD q [] ↔ g.delta q a = some r := by
  have h := mem_outEdges hg (q := q) (e := ⟨q, r, a⟩)
  simp only [true_and] at h
  rw [← h]
  simp [Automaton.outEdges]

/-- `remove_vertex(q)` when the attributes are exchanged. -/
theorem removeVertex_swapped {g : IAutomaton A} (hw : Half g) {q : Nat} (hq : q ∈ g.a.vertices) :
    ((∃ a r, g.a.delta q a = some r ∧ (r = q ∨ g.a.delta r a = none)) →
      removeVertex ⟨g, true⟩ q = .error .keyError ∨ removeVertex ⟨g, true⟩ q = .error .runtimeError) ∧
    ((∀ a r, g.a.delta q a = some r → r ≠ q ∧ g.a.delta r a ≠ none) →
      ∃ b : IAutomaton A, removeVertex ⟨g, true⟩ q = .ok ⟨b, true⟩ ∧ AWF b.a ∧ b.a.vertices = g.a.vertices.filter (· ≠ q) ∧
        ∀ x c y, b.a.delta x c = some y ↔ g.a.delta x c = some y ∧ x ≠ q ∧ g.a.delta q c ≠ some x) := by
  have hin : g.inAdj.contains q = true := (Dict.contains_iff_mem _ _).2 ((hw.keys q).2 hq)
  have hdel : g.inAdj.delE q = .ok (g.inAdj.erase q) := (Dict.delE_ok_iff _ _ _).2 ⟨(hw.keys q).2 hq, rfl⟩
  have hnd : ((g.a.adj.getD q []).map Prod.fst).Nodup := by
    unfold Dict.getD
    cases h : g.a.adj.get? q with
    | none => simp
    | some d => exact hw.out.inner q d h
  obtain ⟨d1, d2⟩ := dropSeen_spec hw.out q (g.a.adj.getD q []) hnd
  constructor
  · rintro ⟨a, r, h1, h2⟩
    have := d2 ⟨(a, r), (mem_items hw.out).mpr h1, h2⟩
    unfold removeVertex
    simp only [if_true, hin]
    rcases this with h | h
    · left; simp [h, bind, Except.bind]
    · right; simp [h, bind, Except.bind]
  · intro hall
    obtain ⟨g', k1, k2, k3, k4, k5, k6, k7⟩ := d1 fun p hp => hall p.1 p.2 ((mem_items hw.out).mp hp)
    have hk : q ∈ Dict.keys g'.adj := by
      have : q ∈ g'.vertices := by rw [k3]; exact hq
      exact this
    have hc : g'.adj.contains q = true := (Dict.contains_iff_mem _ _).2 hk
    have hdel' : g'.adj.delE q = .ok (g'.adj.erase q) := (Dict.delE_ok_iff _ _ _).2 ⟨hk, rfl⟩
    have hnil : ∀ x : Automaton A, (⟨x, g.inAdj.erase q⟩ : IAutomaton A).inEdges q = [] := by
      intro x
      have : (g.inAdj.erase q).getD q [] = [] := by
        rw [Dict.getD, Dict.get?_erase hw.inn.outer]; simp
      simp [inEdges, this]
    refine ⟨⟨{ g.a with adj := g'.adj.erase q }, g.inAdj.erase q⟩, ?_, ⟨?_, ?_, ?_⟩, ?_, ?_⟩
    · unfold removeVertex
      simp only [if_true, hin, k1, hdel, bind, Except.bind, hc, hnil, List.foldlM_nil, pure, Except.pure, hdel']
    · exact Dict.nodupKeys_erase k2.outer q
    · intro x d hd
      rw [Dict.get?_erase k2.outer] at hd
      split at hd
      · cases hd
      · exact k2.inner x d hd
    · intro x hx
      have hx' : x ∈ Dict.keys (g'.adj.erase q) := hx
      rw [Dict.keys_erase _ k2.outer, List.mem_filter] at hx'
      have := k2.lt x hx'.1
      rw [k4] at this
      exact this
    · show Dict.keys (g'.adj.erase q) = _
      rw [Dict.keys_erase _ k2.outer]
      have : Dict.keys g'.adj = g.a.vertices := k3
      rw [this]
    · intro x c y
      have h7 := k7 x c
      rw [delta_eq] at h7 ⊢
      show ((g'.adj.erase q).get? x).bind _ = _ ↔ _
      rw [Dict.get?_erase k2.outer]
      by_cases hx : x = q
      · simp [hx]
      · rw [if_neg (Ne.symm hx)] 
        rw [h7]
        by_cases hm : (c, x) ∈ g.a.adj.getD q []
        · rw [if_pos hm]
          have := (mem_items hw.out).mp hm
          simp [this]
        · rw [if_neg hm]
          have : g.a.delta q c ≠ some x := fun h => hm ((mem_items hw.out).mpr h)
          simp [hx, this]

end RIAutomaton

end PyBGL
