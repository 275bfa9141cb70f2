import Verif.Proofs.AutomatonLemmas
import Verif.Proofs.IncidenceGraph

/-!
# The mirror invariant of `IncidenceAutomaton`
-/

namespace PyBGL.IAutomaton
open Automaton
variable {A : Type} [DecidableEq A]

/-- Invariant of an `IncidenceAutomaton`. -/
structure WF (g : IAutomaton A) : Prop where
  out : AWF g.a
  inn : AdjWF g.inAdj
  keys : ∀ u, u ∈ Dict.keys g.inAdj ↔ u ∈ g.a.vertices
  mirror : ∀ q r a, a ∈ lk g.inAdj r q ↔ g.a.delta q a = some r

theorem WF_empty : WF (empty : IAutomaton A) :=
  ⟨AWF_empty, adjWF_nil, by simp [empty, Automaton.empty, vertices, Dict.keys], by
    simp [empty, Automaton.empty, lk, delta, Dict.getD]⟩

theorem mem_inEdges {g : IAutomaton A} (hw : WF g) (r : Nat) (e : EdgeDesc A) :
    e ∈ g.inEdges r ↔ e.target = r ∧ g.a.delta e.source e.distinguisher = some e.target := by
  obtain ⟨u, v', n⟩ := e
  simp only [inEdges, Dict.getD, List.mem_flatMap, List.mem_map, EdgeDesc.mk.injEq, Prod.exists]
  rw [← hw.mirror]
  cases h : g.inAdj.get? r with
  | none =>
    simp only [Option.getD_none, List.not_mem_nil, false_and, exists_false, false_iff]
    rintro ⟨rfl, h'⟩
    simp [lk, h] at h'
  | some vs =>
    simp only [Option.getD_some]
    constructor
    · rintro ⟨u', s, h2, n', h3, rfl, rfl, rfl⟩
      have b := Dict.get?_of_mem (hw.inn.inner _ _ h) h2
      simp [lk, h, b, h3]
    · rintro ⟨rfl, h'⟩
      obtain ⟨vs', s, a, b, c, -⟩ := get?_some_of_lk h'
      rw [h] at a
      simp at a; subst a
      exact ⟨u, s, Dict.mem_of_get? b, n, c, rfl, rfl, rfl⟩

theorem nodup_inEdges {g : IAutomaton A} (hw : WF g) (v : Nat) : (g.inEdges v).Nodup := by
  unfold inEdges
  cases h : g.inAdj.get? v with
  | none => simp [Dict.getD, h]
  | some us =>
    simp only [Dict.getD, h, Option.getD_some]
    rw [List.nodup_flatMap]
    constructor
    · rintro ⟨u, s⟩ hm
      have b := Dict.get?_of_mem (hw.inn.inner _ _ h) hm
      have := hw.inn.sets v u
      have hs : s.Nodup := by simpa [lk, h, b] using this
      exact hs.map (by intro a b; simp)
    · have : us.Pairwise (fun a b => a.1 ≠ b.1) := by
        have := hw.inn.inner _ _ h
        simpa [Dict.NodupKeys, List.Nodup, List.pairwise_map] using this
      refine this.imp ?_
      intro a b hab
      simp only [Function.onFun, List.disjoint_left, List.mem_map, not_exists, not_and]
      rintro e ⟨n, _, rfl⟩ m _ heq
      simp at heq
      exact hab heq.1.symm

theorem WF_addVertex {g : IAutomaton A} (hw : WF g) : WF g.addVertex.2 := by
  have hf : g.a.lastVertexId ∉ Dict.keys g.inAdj := by rw [hw.keys]; exact fresh hw.out
  refine ⟨AWF_addVertex hw.out, hw.inn.addKey _, ?_, ?_⟩
  · intro u
    show u ∈ Dict.keys (g.inAdj.set _ []) ↔ u ∈ g.a.addVertex.2.vertices
    rw [Dict.mem_keys_set, vertices_addVertex hw.out, List.mem_append, List.mem_singleton, ← hw.keys]
    exact or_comm
  · intro q r a
    show a ∈ lk (g.inAdj.set _ []) r q ↔ g.a.addVertex.2.delta q a = some r
    rw [delta_addVertex hw.out, ← hw.mirror]
    have hnone : Dict.get? g.inAdj g.a.lastVertexId = none := (Dict.get?_eq_none_iff _ _).2 hf
    by_cases h : g.a.lastVertexId = r
    · subst h
      have e1 : Dict.get? (g.inAdj.set g.a.lastVertexId []) g.a.lastVertexId = some [] := by
        simp [Dict.get?_set]
      rw [lk_eq e1, lk_of_none hnone]
      rfl
    · rw [show lk (g.inAdj.set g.a.lastVertexId []) r q = lk g.inAdj r q from by
        simp [lk, Dict.get?_set, h]]

theorem addEdge_WF {g g' : IAutomaton A} (hw : WF g) {q r : Nat} {a : A} {e b}
    (h0 : g.a.delta q a ≠ some 0) (h : g.addEdge q r a = .ok (e, b, g')) : WF g' := by
  unfold addEdge at h
  by_cases hq : q ∈ g.a.vertices
  · rcases hd : g.a.delta q a with _ | _ | k
    · rw [addEdge_of_free (.inl hd) hq] at h
      simp only [bind, Except.bind, if_true] at h
      cases hr : g.inAdj.get? r with
      | none => simp [Dict.getE, hr] at h
      | some ins =>
        rw [Dict.getE_of_get? hr] at h
        simp only at h
        have hk : ∀ s : List A, ∀ u, u ∈ Dict.keys (g.inAdj.set r (ins.set q s)) ↔ u ∈ g.a.vertices := by
          intro s u
          rw [Dict.keys_set_of_mem _ _ _ ((Dict.mem_keys_iff _ _).2 ⟨_, hr⟩), hw.keys]
        have key : ∀ s : List A, s.Nodup → (∀ x, x ∈ s ↔ x = a ∨ x ∈ lk g.inAdj r q) →
            WF ⟨g.a.setDelta q r a, g.inAdj.set r (ins.set q s)⟩ := by
          intro s hs hm
          refine ⟨AWF_setDelta hw.out r a hq, hw.inn.set hr q hs, ?_, ?_⟩
          · intro u
            rw [hk, vertices_setDelta r a hq]
          · intro q' r' a'
            show a' ∈ lk (g.inAdj.set r (ins.set q s)) r' q' ↔ _
            rw [lk_set hr, delta_setDelta]
            by_cases h1 : r = r' ∧ q = q'
            · obtain ⟨rfl, rfl⟩ := h1
              simp only [and_self, if_true, true_and, hm, hw.mirror]
              by_cases h2 : a = a'
              · subst h2; simp
              · rw [if_neg h2]; simp [Ne.symm h2]
            · rw [if_neg h1, hw.mirror]
              by_cases h2 : q = q' ∧ a = a'
              · obtain ⟨rfl, rfl⟩ := h2
                rw [hd]
                simp at h1 ⊢; exact h1
              · rw [if_neg h2]
        cases hs : ins.get? q with
        | none =>
          rw [hs] at h; cases h
          apply key
          · simp
          · intro x; rw [lk_eq hr, hs]; simp
        | some s =>
          rw [hs] at h; cases h
          have hn := hw.inn.sets r q
          rw [lk_eq hr, hs] at hn
          apply key
          · exact nodup_setAdd hn a
          · intro x; rw [lk_eq hr, hs]
            simp only [Option.getD_some, mem_setAdd]; exact or_comm
    · exact absurd hd h0
    · rw [addEdge_of_succ hd] at h; cases h; exact hw
  · rw [addEdge_of_not_mem hq] at h; cases h

theorem removeEdge_WF {g : IAutomaton A} (hw : WF g) {e : EdgeDesc A} (he : e ∈ g.a.edges) :
    ∃ g', g.removeEdge e = .ok g' ∧ WF g' ∧ g'.a = g.a.removeEdge e := by
  obtain ⟨q, r, a⟩ := e
  obtain ⟨h1, h2, h3, h4, h5, h6⟩ := Automaton.removeEdge_spec hw.out ⟨q, r, a⟩
  rw [mem_edges hw.out] at he
  simp only at he h6
  have hl := (hw.mirror q r a).2 he
  obtain ⟨ins, s, hr, hs, ha, -⟩ := get?_some_of_lk hl
  have hn := hw.inn.sets r q
  rw [lk_eq hr, hs, Option.getD_some] at hn
  have hlk : lk g.inAdj r q = s := by rw [lk_eq hr, hs]; rfl
  have hmem : r ∈ Dict.keys g.inAdj := (Dict.mem_keys_iff _ _).2 ⟨_, hr⟩
  have key : ∀ inAdj', AdjWF inAdj' → Dict.keys inAdj' = Dict.keys g.inAdj →
      (∀ r' q' a', a' ∈ lk inAdj' r' q' ↔ a' ∈ (if r = r' ∧ q = q' then setDiscard s a else lk g.inAdj r' q')) →
      WF ⟨g.a.removeEdge ⟨q, r, a⟩, inAdj'⟩ := by
    intro inAdj' hw' hk hm
    refine ⟨h1, hw', ?_, ?_⟩
    · intro u
      show u ∈ Dict.keys inAdj' ↔ u ∈ (g.a.removeEdge ⟨q, r, a⟩).vertices
      rw [hk, hw.keys, h2]
    · intro q' r' a'
      show a' ∈ lk inAdj' r' q' ↔ _
      rw [hm, h6]
      by_cases h : r = r' ∧ q = q'
      · obtain ⟨rfl, rfl⟩ := h
        rw [if_pos ⟨rfl, rfl⟩, mem_setDiscard, ← hlk, hw.mirror]
        by_cases h' : a = a'
        · subst h'; simp
        · rw [if_neg (by simp [h'])]; simp [Ne.symm h']
      · rw [if_neg h, hw.mirror]
        by_cases h' : q = q' ∧ a = a'
        · obtain ⟨rfl, rfl⟩ := h'
          rw [he]; simp at h ⊢; exact h
        · rw [if_neg h']
  unfold removeEdge
  simp only [Dict.getE_of_get? hr, Dict.getE_of_get? hs, bind, Except.bind, if_pos ha]
  split
  · rename_i hemp
    refine ⟨_, rfl, ?_, rfl⟩
    apply key
    · exact hw.inn.setErase hr q
    · exact Dict.keys_set_of_mem _ _ _ hmem
    · intro r' q' a'
      rw [lk_erase hw.inn hr, hemp]
  · refine ⟨_, rfl, ?_, rfl⟩
    apply key
    · exact hw.inn.set hr q (nodup_setDiscard hn a)
    · exact Dict.keys_set_of_mem _ _ _ hmem
    · intro r' q' a'
      rw [lk_set hr]

theorem delTransition_eq {g : Automaton A} {p r : Nat} {a : A} (h : g.delta p a = some r) :
    delTransition g.adj p a = .ok (g.removeEdge ⟨p, r, a⟩).adj := by
  rw [delta_eq] at h
  cases hp : Dict.get? g.adj p with
  | none => rw [hp] at h; cases h
  | some d =>
    rw [hp] at h
    have hc : d.contains a = true := (Dict.contains_iff _ _).2 ⟨r, h⟩
    simp [delTransition, Dict.getE_of_get? hp, Dict.delE, hc, bind, Except.bind, Automaton.removeEdge, hp]

theorem foldlM_delTransition {g : Automaton A} (hg : AWF g) {u : Nat} (es : List (EdgeDesc A))
    (hnd : es.Nodup) (hes : ∀ e ∈ es, e.target = u ∧ g.delta e.source e.distinguisher = some u) :
    es.foldlM (fun adj e => delTransition adj e.source e.distinguisher) g.adj =
      .ok (es.foldl Automaton.removeEdge g).adj := by
  induction es generalizing g with
  | nil => rfl
  | cons e es ih =>
    obtain ⟨q, r, a⟩ := e
    obtain ⟨h1, h2⟩ := hes ⟨q, r, a⟩ (by simp)
    simp only at h1 h2
    subst h1
    rw [List.foldlM_cons]
    simp only
    rw [delTransition_eq h2]
    obtain ⟨i1, _, _, _, _, i6⟩ := Automaton.removeEdge_spec hg ⟨q, r, a⟩
    rw [List.nodup_cons] at hnd
    refine ih i1 hnd.2 ?_
    intro e he
    have he' := hes e (by simp [he])
    refine ⟨he'.1, ?_⟩
    rw [i6, if_neg]
    · exact he'.2
    · rintro ⟨h1, h2⟩
      apply hnd.1
      have : e = ⟨q, r, a⟩ := by
        cases e; simp at h1 h2 he'; simp [h1, h2, he'.1]
      rw [← this]; exact he

theorem foldlM_dropIn (q : Nat) (es : List (EdgeDesc A)) {inAdj : Dict Nat (Dict Nat (List A))}
    (hw : AdjWF inAdj) (hes : ∀ e ∈ es, e.target ∈ Dict.keys inAdj) :
    ∃ inAdj', es.foldlM (dropIn q) inAdj = .ok inAdj' ∧ AdjWF inAdj' ∧
      Dict.keys inAdj' = Dict.keys inAdj ∧
      ∀ x y, lk inAdj' x y = if y = q ∧ ∃ e ∈ es, e.target = x then [] else lk inAdj x y := by
  induction es generalizing inAdj with
  | nil => exact ⟨inAdj, rfl, hw, rfl, by simp⟩
  | cons e es ih =>
    obtain ⟨ins, hin⟩ := (Dict.mem_keys_iff _ _).1 (hes e (by simp))
    have hstep : ∃ in1, dropIn q inAdj e = .ok in1 ∧ AdjWF in1 ∧ Dict.keys in1 = Dict.keys inAdj ∧
        ∀ x y, lk in1 x y = if y = q ∧ e.target = x then [] else lk inAdj x y := by
      unfold dropIn
      rw [Dict.getE_of_get? hin]
      simp only [bind, Except.bind]
      by_cases hc : ins.contains q = true
      · rw [if_pos hc]
        refine ⟨_, rfl, hw.setErase hin q, Dict.keys_set_of_mem _ _ _ (hes e (by simp)), ?_⟩
        intro x y
        rw [lk_erase hw hin]
        by_cases h : e.target = x ∧ q = y
        · rw [if_pos h, if_pos ⟨h.2.symm, h.1⟩]
        · rw [if_neg h, if_neg (fun h' => h ⟨h'.2, h'.1.symm⟩)]
      · rw [if_neg hc]
        refine ⟨_, rfl, hw, rfl, ?_⟩
        intro x y
        split
        · rename_i h
          obtain ⟨rfl, rfl⟩ := h
          rw [lk_eq hin]
          rw [Dict.contains_iff_mem, ← Dict.get?_eq_none_iff] at hc
          rw [hc]; rfl
        · rfl
    obtain ⟨in1, h1, h2, h3, h4⟩ := hstep
    obtain ⟨in2, i1, i2, i3, i4⟩ := ih h2 (fun e' he' => by rw [h3]; exact hes e' (by simp [he']))
    refine ⟨in2, ?_, i2, i3.trans h3, ?_⟩
    · rw [List.foldlM_cons, h1]; exact i1
    · intro x y
      rw [i4, h4]
      by_cases hy : y = q
      · subst hy
        by_cases hx : ∃ e' ∈ es, e'.target = x
        · rw [if_pos ⟨rfl, hx⟩, if_pos]
          obtain ⟨e', h⟩ := hx; exact ⟨rfl, e', by simp [h.1], h.2⟩
        · rw [if_neg (by simp at hx ⊢; exact hx)]
          by_cases he : e.target = x
          · rw [if_pos ⟨rfl, he⟩, if_pos ⟨rfl, e, by simp, he⟩]
          · rw [if_neg (by simp [he]), if_neg]
            rintro ⟨_, e', hm, ht⟩
            rcases List.mem_cons.1 hm with rfl | hm
            · exact he ht
            · exact hx ⟨e', hm, ht⟩
      · simp [hy]

theorem removeVertex_WF {g : IAutomaton A} (hw : WF g) {u : Nat} (hu : u ∈ g.a.vertices) :
    ∃ g', g.removeVertex u = .ok g' ∧ WF g' ∧ g'.a.vertices = g.a.vertices.filter (· ≠ u) ∧
    g'.a.lastVertexId = g.a.lastVertexId ∧ g'.a.q0 = g.a.q0 ∧ g'.a.final = g.a.final ∧
    ∀ q a, g'.a.delta q a = if q = u ∨ g.a.delta q a = some u then none else g.a.delta q a := by
  unfold removeVertex
  have hin : u ∈ Dict.keys g.inAdj := (hw.keys u).2 hu
  rw [if_pos ((Dict.contains_iff_mem _ _).2 hin)]
  obtain ⟨i1, i2, i3, i4, i5, i6⟩ := foldl_removeEdge_spec hw.out (g.inEdges u)
  have hfold := foldlM_delTransition hw.out (g.inEdges u) (nodup_inEdges hw u) (fun e he => by
    rw [mem_inEdges hw] at he
    exact ⟨he.1, by rw [he.2, he.1]⟩)
  generalize hg1 : (g.inEdges u).foldl Automaton.removeEdge g.a = g1 at *
  have hdel : g.inAdj.delE u = .ok (g.inAdj.erase u) := (Dict.delE_ok_iff _ _ _).2 ⟨hin, rfl⟩
  have hg1eq : ({ g.a with adj := g1.adj } : Automaton A) = g1 := by
    cases g1; simp only at i3 i4 i5; simp [← i3, ← i4, ← i5]
  have hd1 : ∀ q a, g1.delta q a = if g.a.delta q a = some u then none else g.a.delta q a := by
    intro q a
    rw [i6]
    by_cases h : g.a.delta q a = some u
    · rw [if_pos h, if_pos]
      exact ⟨⟨q, u, a⟩, (mem_inEdges hw _ _).2 ⟨rfl, h⟩, rfl, rfl⟩
    · rw [if_neg h, if_neg]
      rintro ⟨e, he, rfl, rfl⟩
      rw [mem_inEdges hw] at he
      exact h (by rw [he.2, he.1])
  have hu1 : u ∈ Dict.keys g1.adj := by
    have : Dict.keys g1.adj = Dict.keys g.a.adj := i2
    rw [this]; exact hu
  obtain ⟨inAdj', j1, j2, j3, j4⟩ := foldlM_dropIn u (g1.outEdges u) (hw.inn.erase u) (fun e he => by
    rw [mem_outEdges i1] at he
    have hd := he.2
    rw [hd1] at hd
    split at hd
    · cases hd
    · rename_i hne
      rw [Dict.keys_erase _ hw.inn.outer, List.mem_filter]
      obtain ⟨ins, s, h1, _⟩ := get?_some_of_lk ((hw.mirror _ _ _).2 hd)
      refine ⟨(Dict.mem_keys_iff _ _).2 ⟨_, h1⟩, ?_⟩
      rw [hd] at hne
      simpa using hne)
  have hdel1 : g1.adj.delE u = .ok (g1.adj.erase u) := (Dict.delE_ok_iff _ _ _).2 ⟨hu1, rfl⟩
  simp only [hfold, hdel, bind, Except.bind, hg1eq]
  rw [if_pos ((Dict.contains_iff_mem _ _).2 hu1)]
  simp only [j1, hdel1]
  have hd2 : ∀ q a, ({ g.a with adj := g1.adj.erase u } : Automaton A).delta q a =
      if q = u ∨ g.a.delta q a = some u then none else g.a.delta q a := by
    intro q a
    have e1 : ({ g.a with adj := g1.adj.erase u } : Automaton A).delta q a =
        if u = q then none else g1.delta q a := by
      simp only [delta_eq, Dict.get?_erase i1.outer]
      by_cases h : u = q <;> simp [h]
    rw [e1, hd1]
    by_cases h : q = u
    · simp [h]
    · simp [h, Ne.symm h]
  have hv2 : Dict.keys (g1.adj.erase u) = g.a.vertices.filter (· ≠ u) := by
    rw [Dict.keys_erase _ i1.outer, show Dict.keys g1.adj = Dict.keys g.a.adj from i2]; rfl
  refine ⟨_, rfl, ⟨⟨Dict.nodupKeys_erase i1.outer _, ?_, ?_⟩, j2, ?_, ?_⟩, hv2, rfl, rfl, rfl, hd2⟩
  · intro q d h
    simp only [Dict.get?_erase i1.outer] at h
    split at h
    · cases h
    · exact i1.inner _ _ h
  · intro q h
    simp only [vertices] at h
    rw [hv2, List.mem_filter] at h
    exact hw.out.lt _ h.1
  · intro v
    show v ∈ Dict.keys inAdj' ↔ v ∈ Dict.keys (g1.adj.erase u)
    rw [j3, hv2, Dict.keys_erase _ hw.inn.outer, List.mem_filter, List.mem_filter, hw.keys]
  · intro q r a
    show a ∈ lk inAdj' r q ↔ _
    rw [hd2, j4, lk_eraseKey hw.inn]
    by_cases hq : q = u
    · rw [if_pos (Or.inl hq)]
      simp only [reduceCtorEq, iff_false]
      split
      · simp
      · rename_i hno
        split
        · simp
        · rename_i hr
          rw [hw.mirror]
          intro hd
          apply hno
          refine ⟨hq, ⟨u, r, a⟩, ?_, rfl⟩
          rw [mem_outEdges i1]
          refine ⟨rfl, ?_⟩
          subst hq
          simp only
          rw [hd1, hd, if_neg]
          simpa [eq_comm] using hr
    · rw [if_neg (by simp [hq])]
      by_cases hr : u = r
      · rw [if_pos hr]
        subst hr
        simp only [List.not_mem_nil, false_iff]
        by_cases hd : g.a.delta q a = some u
        · simp [hd]
        · simp [hq, hd]
      · rw [if_neg hr, hw.mirror]
        by_cases hd : g.a.delta q a = some u
        · rw [hd]; simp [hr]
        · simp [hq, hd]

theorem removeVertex_absent {g : IAutomaton A} (hw : WF g) {u : Nat} (hu : u ∉ g.a.vertices) :
    g.removeVertex u = .ok g := by
  unfold removeVertex
  have h1 : ¬ g.inAdj.contains u = true := by rw [Dict.contains_iff_mem, hw.keys]; exact hu
  have h2 : ¬ g.a.adj.contains u = true := by rw [Dict.contains_iff_mem]; exact hu
  rw [if_neg h1]
  simp only [bind, Except.bind]
  rw [if_neg h2]

/-- `remove_vertex` does not look at the counter. -/
theorem removeVertex_last (g : IAutomaton A) (n u : Nat) :
    removeVertex ⟨{ g.a with lastVertexId := n }, g.inAdj⟩ u =
      (removeVertex g u).map fun g' => ⟨{ g'.a with lastVertexId := n }, g'.inAdj⟩ := by
  have aux : ∀ (adj : Dict Nat (Dict A Nat)) (inAdj : Dict Nat (Dict Nat (List A))),
      (if adj.contains u then do
        let inAdj ← (Automaton.outEdges { g.a with adj := adj, lastVertexId := n } u).foldlM (dropIn u) inAdj
        let adj ← adj.delE u
        .ok ⟨{ g.a with adj := adj, lastVertexId := n }, inAdj⟩
      else .ok ⟨{ g.a with adj := adj, lastVertexId := n }, inAdj⟩ : Except PyErr (IAutomaton A)) =
      Except.map (fun g' : IAutomaton A => ⟨{ g'.a with lastVertexId := n }, g'.inAdj⟩) (if adj.contains u then do
        let inAdj ← (Automaton.outEdges { g.a with adj := adj } u).foldlM (dropIn u) inAdj
        let adj ← adj.delE u
        .ok ⟨{ g.a with adj := adj }, inAdj⟩
      else .ok ⟨{ g.a with adj := adj }, inAdj⟩ : Except PyErr (IAutomaton A)) := by
    intro adj inAdj
    by_cases hc : adj.contains u = true
    · rw [if_pos hc, if_pos hc]
      rw [show Automaton.outEdges { g.a with adj := adj, lastVertexId := n } u = Automaton.outEdges { g.a with adj := adj } u from rfl]
      cases (Automaton.outEdges { g.a with adj := adj } u).foldlM (dropIn u) inAdj with
      | error e => rfl
      | ok i =>
        simp only [bind, Except.bind]
        cases adj.delE u <;> rfl
    · rw [if_neg hc, if_neg hc]; rfl
  unfold removeVertex
  simp only [show inEdges ⟨{ g.a with lastVertexId := n }, g.inAdj⟩ u = g.inEdges u from rfl]
  by_cases hc : g.inAdj.contains u = true
  · rw [if_pos hc, if_pos hc]
    cases h1 : (g.inEdges u).foldlM (fun adj e => delTransition adj e.source e.distinguisher) g.a.adj with
    | error e => rfl
    | ok adj =>
      simp only [bind, Except.bind]
      cases h2 : g.inAdj.delE u with
      | error e => rfl
      | ok i => exact aux adj i
  · rw [if_neg hc, if_neg hc]
    exact aux g.a.adj g.inAdj

theorem removeVertices_last (n : Nat) : ∀ (us : List Nat) (g : IAutomaton A),
    us.foldlM removeVertex ⟨{ g.a with lastVertexId := n }, g.inAdj⟩ =
      (us.foldlM removeVertex g).map fun g' => ⟨{ g'.a with lastVertexId := n }, g'.inAdj⟩
  | [], _ => rfl
  | u :: us, g => by
    rw [List.foldlM_cons, List.foldlM_cons, removeVertex_last]
    cases g.removeVertex u with
    | error e => rfl
    | ok g1 => exact removeVertices_last n us g1

theorem removeVertices_spec : ∀ (us : List Nat) {g : IAutomaton A}, WF g → us.Nodup → (∀ u ∈ us, u ∈ g.a.vertices) →
    ∃ g', us.foldlM removeVertex g = .ok g' ∧ WF g' ∧ g'.a.q0 = g.a.q0 ∧ g'.a.final = g.a.final ∧ ∀ u, u ∈ g'.a.vertices ↔ u ∈ g.a.vertices ∧ u ∉ us
  | [], g, hg, _, _ => ⟨g, rfl, hg, rfl, rfl, by simp⟩
  | u :: us, g, hg, hnd, h => by
    rw [List.nodup_cons] at hnd
    obtain ⟨g1, a1, a2, a3, a4, a5, a6, a7⟩ := removeVertex_WF hg (h u (by simp))
    have hm : ∀ x, x ∈ g1.a.vertices ↔ x ∈ g.a.vertices ∧ x ≠ u := by
      intro x; rw [a3]; simp
    obtain ⟨g2, b1, b2, b3, b4, b5⟩ := removeVertices_spec us a2 hnd.2 (fun x hx => (hm x).mpr ⟨h x (by simp [hx]), fun e => hnd.1 (e ▸ hx)⟩)
    refine ⟨g2, ?_, b2, b3.trans a5, b4.trans a6, fun x => ?_⟩
    · rw [List.foldlM_cons, a1]; exact b1
    · rw [b5, hm]; simp [and_assoc]

/-- `clear` removes every state and transition and resets the counter; it keeps the initial state and the final flags. -/
theorem clear_spec {g : IAutomaton A} (hg : WF g) : g.clear = .ok ⟨⟨0, [], g.a.q0, g.a.final⟩, []⟩ := by
  obtain ⟨g1, a1, a2, a3, a4, a5⟩ := removeVertices_spec g.a.vertices hg hg.out.outer (fun _ h => h)
  unfold clear
  show g.a.vertices.foldlM removeVertex ⟨{ g.a with lastVertexId := 0 }, g.inAdj⟩ = _
  rw [removeVertices_last, a1]
  have hk : g1.a.vertices = [] := List.eq_nil_iff_forall_not_mem.mpr fun x hx => ((a5 x).mp hx).2 ((a5 x).mp hx).1
  have hi : Dict.keys g1.inAdj = [] := List.eq_nil_iff_forall_not_mem.mpr fun x hx => by
    have := (a2.keys x).mp hx; rw [hk] at this; cases this
  obtain ⟨⟨n, adj, q0, f⟩, i⟩ := g1
  unfold Dict.keys at hi
  unfold Automaton.vertices Dict.keys at hk
  have hk' := List.map_eq_nil_iff.mp hk
  have hi' := List.map_eq_nil_iff.mp hi
  simp only at hk' hi' a3 a4
  subst hk' hi' a3 a4
  rfl

/-- The calls covered by the partial theorem on `IncidenceAutomaton`. -/
def Safe (g : IAutomaton A) : AOp A → Prop
  | .addEdge q _ a => g.a.delta q a ≠ some 0
  | .removeEdge e => e ∈ g.a.edges
  | _ => True

theorem exec_WF {g g' : IAutomaton A} {op : AOp A} (hw : WF g) (hs : Safe g op)
    (h : g.exec op = .ok g') : WF g' := by
  cases op with
  | addVertex => cases h; exact WF_addVertex hw
  | addEdge q r a =>
    simp only [exec] at h
    cases he : g.addEdge q r a with
    | error e => rw [he] at h; cases h
    | ok x =>
      obtain ⟨e, b, g1⟩ := x
      rw [he] at h; cases h
      exact addEdge_WF hw hs he
  | removeEdge e =>
    obtain ⟨g1, h1, h2, _⟩ := removeEdge_WF hw hs
    simp only [exec] at h
    rw [h1] at h; cases h; exact h2
  | removeVertex u =>
    simp only [exec] at h
    by_cases hu : u ∈ g.a.vertices
    · obtain ⟨g1, h1, h2, _⟩ := removeVertex_WF hw hu
      rw [h1] at h; cases h; exact h2
    · rw [removeVertex_absent hw hu] at h; cases h; exact hw
  | setInitial q b =>
    cases h
    have : (g.a.setInitial q b).adj = g.a.adj ∧ (g.a.setInitial q b).lastVertexId = g.a.lastVertexId := by
      unfold Automaton.setInitial; split
      · exact ⟨rfl, rfl⟩
      · split <;> exact ⟨rfl, rfl⟩
    generalize g.a.setInitial q b = g2 at *
    obtain ⟨n, adj, q0, f⟩ := g2
    simp only at this
    obtain ⟨rfl, rfl⟩ := this
    exact ⟨⟨hw.out.1, hw.out.2, hw.out.3⟩, hw.inn, hw.keys, hw.mirror⟩
  | setFinal q b => cases h; exact ⟨⟨hw.out.1, hw.out.2, hw.out.3⟩, hw.inn, hw.keys, hw.mirror⟩
  | clear =>
    simp only [exec] at h
    rw [clear_spec hw] at h; cases h
    exact ⟨⟨Dict.nodupKeys_nil, fun _ _ h => (by cases h), fun _ h => (by cases h)⟩, adjWF_nil, by simp [Automaton.vertices, Dict.keys], by
      simp [lk, Automaton.delta, Dict.getD]⟩

end PyBGL.IAutomaton
