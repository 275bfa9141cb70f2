import Verif.Proofs.IncidenceAutomaton

/-!
# In-edges of an `IncidenceAutomaton` after any history
-/

namespace PyBGL.IAutomaton

open Automaton Graph

variable {A : Type} [DecidableEq A]

/-- What holds after every history: the in-edges contain the transitions. -/
structure Half (g : IAutomaton A) : Prop where
  out : AWF g.a
  inn : AdjWF g.inAdj
  keys : ∀ u, u ∈ Dict.keys g.inAdj ↔ u ∈ g.a.vertices
  sub : ∀ q r a, g.a.delta q a = some r → a ∈ lk g.inAdj r q

theorem Half_empty : Half (empty : IAutomaton A) := ⟨WF_empty.out, WF_empty.inn, WF_empty.keys, fun q r a => (WF_empty.mirror q r a).2⟩

theorem Half.tgt {g : IAutomaton A} (hw : Half g) {q r : Nat} {a : A} (h : g.a.delta q a = some r) : r ∈ g.a.vertices := by
  obtain ⟨vs, s, h1, _⟩ := get?_some_of_lk (hw.sub _ _ _ h)
  exact (hw.keys r).1 ((Dict.mem_keys_iff _ _).2 ⟨_, h1⟩)

omit [DecidableEq A] in
theorem half_mem_inEdges {g : IAutomaton A} (hw : AdjWF g.inAdj) (r : Nat) (e : EdgeDesc A) :
    e ∈ g.inEdges r ↔ e.target = r ∧ e.distinguisher ∈ lk g.inAdj e.target e.source := by
  obtain ⟨u, v', n⟩ := e
  simp only [inEdges, Dict.getD, List.mem_flatMap, List.mem_map, EdgeDesc.mk.injEq, Prod.exists]
  cases h : g.inAdj.get? r with
  | none =>
    simp only [Option.getD_none, List.not_mem_nil, false_and, exists_false, false_iff]
    rintro ⟨rfl, h'⟩
    simp [lk, h] at h'
  | some vs =>
    simp only [Option.getD_some]
    constructor
    · rintro ⟨u', s, h2, n', h3, rfl, rfl, rfl⟩
      have b := Dict.get?_of_mem (hw.inner _ _ h) h2
      simp [lk, h, b, h3]
    · rintro ⟨rfl, h'⟩
      obtain ⟨vs', s, a, b, c, -⟩ := get?_some_of_lk h'
      rw [h] at a
      simp at a; subst a
      exact ⟨u, s, Dict.mem_of_get? b, n, c, rfl, rfl, rfl⟩

omit [DecidableEq A] in
theorem half_nodup_inEdges {g : IAutomaton A} (hw : AdjWF g.inAdj) (v : Nat) : (g.inEdges v).Nodup := by
  unfold inEdges
  cases h : g.inAdj.get? v with
  | none => simp [Dict.getD, h]
  | some us =>
    simp only [Dict.getD, h, Option.getD_some]
    rw [List.nodup_flatMap]
    constructor
    · rintro ⟨u, s⟩ hm
      have b := Dict.get?_of_mem (hw.inner _ _ h) hm
      have := hw.sets v u
      have hs : s.Nodup := by simpa [lk, h, b] using this
      exact hs.map (by intro a b; simp)
    · have : us.Pairwise (fun a b => a.1 ≠ b.1) := by
        have := hw.inner _ _ h
        simpa [Dict.NodupKeys, List.Nodup, List.pairwise_map] using this
      refine this.imp ?_
      intro a b hab
      simp only [Function.onFun, List.disjoint_left, List.mem_map, not_exists, not_and]
      rintro e ⟨n, _, rfl⟩ m _ heq
      simp at heq
      exact hab heq.1.symm

theorem Half_addVertex {g : IAutomaton A} (hw : Half g) : Half g.addVertex.2 ∧ (∀ q a, g.addVertex.2.a.delta q a = g.a.delta q a) ∧
    ∀ r q, lk g.addVertex.2.inAdj r q = lk g.inAdj r q := by
  have hf : g.a.lastVertexId ∉ Dict.keys g.inAdj := by rw [hw.keys]; exact fresh hw.out
  have hl : ∀ r q, lk g.addVertex.2.inAdj r q = lk g.inAdj r q := by
    intro r q
    show lk (g.inAdj.set g.a.lastVertexId []) r q = lk g.inAdj r q
    by_cases h : g.a.lastVertexId = r
    · subst h
      rw [lk_of_none ((Dict.get?_eq_none_iff _ _).2 hf)]
      simp [lk, Dict.get?]
    · simp [lk, Dict.get?_set, h]
  have hd : ∀ q a, g.addVertex.2.a.delta q a = g.a.delta q a := fun q a => delta_addVertex hw.out q a
  refine ⟨⟨AWF_addVertex hw.out, hw.inn.addKey _, ?_, ?_⟩, hd, hl⟩
  · intro u
    show u ∈ Dict.keys (g.inAdj.set _ []) ↔ u ∈ g.a.addVertex.2.vertices
    rw [vertices_addVertex hw.out, Dict.keys_set_of_not_mem _ _ _ hf]
    simp [hw.keys]
  · intro q r a h
    rw [hd] at h
    rw [hl]
    exact hw.sub _ _ _ h

theorem Half_addEdge {g g' : IAutomaton A} (hw : Half g) {q r : Nat} {a : A} {e b}
    (h : g.addEdge q r a = .ok (e, b, g')) : Half g' ∧
      ((∃ k, g.a.delta q a = some (k + 1)) → g' = g) ∧
      ((¬ ∃ k, g.a.delta q a = some (k + 1)) → (∀ q' a', g'.a.delta q' a' = if q = q' ∧ a = a' then some r else g.a.delta q' a') ∧
        ∀ r' q' a', a' ∈ lk g'.inAdj r' q' ↔ a' ∈ lk g.inAdj r' q' ∨ (q' = q ∧ r' = r ∧ a' = a)) := by
  unfold addEdge at h
  by_cases hq : q ∈ g.a.vertices
  · by_cases hk : ∃ k, g.a.delta q a = some (k + 1)
    · obtain ⟨k, hd⟩ := hk
      rw [addEdge_of_succ hd] at h; cases h; exact ⟨hw, fun _ => rfl, fun hn => absurd ⟨k, hd⟩ hn⟩
    · have hfree : g.a.delta q a = none ∨ g.a.delta q a = some 0 := by
        rcases hd : g.a.delta q a with _ | _ | k
        · exact .inl rfl
        · exact .inr rfl
        · exact absurd ⟨k, hd⟩ hk
      rw [addEdge_of_free hfree hq] at h
      simp only [bind, Except.bind, if_true] at h
      cases hr : g.inAdj.get? r with
      | none => simp [Dict.getE, hr] at h
      | some ins =>
        rw [Dict.getE_of_get? hr] at h
        simp only at h
        have hkk : ∀ s : List A, ∀ u, u ∈ Dict.keys (g.inAdj.set r (ins.set q s)) ↔ u ∈ g.a.vertices := by
          intro s u
          rw [Dict.keys_set_of_mem _ _ _ ((Dict.mem_keys_iff _ _).2 ⟨_, hr⟩), hw.keys]
        have key : ∀ s : List A, s.Nodup → (∀ x, x ∈ s ↔ x = a ∨ x ∈ lk g.inAdj r q) →
            g' = ⟨g.a.setDelta q r a, g.inAdj.set r (ins.set q s)⟩ → Half g' ∧
      ((∃ k, g.a.delta q a = some (k + 1)) → g' = g) ∧
      ((¬ ∃ k, g.a.delta q a = some (k + 1)) → (∀ q' a', g'.a.delta q' a' = if q = q' ∧ a = a' then some r else g.a.delta q' a') ∧
        ∀ r' q' a', a' ∈ lk g'.inAdj r' q' ↔ a' ∈ lk g.inAdj r' q' ∨ (q' = q ∧ r' = r ∧ a' = a)) := by
          rintro s hs hm rfl
          have hl : ∀ r' q' a', a' ∈ lk (g.inAdj.set r (ins.set q s)) r' q' ↔ a' ∈ lk g.inAdj r' q' ∨ (q' = q ∧ r' = r ∧ a' = a) := by
            intro r' q' a'
            rw [lk_set hr]
            by_cases h1 : r = r' ∧ q = q'
            · obtain ⟨rfl, rfl⟩ := h1
              rw [if_pos ⟨rfl, rfl⟩, hm]
              simp [or_comm]
            · rw [if_neg h1]
              constructor
              · exact .inl
              · rintro (h2 | ⟨h2, h3, _⟩)
                · exact h2
                · exact absurd ⟨h3.symm, h2.symm⟩ h1
          refine ⟨⟨AWF_setDelta hw.out r a hq, hw.inn.set hr q hs, ?_, ?_⟩, fun h => absurd h hk, fun _ => ⟨?_, hl⟩⟩
          · intro u
            rw [hkk, vertices_setDelta r a hq]
          · intro q' r' a' h'
            simp only [delta_setDelta] at h'
            rw [hl]
            split at h'
            · rename_i h2
              cases h'
              exact .inr ⟨h2.1.symm, rfl, h2.2.symm⟩
            · exact .inl (hw.sub _ _ _ h')
          · intro q' a'
            exact delta_setDelta _ _ _ _ _ _
        cases hs : ins.get? q with
        | none =>
          rw [hs] at h; cases h
          apply key _ _ _ rfl
          · simp
          · intro x; rw [lk_eq hr, hs]; simp
        | some s =>
          rw [hs] at h; cases h
          have hn := hw.inn.sets r q
          rw [lk_eq hr, hs] at hn
          apply key _ _ _ rfl
          · exact nodup_setAdd hn a
          · intro x; rw [lk_eq hr, hs]
            simp only [Option.getD_some, mem_setAdd]; exact or_comm
  · rw [addEdge_of_not_mem hq] at h; cases h

theorem Half_removeEdge {g g' : IAutomaton A} (hw : Half g) {q r : Nat} {a : A} (h : g.removeEdge ⟨q, r, a⟩ = .ok g') :
    Half g' ∧ (∀ q' a', g'.a.delta q' a' = if q = q' ∧ a = a' then none else g.a.delta q' a') ∧
      ∀ r' q' a', a' ∈ lk g'.inAdj r' q' ↔ a' ∈ lk g.inAdj r' q' ∧ ¬ (q' = q ∧ r' = r ∧ a' = a) := by
  obtain ⟨h1, h2, h3, h4, h5, h6⟩ := Automaton.removeEdge_spec hw.out ⟨q, r, a⟩
  simp only at h6
  unfold removeEdge at h
  cases hr : g.inAdj.get? r with
  | none => simp [Dict.getE, hr, bind, Except.bind] at h
  | some ins =>
    cases hs : ins.get? q with
    | none => simp [Dict.getE, hr, hs, bind, Except.bind] at h
    | some s =>
      have hn := hw.inn.sets r q
      rw [lk_eq hr, hs, Option.getD_some] at hn
      have hlk : lk g.inAdj r q = s := by rw [lk_eq hr, hs]; rfl
      have hmem : r ∈ Dict.keys g.inAdj := (Dict.mem_keys_iff _ _).2 ⟨_, hr⟩
      simp only [Dict.getE_of_get? hr, Dict.getE_of_get? hs, bind, Except.bind] at h
      have key : ∀ inAdj', AdjWF inAdj' → Dict.keys inAdj' = Dict.keys g.inAdj →
          (∀ r' q' a', a' ∈ lk inAdj' r' q' ↔ a' ∈ (if r = r' ∧ q = q' then setDiscard s a else lk g.inAdj r' q')) →
          g' = ⟨g.a.removeEdge ⟨q, r, a⟩, inAdj'⟩ → Half g' ∧
          (∀ q' a', g'.a.delta q' a' = if q = q' ∧ a = a' then none else g.a.delta q' a') ∧
          ∀ r' q' a', a' ∈ lk g'.inAdj r' q' ↔ a' ∈ lk g.inAdj r' q' ∧ ¬ (q' = q ∧ r' = r ∧ a' = a) := by
        rintro inAdj' hw' hk hm rfl
        have hl : ∀ r' q' a', a' ∈ lk inAdj' r' q' ↔ a' ∈ lk g.inAdj r' q' ∧ ¬ (q' = q ∧ r' = r ∧ a' = a) := by
          intro r' q' a'
          rw [hm]
          by_cases h : r = r' ∧ q = q'
          · obtain ⟨rfl, rfl⟩ := h
            rw [if_pos ⟨rfl, rfl⟩, mem_setDiscard, ← hlk]
            simp
          · rw [if_neg h]
            refine ⟨fun h' => ⟨h', fun h2 => h ⟨h2.2.1.symm, h2.1.symm⟩⟩, fun h' => h'.1⟩
        refine ⟨⟨h1, hw', ?_, ?_⟩, h6, hl⟩
        · intro u
          show u ∈ Dict.keys inAdj' ↔ u ∈ (g.a.removeEdge ⟨q, r, a⟩).vertices
          rw [hk, hw.keys, h2]
        · intro q' r' a' h'
          simp only [h6] at h'
          rw [hl]
          split at h'
          · cases h'
          · rename_i h2
            exact ⟨hw.sub _ _ _ h', fun h3 => h2 ⟨h3.1.symm, h3.2.2.symm⟩⟩
      by_cases ha : a ∈ s
      · rw [if_pos ha] at h
        split at h
        · rename_i hemp
          cases h
          apply key _ _ _ _ rfl
          · exact hw.inn.setErase hr q
          · exact Dict.keys_set_of_mem _ _ _ hmem
          · intro r' q' a'
            rw [lk_erase hw.inn hr, hemp]
        · cases h
          apply key _ _ _ _ rfl
          · exact hw.inn.set hr q (nodup_setDiscard hn a)
          · exact Dict.keys_set_of_mem _ _ _ hmem
          · intro r' q' a'
            rw [lk_set hr]
      · rw [if_neg ha] at h
        cases h
        apply key _ hw.inn rfl _ rfl
        intro r' q' a'
        split
        · rename_i h'
          obtain ⟨rfl, rfl⟩ := h'
          rw [mem_setDiscard, hlk]
          exact ⟨fun h' => ⟨h', fun h2 => ha (h2 ▸ h')⟩, fun h' => h'.1⟩
        · rfl

theorem delTransition_none {g : Automaton A} {p : Nat} {a : A} (h : g.delta p a = none) : delTransition g.adj p a = .error .keyError := by
  rw [delta_eq] at h
  cases hp : Dict.get? g.adj p with
  | none => simp [delTransition, Dict.getE, hp, bind, Except.bind]
  | some d =>
    rw [hp] at h
    have hc : ¬ d.contains a = true := by
      rw [Dict.contains_iff]
      rintro ⟨v, hv⟩
      have h' : Dict.get? d a = none := h
      rw [h'] at hv; cases hv
    simp [delTransition, Dict.getE_of_get? hp, Dict.delE, hc, bind, Except.bind]

theorem foldlM_delTransition_iff {g : Automaton A} (hg : AWF g) {u : Nat} (es : List (EdgeDesc A)) (hnd : es.Nodup) (hes : ∀ e ∈ es, e.target = u) :
    ((∀ e ∈ es, g.delta e.source e.distinguisher ≠ none) →
      es.foldlM (fun adj e => delTransition adj e.source e.distinguisher) g.adj = .ok (es.foldl Automaton.removeEdge g).adj) ∧
    ((∃ e ∈ es, g.delta e.source e.distinguisher = none) →
      es.foldlM (fun adj e => delTransition adj e.source e.distinguisher) g.adj = .error .keyError) := by
  induction es generalizing g with
  | nil => exact ⟨fun _ => rfl, by simp⟩
  | cons e es ih =>
    obtain ⟨q, r, a⟩ := e
    have h1 := hes ⟨q, r, a⟩ (by simp)
    simp only at h1
    subst h1
    rw [List.foldlM_cons]
    simp only
    rw [List.nodup_cons] at hnd
    cases hd : g.delta q a with
    | none =>
      rw [delTransition_none hd]
      refine ⟨fun h => absurd hd (h ⟨q, r, a⟩ (by simp)), fun _ => rfl⟩
    | some r' =>
      rw [delTransition_eq hd]
      have hsame : g.removeEdge ⟨q, r', a⟩ = g.removeEdge ⟨q, r, a⟩ := rfl
      obtain ⟨i1, _, _, _, _, i6⟩ := Automaton.removeEdge_spec hg ⟨q, r, a⟩
      have hkeep : ∀ e ∈ es, (g.removeEdge ⟨q, r, a⟩).delta e.source e.distinguisher = g.delta e.source e.distinguisher := by
        intro e he
        rw [i6, if_neg]
        rintro ⟨h1, h2⟩
        apply hnd.1
        have het := hes e (by simp [he])
        have : e = ⟨q, r, a⟩ := by
          cases e; simp at h1 h2 het; simp [h1, h2, het]
        rw [← this]; exact he
      obtain ⟨j1, j2⟩ := ih i1 hnd.2 (fun e he => hes e (by simp [he]))
      rw [hsame]
      refine ⟨fun h => j1 fun e he => by rw [hkeep e he]; exact h e (by simp [he]), ?_⟩
      rintro ⟨e, he, hn⟩
      rcases List.mem_cons.1 he with rfl | he
      · rw [hd] at hn; cases hn
      · exact j2 ⟨e, he, by rw [hkeep e he]; exact hn⟩

/-- `remove_vertex` raises exactly if an in-edge of the state has no transition left with its source and symbol. -/
theorem Half_removeVertex {g : IAutomaton A} (hw : Half g) {u : Nat} (hu : u ∈ g.a.vertices) :
    ((∃ e ∈ g.inEdges u, g.a.delta e.source e.distinguisher = none) → g.removeVertex u = .error .keyError) ∧
    ((∀ e ∈ g.inEdges u, g.a.delta e.source e.distinguisher ≠ none) →
    ∃ g', g.removeVertex u = .ok g' ∧ Half g' ∧ g'.a.vertices = g.a.vertices.filter (· ≠ u) ∧
    g'.a.lastVertexId = g.a.lastVertexId ∧ g'.a.q0 = g.a.q0 ∧ g'.a.final = g.a.final ∧
    (∀ q a r, g'.a.delta q a = some r ↔ g.a.delta q a = some r ∧ q ≠ u ∧ a ∉ lk g.inAdj u q) ∧
    ∀ r q a, a ∈ lk g'.inAdj r q ↔ a ∈ lk g.inAdj r q ∧ r ≠ u ∧ ¬ (q = u ∧ ∃ b, g.a.delta u b = some r ∧ b ∉ lk g.inAdj u u)) := by
  have hin : u ∈ Dict.keys g.inAdj := (hw.keys u).2 hu
  have hmi := half_mem_inEdges hw.inn u
  obtain ⟨f1, f2⟩ := foldlM_delTransition_iff hw.out (u := u) (g.inEdges u) (half_nodup_inEdges hw.inn u) (fun e he => ((hmi e).1 he).1)
  constructor
  · intro h
    unfold removeVertex
    rw [if_pos ((Dict.contains_iff_mem _ _).2 hin), f2 h]
    rfl
  intro hall
  have hfold := f1 hall
  unfold removeVertex
  rw [if_pos ((Dict.contains_iff_mem _ _).2 hin)]
  obtain ⟨i1, i2, i3, i4, i5, i6⟩ := foldl_removeEdge_spec hw.out (g.inEdges u)
  generalize hg1 : (g.inEdges u).foldl Automaton.removeEdge g.a = g1 at *
  have hdel : g.inAdj.delE u = .ok (g.inAdj.erase u) := (Dict.delE_ok_iff _ _ _).2 ⟨hin, rfl⟩
  have hg1eq : ({ g.a with adj := g1.adj } : Automaton A) = g1 := by
    cases g1; simp only at i3 i4 i5; simp [← i3, ← i4, ← i5]
  have hd1 : ∀ q a r, g1.delta q a = some r ↔ g.a.delta q a = some r ∧ a ∉ lk g.inAdj u q := by
    intro q a r
    rw [i6]
    by_cases h : a ∈ lk g.inAdj u q
    · rw [if_pos ⟨⟨q, u, a⟩, (hmi _).2 ⟨rfl, h⟩, rfl, rfl⟩]
      simp [h]
    · rw [if_neg]
      · simp [h]
      · rintro ⟨e, he, rfl, rfl⟩
        have := (hmi e).1 he
        exact h (by rw [← this.1]; exact this.2)
  have hu1 : u ∈ Dict.keys g1.adj := by
    have : Dict.keys g1.adj = Dict.keys g.a.adj := i2
    rw [this]; exact hu
  obtain ⟨inAdj', j1, j2, j3, j4⟩ := foldlM_dropIn u (g1.outEdges u) (hw.inn.erase u) (fun e he => by
    rw [mem_outEdges i1] at he
    have hd := (hd1 _ _ _).1 he.2
    rw [Dict.keys_erase _ hw.inn.outer, List.mem_filter]
    obtain ⟨ins, s, h1, _⟩ := get?_some_of_lk (hw.sub _ _ _ hd.1)
    refine ⟨(Dict.mem_keys_iff _ _).2 ⟨_, h1⟩, ?_⟩
    simp only [ne_eq, decide_eq_true_eq]
    intro hx
    exact hd.2 (hx ▸ hw.sub _ _ _ hd.1))
  have hdel1 : g1.adj.delE u = .ok (g1.adj.erase u) := (Dict.delE_ok_iff _ _ _).2 ⟨hu1, rfl⟩
  simp only [hfold, hdel, bind, Except.bind, hg1eq]
  rw [if_pos ((Dict.contains_iff_mem _ _).2 hu1)]
  simp only [j1, hdel1]
  have hd2 : ∀ q a r, ({ g.a with adj := g1.adj.erase u } : Automaton A).delta q a = some r ↔
      g.a.delta q a = some r ∧ q ≠ u ∧ a ∉ lk g.inAdj u q := by
    intro q a r
    have e1 : ({ g.a with adj := g1.adj.erase u } : Automaton A).delta q a =
        if u = q then none else g1.delta q a := by
      simp only [delta_eq, Dict.get?_erase i1.outer]
      by_cases h : u = q <;> simp [h]
    rw [e1]
    by_cases h : q = u
    · simp [h]
    · rw [if_neg (Ne.symm h), hd1]
      simp [h]
  have hl2 : ∀ r q a, a ∈ lk inAdj' r q ↔ a ∈ lk g.inAdj r q ∧ r ≠ u ∧ ¬ (q = u ∧ ∃ b, g.a.delta u b = some r ∧ b ∉ lk g.inAdj u u) := by
    intro r q a
    rw [j4]
    have hex : (∃ e ∈ g1.outEdges u, e.target = r) ↔ ∃ b, g.a.delta u b = some r ∧ b ∉ lk g.inAdj u u := by
      constructor
      · rintro ⟨e, he, rfl⟩
        rw [mem_outEdges i1] at he
        obtain ⟨e1, e2⟩ := he
        have := (hd1 _ _ _).1 e2
        rw [e1] at this
        exact ⟨_, this⟩
      · rintro ⟨b, hb⟩
        exact ⟨⟨u, r, b⟩, (mem_outEdges i1).2 ⟨rfl, (hd1 _ _ _).2 hb⟩, rfl⟩
    rw [← hex]
    by_cases h : q = u ∧ ∃ e ∈ g1.outEdges u, e.target = r
    · rw [if_pos h]; simp [h]
    · rw [if_neg h, lk_eraseKey hw.inn]
      by_cases hr : u = r
      · rw [if_pos hr]; simp [hr]
      · rw [if_neg hr]
        exact ⟨fun h' => ⟨h', Ne.symm hr, h⟩, fun h' => h'.1⟩
  have hv2 : Dict.keys (g1.adj.erase u) = g.a.vertices.filter (· ≠ u) := by
    rw [Dict.keys_erase _ i1.outer, show Dict.keys g1.adj = Dict.keys g.a.adj from i2]; rfl
  refine ⟨_, rfl, ⟨⟨Dict.nodupKeys_erase i1.outer _, ?_, ?_⟩, j2, ?_, ?_⟩, hv2, rfl, rfl, rfl, hd2, hl2⟩
  · intro q d h
    simp only [Dict.get?_erase i1.outer] at h
    split at h
    · cases h
    · exact i1.inner _ _ h
  · intro q h
    simp only [Automaton.vertices] at h
    rw [hv2, List.mem_filter] at h
    exact hw.out.lt _ h.1
  · intro v
    show v ∈ Dict.keys inAdj' ↔ v ∈ Dict.keys (g1.adj.erase u)
    rw [j3, hv2, Dict.keys_erase _ hw.inn.outer, List.mem_filter, List.mem_filter, hw.keys]
  · intro q r a h
    have h' := (hd2 _ _ _).1 h
    refine (hl2 _ _ _).2 ⟨hw.sub _ _ _ h'.1, ?_, fun h2 => h'.2.1 h2.1⟩
    intro hr
    exact h'.2.2 (hr ▸ hw.sub _ _ _ h'.1)

theorem Half_removeVertex_absent {g : IAutomaton A} (hw : Half g) {u : Nat} (hu : u ∉ g.a.vertices) : g.removeVertex u = .ok g := by
  unfold removeVertex
  have h1 : ¬ g.inAdj.contains u = true := by rw [Dict.contains_iff_mem, hw.keys]; exact hu
  have h2 : ¬ g.a.adj.contains u = true := by rw [Dict.contains_iff_mem]; exact hu
  simp [h1, h2, bind, Except.bind, pure, Except.pure]

theorem Half_removeVertices : ∀ (us : List Nat) {g g' : IAutomaton A}, Half g → us.foldlM removeVertex g = .ok g' →
    Half g' ∧ ∀ u, u ∈ g'.a.vertices ↔ u ∈ g.a.vertices ∧ u ∉ us
  | [], g, g', hg, h => by cases h; exact ⟨hg, by simp⟩
  | u :: us, g, g', hg, h => by
    rw [List.foldlM_cons, except_bind_ok] at h
    obtain ⟨g1, h1, h2⟩ := h
    have hv : Half g1 ∧ ∀ v, v ∈ g1.a.vertices ↔ v ∈ g.a.vertices ∧ v ≠ u := by
      by_cases hu : u ∈ g.a.vertices
      · obtain ⟨e1, e2⟩ := Half_removeVertex hg hu
        by_cases hs : ∃ e ∈ g.inEdges u, g.a.delta e.source e.distinguisher = none
        · rw [e1 hs] at h1; cases h1
        · obtain ⟨g2, k1, k2, k3, _⟩ := e2 fun e he hn => hs ⟨e, he, hn⟩
          rw [k1] at h1; cases h1
          exact ⟨k2, fun v => by rw [k3]; simp⟩
      · rw [Half_removeVertex_absent hg hu] at h1; cases h1
        exact ⟨hg, fun v => ⟨fun hv => ⟨hv, fun h => hu (h ▸ hv)⟩, fun hv => hv.1⟩⟩
    obtain ⟨r1, r2⟩ := Half_removeVertices us hv.1 h2
    refine ⟨r1, fun v => ?_⟩
    rw [r2, hv.2]
    simp [and_assoc]

theorem Half_clear {g g' : IAutomaton A} (hg : Half g) (h : g.clear = .ok g') : Half g' ∧ (∀ q a, g'.a.delta q a = none) ∧ ∀ r q, lk g'.inAdj r q = [] := by
  unfold clear at h
  have h : g.a.vertices.foldlM removeVertex ⟨{ g.a with lastVertexId := 0 }, g.inAdj⟩ = .ok g' := h
  rw [removeVertices_last] at h
  cases h1 : g.a.vertices.foldlM removeVertex g with
  | error e => rw [h1] at h; cases h
  | ok g1 =>
    rw [h1] at h
    obtain ⟨r1, r2⟩ := Half_removeVertices _ hg h1
    have hv : g1.a.vertices = [] := by
      rw [List.eq_nil_iff_forall_not_mem]
      intro v hv
      have := (r2 v).1 hv
      exact this.2 this.1
    have hadj : g1.a.adj = [] := by
      have : Dict.keys g1.a.adj = [] := hv
      simpa [Dict.keys] using this
    have hin : g1.inAdj = [] := by
      have : Dict.keys g1.inAdj = [] := by
        rw [List.eq_nil_iff_forall_not_mem]
        intro v hv'
        rw [r1.keys, hv] at hv'
        cases hv'
      simpa [Dict.keys] using this
    have h2 : g' = ⟨{ g1.a with lastVertexId := 0 }, g1.inAdj⟩ := by cases h; rfl
    subst h2
    have hd : ∀ q a, ({ g1.a with lastVertexId := 0 } : Automaton A).delta q a = none := by
      intro q a; rw [delta_eq]; simp [hadj, Dict.get?]
    have hl : ∀ r q, lk g1.inAdj r q = [] := by intro r q; simp [hin, lk, Dict.get?]
    refine ⟨⟨⟨r1.out.outer, r1.out.inner, ?_⟩, r1.inn, r1.keys, ?_⟩, hd, hl⟩
    · intro q hq
      have : q ∈ g1.a.vertices := hq
      rw [hv] at this; cases this
    · intro q r a h
      simp only [hd] at h
      cases h

end PyBGL.IAutomaton
