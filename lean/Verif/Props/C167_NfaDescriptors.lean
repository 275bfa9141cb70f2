import Verif.Proofs.NfaObjects

/-!
# C167: the descriptors of an `Nfa` share their set of numbers with the automaton

The descriptors yielded by `edges()` and `out_edges()` are not values: they hold the set of numbers of the transition, which `add_edge` changes in place. As long as the transition is
not removed, an old descriptor shows its current numbers; once it is removed the descriptor is frozen for ever, even if the same transition is added again.
-/

namespace PyBGL
open ONfa

variable {A : Type} [DecidableEq A]

/-- Sharing is invisible to who only looks at the automaton: the same calls on an automaton whose sets are values have the same outcomes and lead to what is seen now. -/
theorem C167_same {eps : A} {qs : List Nat} {n : Nat} {g : ONfa A} {l : List (NfaOp A × Except PyErr Unit)} (h : Tried Anything exec (init eps qs n) g l) :
    Tried Anything Nfa.execM (Nfa.init eps qs n) g.now l := by
  induction h with
  | start => rw [now_init]; exact .start
  | call op _ h ih =>
    obtain ⟨h1, h2, _, _⟩ := exec_spec (good_tried (good_init eps qs n) h).1 op
    rw [h1, h2]
    exact .call op trivial ih

/-- The descriptors, read at once, are the transitions as they are now. -/
theorem C167_edges (g : ONfa A) (q : Nat) : g.edges.map g.shows = g.now.edges ∧ (g.outEdges q).map g.shows = g.now.outEdges q :=
  ⟨(edges_now g).symm, (outEdges_now g q).symm⟩

/-- Two descriptors of one listing never share a set, and a descriptor of one listing is the one of the other. -/
theorem C167_distinct {g : ONfa A} (hg : Made g) {d e : EdgeDesc (A × Nat)} (hd : d ∈ g.edges) (he : e ∈ g.edges) :
    (d.distinguisher.2 = e.distinguisher.2 ↔ d = e) ∧ d ∈ g.outEdges d.source := by
  rw [mem_edges hg.good.toKeys] at hd he
  refine ⟨⟨fun h => ?_, fun h => by rw [h]⟩, (mem_outEdges hg.good.toKeys _ _).2 ⟨rfl, hd⟩⟩
  obtain ⟨q, r, a, i⟩ := d
  obtain ⟨q', r', a', i'⟩ := e
  dsimp only at h hd he
  subst h
  obtain ⟨rfl, rfl, rfl⟩ := hg.good.inj hd he
  rfl

/-- As long as the transition is listed after every call, its old descriptor is the one that is listed: it shows the transition as it is now. -/
theorem C167_live {g g' : ONfa A} (hg : Made g) {d : EdgeDesc (A × Nat)} (hd : d ∈ g.edges) {l : List (NfaOp A × Except PyErr Unit)}
    (h : Tried (fun s op => ∃ ns, ⟨d.source, d.target, (d.distinguisher.1, ns)⟩ ∈ (exec op s).2.now.edges) exec g g' l) : d ∈ g'.edges ∧ g'.shows d ∈ g'.now.edges := by
  have key : d ∈ g'.edges ∧ Good g' := by
    induction h with
    | start => exact ⟨hd, hg.good⟩
    | @call s _ op hp _ ih =>
      obtain ⟨hs, hgood⟩ := ih
      obtain ⟨_, _, h3, h4⟩ := exec_spec hgood op
      refine ⟨?_, h3⟩
      have hl := (mem_edges hgood.toKeys d).1 hs
      obtain ⟨ns, hns⟩ := hp
      rw [edges_now, List.mem_map] at hns
      obtain ⟨⟨q, r, a, i⟩, he, heq⟩ := hns
      cases heq
      have he' := (mem_edges h3.toKeys _).1 he
      dsimp only at he'
      have hi : i = d.distinguisher.2 := by
        rcases h4.look he' with h5 | h5
        · rw [hl] at h5; cases h5; rfl
        · exfalso
          have hle : (exec op s).2.look d.source d.distinguisher.1 d.target = some d.distinguisher.2 ∨ (exec op s).2.sets = s.sets := by
            cases op with
            | addEdge q r a =>
              left
              show (s.addEdge q r a).look _ _ _ = _
              cases hq : s.look q a r with
              | some j => rw [addEdge_old hq]; exact hl
              | none =>
                rw [look_addEdge_new hq, if_neg]
                · exact hl
                · rintro ⟨rfl, rfl, rfl⟩; rw [hl] at hq; cases hq
            | removeEdge e => exact .inr (shrinks_removeEdge e s hgood.toKeys).sets
            | removeVertex u => exact .inr (follows_removeVertex u s hgood.toKeys).2.2.sets
            | clear => exact .inr (follows_clear s hgood.toKeys).2.2.sets
            | _ => exact .inr rfl
          rcases hle with h6 | h6
          · rw [h6] at he'; cases he'
            exact absurd (hgood.bound hl) (Nat.not_lt.2 h5)
          · have := h3.bound he'
            rw [h6] at this
            omega
      refine (mem_edges h3.toKeys d).2 ?_
      rw [← hi]
      exact he'
  exact ⟨key.1, by rw [edges_now]; exact List.mem_map_of_mem key.1⟩

/-- Once the transition is removed, its descriptor is never listed again and shows the same numbers for ever. -/
theorem C167_frozen {g g' g'' : ONfa A} (hg : Made g) {d : EdgeDesc (A × Nat)} (hd : d ∈ g.edges) (h : Later g g') (hn : d ∉ g'.edges) (h' : Later g' g'') :
    d ∉ g''.edges ∧ g''.shows d = g'.shows d := by
  obtain ⟨l, h⟩ := h
  obtain ⟨l', h'⟩ := h'
  have k := good_tried hg.good h
  have k' := good_tried k.1 h'
  rw [mem_edges hg.good.toKeys] at hd
  have hb : d.distinguisher.2 < g'.sets.length := Nat.lt_of_lt_of_le (hg.good.bound hd) k.2.length
  have hno : ∀ q a r, g'.look q a r ≠ some d.distinguisher.2 := by
    intro q a r hl
    rcases k.2.look hl with h1 | h1
    · obtain ⟨rfl, rfl, rfl⟩ := hg.good.inj hd h1
      exact hn ((mem_edges k.1.toKeys d).2 hl)
    · exact absurd (hg.good.bound hd) (Nat.not_lt.2 h1)
  refine ⟨fun hm => ?_, ?_⟩
  · rcases k'.2.look ((mem_edges k'.1.toKeys d).1 hm) with h1 | h1
    · exact hno _ _ _ h1
    · omega
  · rw [shows, shows, k'.2.frozen _ hb hno]

/-- Whatever the calls, a descriptor keeps its source, its target and its label, it shows the numbers from 1 to some `k ≥ 1`, and `k` never decreases. -/
theorem C167_grows {g g' : ONfa A} (hg : Made g) {d : EdgeDesc (A × Nat)} (hd : d ∈ g.edges) (h : Later g g') :
    ∃ k k', 1 ≤ k ∧ k ≤ k' ∧ g.shows d = ⟨d.source, d.target, (d.distinguisher.1, List.range' 1 k)⟩ ∧
      g'.shows d = ⟨d.source, d.target, (d.distinguisher.1, List.range' 1 k')⟩ := by
  obtain ⟨l, h⟩ := h
  have k := good_tried hg.good h
  rw [mem_edges hg.good.toKeys] at hd
  have hb := hg.good.bound hd
  obtain ⟨m, hm⟩ := hg.good.nums _ hb
  obtain ⟨m', hm'⟩ := k.1.nums _ (Nat.lt_of_lt_of_le hb k.2.length)
  have := (k.2.grow _ hb).length_le
  rw [hm, hm', List.length_range', List.length_range'] at this
  exact ⟨m + 1, m' + 1, by omega, this, by rw [shows, hm], by rw [shows, hm']⟩

/-- One call changes what a listed descriptor shows exactly if it is `add_edge` of the same transition; then it shows one more number. -/
theorem C167_step {g : ONfa A} (hg : Made g) {d : EdgeDesc (A × Nat)} (hd : d ∈ g.edges) (op : NfaOp A) :
    ((exec op g).2.shows d ≠ g.shows d ↔ op = .addEdge d.source d.target d.distinguisher.1) ∧
    (op = .addEdge d.source d.target d.distinguisher.1 →
      ((exec op g).2.shows d).distinguisher.2 = (g.shows d).distinguisher.2 ++ [(g.shows d).distinguisher.2.length + 1] ∧ d ∈ (exec op g).2.edges) := by
  have hgood := hg.good
  have hl := (mem_edges hgood.toKeys d).1 hd
  have hb := hgood.bound hl
  obtain ⟨m, hm⟩ := hgood.nums _ hb
  have hadd : ((exec (.addEdge d.source d.target d.distinguisher.1) g).2.shows d).distinguisher.2 =
      (g.shows d).distinguisher.2 ++ [(g.shows d).distinguisher.2.length + 1] := by
    show (g.addEdge d.source d.target d.distinguisher.1).contents d.distinguisher.2 = g.contents d.distinguisher.2 ++ [(g.contents d.distinguisher.2).length + 1]
    rw [addEdge_old hl, contents_set _ _ _ _ hb, if_pos rfl, hm, List.length_range', setAdd_range, List.range'_concat]
    simp [Nat.add_comm]
  have same : ∀ g' : ONfa A, g'.sets = g.sets → g'.shows d = g.shows d := fun g' h => by rw [shows, shows, contents, contents, h]
  refine ⟨⟨fun hne => ?_, ?_⟩, ?_⟩
  · cases op with
    | addVertex => exact absurd (same _ rfl) hne
    | addEdge q r a =>
      by_contra hc
      apply hne
      show (g.addEdge q r a).shows d = _
      cases h : g.look q a r with
      | none => rw [shows, shows, contents_addEdge_new h hb]
      | some i =>
        rw [addEdge_old h, shows, shows, contents_set _ _ _ _ (hgood.bound h), if_neg]
        rintro rfl
        obtain ⟨rfl, rfl, rfl⟩ := hgood.inj h hl
        exact hc rfl
    | removeEdge e => exact absurd (same _ (shrinks_removeEdge e g hgood.toKeys).sets) hne
    | removeVertex u => exact absurd (same _ (follows_removeVertex u g hgood.toKeys).2.2.sets) hne
    | setInitial q b => exact absurd (same _ rfl) hne
    | setInitials qs => exact absurd (same _ rfl) hne
    | setFinal q b => exact absurd (same _ rfl) hne
    | clear => exact absurd (same _ (follows_clear g hgood.toKeys).2.2.sets) hne
  · rintro rfl heq
    rw [heq] at hadd
    exact absurd (congrArg List.length hadd) (by simp)
  · rintro rfl
    refine ⟨hadd, (mem_edges (good_addEdge hgood _ _ _).toKeys d).2 ?_⟩
    rw [addEdge_old hl]
    exact hl

/-- A transition that is removed and added again has a new set: its new descriptor shares nothing with the descriptors obtained before. -/
theorem C167_readded {g g' g'' : ONfa A} (hg : Made g) {d e : EdgeDesc (A × Nat)} (hd : d ∈ g.edges) (h : Later g g') (hn : d ∉ g'.edges) (h' : Later g' g'') (he : e ∈ g''.edges) :
    e.distinguisher.2 ≠ d.distinguisher.2 := by
  intro heq
  obtain ⟨l, h⟩ := h
  obtain ⟨l', h'⟩ := h'
  have k := good_tried hg.good h
  have k' := good_tried k.1 h'
  have t := k.2.trans k'.2
  have hl := (mem_edges hg.good.toKeys d).1 hd
  have hl' := (mem_edges k'.1.toKeys e).1 he
  rw [heq] at hl'
  rcases t.look hl' with h1 | h1
  · have hde : d = e := by
      obtain ⟨q, r, a, i⟩ := d
      obtain ⟨q', r', a', i'⟩ := e
      dsimp only at h1 hl heq
      subst heq
      obtain ⟨rfl, rfl, rfl⟩ := hg.good.inj hl h1
      rfl
    subst hde
    exact (C167_frozen hg hd ⟨l, h⟩ hn ⟨l', h'⟩).1 he
  · exact absurd (hg.good.bound hl) (Nat.not_lt.2 h1)

/-- Two transitions from 0 to 1, then the first of them added once more. -/
def sharedNfa : ONfa Char := (exec (.addEdge 0 1 'b') (exec (.addEdge 0 1 'a') (init 'ε' [] 2)).2).2

theorem sharedNfa_made : Made sharedNfa := ⟨'ε', [], 2, _, .call (NfaOp.addEdge 0 1 'b') trivial (.call (NfaOp.addEdge 0 1 'a') trivial .start)⟩

/-- A descriptor is not a value: kept in a variable, it is changed by a call to `add_edge` that does not mention it. -/
theorem C167_value_counterexample : ¬ ∀ (g g' : ONfa Char) (d : EdgeDesc (Char × Nat)), Made g → d ∈ g.edges → Later g g' → g'.shows d = g.shows d := by
  intro h
  have := h sharedNfa _ ⟨0, 1, ('a', 0)⟩ sharedNfa_made (by simp [sharedNfa, exec, ONfa.addEdge, edges, init, ONfa.addVertex, Dict.getD, Dict.get?, Dict.set])
    ⟨_, .call (NfaOp.addEdge 0 1 'a') trivial .start⟩
  revert this
  decide

/-- A list of descriptors made before a transition is added again and after it do not agree, although they hold the same objects: the old list shows the new numbers. -/
example : (sharedNfa.edges.map sharedNfa.shows = [⟨0, 1, ('a', [1])⟩, ⟨0, 1, ('b', [1])⟩]) ∧
    sharedNfa.edges.map (exec (.addEdge 0 1 'a') sharedNfa).2.shows = [⟨0, 1, ('a', [1, 2])⟩, ⟨0, 1, ('b', [1])⟩] := ⟨rfl, rfl⟩

/-- The hypotheses of `C167_frozen` and `C167_readded`: the transition is removed, then added twice. -/
example : ∃ g' g'' : ONfa Char, ∃ d ∈ sharedNfa.edges, Later sharedNfa g' ∧ d ∉ g'.edges ∧ Later g' g'' ∧ g''.now.edges = [⟨0, 1, ('a', [1, 2])⟩, ⟨0, 1, ('b', [1])⟩] ∧
    g''.shows d = ⟨0, 1, ('a', [1])⟩ := by
  refine ⟨_, _, ⟨0, 1, ('a', 0)⟩, by decide, ⟨_, .call (NfaOp.removeEdge ⟨0, 1, ('a', 1)⟩) trivial .start⟩, by decide,
    ⟨_, .call (NfaOp.addEdge 0 1 'a') trivial (.call (NfaOp.addEdge 0 1 'a') trivial .start)⟩, by rfl, by rfl⟩

/-- The hypotheses of `C167_live`: the transition is added again, another one is removed. -/
example : ∃ g' : ONfa Char, ∃ d ∈ sharedNfa.edges, (∃ l, Tried (fun s op => ∃ ns, ⟨d.source, d.target, (d.distinguisher.1, ns)⟩ ∈ (exec op s).2.now.edges) exec sharedNfa g' l) ∧
    g'.shows d = ⟨0, 1, ('a', [1, 2])⟩ ∧ g'.now.edges = [⟨0, 1, ('a', [1, 2])⟩] :=
  ⟨_, ⟨0, 1, ('a', 0)⟩, by decide, ⟨_, .call (NfaOp.removeEdge ⟨0, 1, ('b', 1)⟩) ⟨[1, 2], by decide⟩ (.call (NfaOp.addEdge 0 1 'a') ⟨[1, 2], by decide⟩ .start)⟩, by rfl, by rfl⟩

end PyBGL
