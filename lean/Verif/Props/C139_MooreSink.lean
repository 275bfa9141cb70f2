import Verif.Props.C133_NfaQueries
import Verif.Props.C138_Sizes

/-!
# C139: the states of `moore_determination` with `complete=False`
-/

namespace PyBGL
open Nfa
variable {A : Type} [DecidableEq A]

/-- The English property: when `complete` is not given, every state of the result stands for a non-empty set of states: what is read to reach it can be
read in the original automaton. -/
def C139_statement : Prop :=
  ∀ (g : Nfa Char) (pick : Nat → Nat) (order : Nat → List Char → List Char) (dfa : Automaton Char), g.Reachable → g.initials ≠ [] → (∀ t l, (order t l).Perm l) →
    Returns (Moore.run g false pick order) (.ok dfa) → ∀ w q, dfa.deltaWord (some 0) w = some q → ∃ x, g.SubsetOf w x

theorem mem_subsetSigma_false (g : Nfa A) (k : List Nat) (a : A) : a ∈ Moore.subsetSigma g false k ↔ ∃ x ∈ k, a ∈ g.sigma x := by
  unfold Moore.subsetSigma
  simp only [Bool.false_eq_true, if_false]
  rw [Nfa.mem_foldl_setUnion]
  simp

/-- **C139.** In every case: the empty word reaches a state; a longer word does if and only if its beginning does, and its last symbol is among the `sigma(x)` of
the states `x` reached by its beginning. -/
theorem C139_words {g : Nfa A} (hg : g.Reachable) (pick : Nat → Nat) (order : Nat → List A → List A) (hord : ∀ t l, (order t l).Perm l) :
    ∃ dfa, Returns (Moore.run g false pick order) (.ok dfa) ∧ dfa.deltaWord (some 0) [] = some 0 ∧
      ∀ u a, (∃ q, dfa.deltaWord (some 0) (u ++ [a]) = some q) ↔ (∃ q, dfa.deltaWord (some 0) u = some q) ∧ ∃ x, g.SubsetOf u x ∧ a ∈ g.sigma x := by
  have hT : g.Trans = g.T := by funext q a r; exact propext (Nfa.trans_iff hg.wf q a r)
  obtain ⟨r, hr, hp⟩ := Moore.run_spec g false pick order hord
  cases r with
  | error e => cases hp
  | ok dfa =>
    obtain ⟨map, h⟩ := hp
    have hdw := fun w => Moore.deltaWord_spec h w h.start
    refine ⟨dfa, hr, rfl, fun u a => ?_⟩
    have key : ∀ u q k, dfa.deltaWord (some 0) u = some q → LPath (Moore.KT g false) (Moore.k0 g) u k → map.get? k = some q →
        ((∃ q, dfa.deltaWord (some 0) (u ++ [a]) = some q) ↔ ∃ x, g.SubsetOf u x ∧ a ∈ g.sigma x) := by
      intro u q k hq hk hm
      have e : ∀ x, g.SubsetOf u x ↔ x ∈ k := fun x => by rw [Moore.k0path_mem hk, Nfa.SubsetOf, hT]
      simp only [e]
      rw [← mem_subsetSigma_false, Automaton.deltaWord_snoc, hq]
      show (∃ q', dfa.delta q a = some q') ↔ _
      constructor
      · rintro ⟨q', hq'⟩
        by_contra hc
        have := h.free k q a hm hc
        simp only at this
        rw [this] at hq'; cases hq'
      · intro ha
        obtain ⟨r, _, hr⟩ := h.inst k q a hm ha
        exact ⟨r, hr⟩
    constructor
    · rintro ⟨q', hq'⟩
      cases hu : dfa.deltaWord (some 0) u with
      | none => rw [Automaton.deltaWord_snoc, hu] at hq'; cases hq'
      | some q =>
        obtain ⟨k, hk, hm⟩ := (hdw u q).1 hu
        exact ⟨⟨q, rfl⟩, (key u q k hu hk hm).1 ⟨q', hq'⟩⟩
    · rintro ⟨⟨q, hu⟩, hx⟩
      obtain ⟨k, hk, hm⟩ := (hdw u q).1 hu
      exact (key u q k hu hk hm).2 hx

/-- **C139, counterexample.** `add_edge(0, 1, 'a')` then `remove_edge`: the result has a second state, reached by `a`, although no transition is left. -/
theorem C139_counterexample : ¬ C139_statement := by
  intro h
  have hr : Runs Nfa.exec (Nfa.init 'ε' [] 0) [.addVertex, .addVertex, .addEdge 0 1 'a', .removeEdge ⟨0, 1, ('a', 1)⟩]
      ⟨2, [(0, [('a', [])]), (1, [])], [0], [], 'ε'⟩ := rfl
  obtain ⟨dfa, hd, h0, hw⟩ := C139_words (g := ⟨2, [(0, [('a', [])]), (1, [])], [0], [], 'ε'⟩) ⟨_, _, _, hr⟩ (fun _ => 0) (fun _ l => l) (fun _ _ => .refl _)
  obtain ⟨q, hq⟩ := (hw [] 'a').2 ⟨⟨0, h0⟩, 0, ⟨0, by simp, .nil 0⟩, by decide⟩
  obtain ⟨x, q, _, u, hu, hw⟩ := h _ (fun _ => 0) (fun _ l => l) _ ⟨_, _, _, hr⟩ (by simp) (fun _ _ => .refl _) hd ['a'] q hq
  cases hu with
  | nil => simp at hw
  | cons ht _ =>
    obtain ⟨n, hn⟩ := ht
    exact absurd hn (by show ¬ _ ∈ ([] : List _); simp)

/-- **C139, partial**: proved of the automata on which neither `remove_edge` nor `remove_vertex` was called. -/
theorem C139_no_removal_partial {g : Nfa A} {v : Nat → Prop} {u : Nat → A → Prop} (h : SymHistory (fun _ op => op.NoRemoval) g v u) (hg : g.Reachable) (hi : g.initials ≠ [])
    (pick : Nat → Nat) (order : Nat → List A → List A) (hord : ∀ t l, (order t l).Perm l) :
    ∃ dfa, Returns (Moore.run g false pick order) (.ok dfa) ∧ ∀ w, (∃ q, dfa.deltaWord (some 0) w = some q) ↔ ∃ x, g.SubsetOf w x := by
  have hT : g.Trans = g.T := by funext q a r; exact propext (Nfa.trans_iff hg.wf q a r)
  obtain ⟨dfa, hr, h0, hw⟩ := C139_words hg pick order hord
  refine ⟨dfa, hr, fun w => ?_⟩
  induction w using List.reverseRecOn with
  | nil =>
    refine ⟨fun _ => ?_, fun _ => ⟨0, h0⟩⟩
    obtain ⟨q, hq⟩ := List.exists_mem_of_ne_nil _ hi
    exact ⟨q, q, hq, .nil q⟩
  | append_singleton w a ih =>
    rw [hw, ih]
    simp only [(C133_no_removal_partial h).2]
    constructor
    · rintro ⟨_, x, ⟨q0, m0, hx⟩, ha, hd⟩
      obtain ⟨y, hy⟩ := List.exists_mem_of_ne_nil _ hd
      exact ⟨y, q0, m0, hx.append ((C26_delta hg ha).1 hy)⟩
    · rintro ⟨y, q0, m0, hy⟩
      obtain ⟨x, hx, hxy⟩ := WPath.append_iff.1 hy
      have ha : a ≠ g.eps := fun e => hxy.not_eps (by simp [e])
      refine ⟨⟨x, q0, m0, hx⟩, x, ⟨q0, m0, hx⟩, ha, ?_⟩
      have := (C26_delta hg ha).2 hxy
      exact List.ne_nil_of_mem this

/-- **C139, partial**: whatever the history, no transition leaves a state that stands for no state of the original automaton, and there is at most one such state; it is final
for none. -/
theorem C139_sink_partial {g : Nfa A} (hg : g.Reachable) (pick : Nat → Nat) (order : Nat → List A → List A) (hord : ∀ t l, (order t l).Perm l) :
    ∃ dfa, Returns (Moore.run g false pick order) (.ok dfa) ∧
      ∀ w q, dfa.deltaWord (some 0) w = some q → (∀ x, ¬ g.SubsetOf w x) → (∀ a, dfa.delta q a = none) ∧ dfa.isFinal q = false ∧
        ∀ w' q', dfa.deltaWord (some 0) w' = some q' → (∀ x, ¬ g.SubsetOf w' x) → q' = q := by
  have hT : g.Trans = g.T := by funext q a r; exact propext (Nfa.trans_iff hg.wf q a r)
  obtain ⟨r, hr, hp⟩ := Moore.run_spec g false pick order hord
  cases r with
  | error e => cases hp
  | ok dfa =>
    obtain ⟨map, h⟩ := hp
    have hdw := fun w => Moore.deltaWord_spec h w h.start
    refine ⟨dfa, hr, fun w q hq hx => ?_⟩
    have nil : ∀ w k, LPath (Moore.KT g false) (Moore.k0 g) w k → (∀ x, ¬ g.SubsetOf w x) → k = [] := by
      intro w k hk hx
      refine List.eq_nil_iff_forall_not_mem.2 fun x hm => hx x ?_
      rw [Nfa.SubsetOf, hT]; exact (Moore.k0path_mem hk x).1 hm
    obtain ⟨k, hk, hm⟩ := (hdw w q).1 hq
    have := nil w k hk hx
    subst this
    refine ⟨fun a => h.free [] q a hm ?_, ?_, fun w' q' hq' hx' => ?_⟩
    · rw [mem_subsetSigma_false]; simp
    · have := h.fin [] q hm; simpa using this
    · obtain ⟨k', hk', hm'⟩ := (hdw w' q').1 hq'
      have := nil w' k' hk' hx'
      subst this
      rw [hm] at hm'; exact (Option.some.inj hm').symm

/-- **C139, partial**: without removals, the result has fewer than `2 ^ n` states. -/
theorem C139_size_partial {g : Nfa A} {v : Nat → Prop} {u : Nat → A → Prop} (h : SymHistory (fun _ op => op.NoRemoval) g v u) (hg : g.Reachable) (hi : g.initials ≠ [])
    {S : List Nat} (hs : ∀ q ∈ g.initials, q ∈ S) (ht : ∀ q a r, g.Trans q a r → r ∈ S)
    (pick : Nat → Nat) (order : Nat → List A → List A) (hord : ∀ t l, (order t l).Perm l) :
    ∃ dfa, Returns (Moore.run g false pick order) (.ok dfa) ∧ dfa.vertices.length < 2 ^ S.length := by
  obtain ⟨dfa, hr, hw⟩ := C139_no_removal_partial h hg hi pick order hord
  obtain ⟨dfa', hr', hq0, h1, h2, h3, -⟩ := C28_subsets hg false pick order hord
  have := returns_unique hr hr'; cases this
  refine ⟨dfa, hr, ?_⟩
  have hn : dfa.vertices.Nodup := by
    obtain ⟨r, hr'', hp⟩ := Moore.run_spec g false pick order hord
    have := returns_unique hr hr''; subst this
    obtain ⟨map, h⟩ := hp
    exact h.awf.outer
  have hS : ∀ w x, g.SubsetOf w x → x ∈ S := by
    rintro w x ⟨q0, m0, u, hu, -⟩
    replace m0 := hs _ m0
    induction hu with
    | nil => exact m0
    | cons e _ ih => exact ih (ht _ _ _ e)
  have hlt : (S.sublists.filter (fun l => decide (l ≠ []))).length < 2 ^ S.length := by
    rw [← List.length_sublists]
    exact List.length_filter_lt_length_iff_exists.2 ⟨[], by simp, by simp⟩
  refine Nat.lt_of_le_of_lt ?_ hlt
  classical
  refine Hopcroft.card_le hn (fun q l => ∃ w, dfa.deltaWord (some 0) w = some q ∧ ∀ x, x ∈ l ↔ g.SubsetOf w x) ?_ ?_
  · intro q hq
    obtain ⟨w, _, hw'⟩ := h1 q hq
    obtain ⟨x, hx⟩ := (hw w).1 ⟨q, hw'⟩
    refine ⟨S.filter (fun x => decide (g.SubsetOf w x)), List.mem_filter.2 ⟨List.mem_sublists.2 List.filter_sublist, ?_⟩, w, hw', fun y => ?_⟩
    · simp only [ne_eq, decide_not, Bool.not_eq_true', decide_eq_false_iff_not]
      exact List.ne_nil_of_mem (List.mem_filter.2 ⟨hS w x hx, by simpa using hx⟩)
    · rw [List.mem_filter, decide_eq_true_eq]
      exact ⟨fun hy => hy.2, fun hy => ⟨hS w y hy, hy⟩⟩
  · rintro q _ q' _ l ⟨w, hw, e⟩ ⟨w', hw', e'⟩
    exact (h3 w w' q q' hw hw').2 fun x => (e x).symm.trans (e' x)

/-- `0 -a-> 0, 1` and `1 -b-> 0`, built without removals: the hypotheses above hold of it. -/
example : ∃ (g : Nfa Char) (v : Nat → Prop) (u : Nat → Char → Prop), SymHistory (fun _ op => op.NoRemoval) g v u ∧ g.Reachable ∧ g.initials ≠ [] ∧
    (∀ q ∈ g.initials, q ∈ [0, 1]) ∧ g.sigma 0 = ['a'] ∧ g.sigma 1 = ['b'] := by
  have h0 := SymHistory.init (P := fun (_ : Nfa Char) (op : NfaOp Char) => op.NoRemoval) 'ε' []
  have h1 := h0.step (op := .addVertex) trivial rfl
  have h2 := h1.step (op := .addVertex) trivial rfl
  have h3 := h2.step (op := .addEdge 0 0 'a') trivial rfl
  have h4 := h3.step (op := .addEdge 0 1 'a') trivial rfl
  have h5 := h4.step (op := .addEdge 1 0 'b') trivial rfl
  have hr : Runs Nfa.exec (Nfa.init 'ε' [] 0) [.addVertex, .addVertex, .addEdge 0 0 'a', .addEdge 0 1 'a', .addEdge 1 0 'b'] _ := rfl
  exact ⟨_, _, _, h5, ⟨_, _, _, hr⟩, by decide, by decide, by decide, by decide⟩

end PyBGL
