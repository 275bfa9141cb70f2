import Verif.Proofs.NfaWF

/-!
# C25–C28: non-deterministic automata and determinization
-/

namespace PyBGL
variable {A : Type} [DecidableEq A]

/-- **C25.** The `while` loop of `delta_epsilon` terminates and returns exactly the states reachable from `qs`
through the ε-transitions enumerated by `edges()`. -/
theorem C25_delta_epsilon {g : Nfa A} (hg : g.Reachable) (qs : List Nat) :
    ∃ ret, Returns (g.deltaEpsilonLoop qs) (.ok ret) ∧ ret.Nodup ∧
      ∀ r, r ∈ ret ↔ ∃ q ∈ qs, ∃ n, LPath g.Trans q (List.replicate n g.eps) r := by
  refine ⟨g.deltaEpsilon qs, Nfa.deltaEpsilon_loop g qs, Nfa.nodup_deltaEpsilon g qs, fun r => ?_⟩
  have : g.Trans = g.T := by funext q a r; exact propext (Nfa.trans_iff hg.wf q a r)
  rw [Nfa.mem_deltaEpsilon, this]
  constructor
  · rintro ⟨q, hq, u, hu, hf⟩
    refine ⟨q, hq, u.length, ?_⟩
    have : u = List.replicate u.length g.eps := by
      rw [List.eq_replicate_iff]
      refine ⟨rfl, fun a ha => ?_⟩
      simpa using List.filter_eq_nil_iff.1 hf a ha
    rw [← this]; exact hu
  · rintro ⟨q, hq, n, h⟩
    exact ⟨q, hq, _, h, by simp [List.filter_replicate]⟩

/-- `delta_epsilon` is the value returned by its loop. -/
theorem C25_delta_epsilon_total (g : Nfa A) (qs : List Nat) :
    Returns (g.deltaEpsilonLoop qs) (.ok (g.deltaEpsilon qs)) := Nfa.deltaEpsilon_loop g qs

/-- **C26.** `accepts(w)` holds iff some path of `edges()` from an initial state to a final state spells `w`
once its ε-labels are erased. -/
theorem C26_accepts {g : Nfa A} (hg : g.Reachable) {w : List A} (hw : g.eps ∉ w) :
    g.accepts w = true ↔ g.Lang w := by
  rw [Nfa.lang_iff hg.wf, Nfa.accepts_iff_T g hw]

/-- The intermediate function `delta(q, a)`. -/
theorem C26_delta {g : Nfa A} (hg : g.Reachable) {q r : Nat} {a : A} (ha : a ≠ g.eps) :
    r ∈ g.delta q a ↔ WPath g.Trans g.eps q [a] r := by
  have : g.Trans = g.T := by funext q a r; exact propext (Nfa.trans_iff hg.wf q a r)
  rw [this]; exact Nfa.mem_delta g ha

/-- **C27.** Whatever the order in which sets are popped (`pick`) and iterated (`order`), and for both values of
`complete`, `moore_determination` terminates and its result accepts the same words. -/
theorem C27_moore {g : Nfa A} (hg : g.Reachable) (complete : Bool) (pick : Nat → Nat)
    (order : Nat → List A → List A) (hord : ∀ t l, (order t l).Perm l) :
    ∃ dfa, Returns (Moore.run g complete pick order) (.ok dfa) ∧
      ∀ w, g.eps ∉ w → (dfa.accepts w = g.accepts w ∧ (dfa.Lang w ↔ g.Lang w)) :=
  Moore.correct hg.wf complete pick order hord

/-- The subset of states of the NFA reached by a word. -/
def Nfa.SubsetOf (g : Nfa A) (w : List A) (x : Nat) : Prop := ∃ q₀ ∈ g.initials, WPath g.Trans g.eps q₀ w x

/-- **C28.** Every state of the result is reached by some word over the alphabet; two words reaching states reach
the same state iff they reach the same subset; every word over the alphabet reaches a state when `complete`,
and otherwise every word reaching a non-empty subset does. With `complete`, every state has a transition by every
symbol of the alphabet. -/
theorem C28_subsets {g : Nfa A} (hg : g.Reachable) (complete : Bool) (pick : Nat → Nat)
    (order : Nat → List A → List A) (hord : ∀ t l, (order t l).Perm l) :
    ∃ dfa, Returns (Moore.run g complete pick order) (.ok dfa) ∧ dfa.q0 = some 0 ∧
      (∀ q ∈ dfa.vertices, ∃ w, (∀ a ∈ w, a ∈ g.alphabet) ∧ dfa.deltaWord (some 0) w = some q) ∧
      (∀ w q, dfa.deltaWord (some 0) w = some q → q ∈ dfa.vertices) ∧
      (∀ w w' q q', dfa.deltaWord (some 0) w = some q → dfa.deltaWord (some 0) w' = some q' →
        (q = q' ↔ ∀ x, g.SubsetOf w x ↔ g.SubsetOf w' x)) ∧
      (∀ w x, g.SubsetOf w x → ∃ q, dfa.deltaWord (some 0) w = some q) ∧
      (complete = true → ∀ w, (∀ a ∈ w, a ∈ g.alphabet) → ∃ q, dfa.deltaWord (some 0) w = some q) ∧
      (complete = true → ∀ q ∈ dfa.vertices, ∀ a, a ∈ g.alphabet ↔ ∃ r, dfa.delta q a = some r) := by
  have hT : g.Trans = g.T := by funext q a r; exact propext (Nfa.trans_iff hg.wf q a r)
  obtain ⟨r, hr, hp⟩ := Moore.run_spec g complete pick order hord
  cases r with
  | error e => cases hp
  | ok dfa =>
    obtain ⟨map, h⟩ := hp
    have hdw := fun w => Moore.deltaWord_spec h w h.start
    refine ⟨dfa, hr, h.q0, ?_, ?_, ?_, ?_, ?_, ?_⟩
    · intro q hq
      obtain ⟨k, hk⟩ := (h.verts q).1 hq
      obtain ⟨w, hw⟩ := h.reach k q hk
      exact ⟨w, Moore.kpath_word hw, (hdw w q).2 ⟨k, hw, hk⟩⟩
    · intro w q hq
      obtain ⟨k, _, hk⟩ := (hdw w q).1 hq
      exact (h.verts q).2 ⟨k, hk⟩
    · intro w w' q q' h1 h2
      obtain ⟨k, hw, hk⟩ := (hdw w q).1 h1
      obtain ⟨k', hw', hk'⟩ := (hdw w' q').1 h2
      have e1 : ∀ x, g.SubsetOf w x ↔ x ∈ k := fun x => by rw [Moore.k0path_mem hw, Nfa.SubsetOf, hT]
      have e2 : ∀ x, g.SubsetOf w' x ↔ x ∈ k' := fun x => by rw [Moore.k0path_mem hw', Nfa.SubsetOf, hT]
      simp only [e1, e2]
      constructor
      · rintro rfl
        have := h.inj _ _ _ hk hk'
        subst this; exact fun x => Iff.rfl
      · intro he
        have := Moore.kreach_ext (h.reach _ _ hk) (h.reach _ _ hk') he
        subst this; rw [hk] at hk'; exact Option.some.inj hk'
    · rintro w x ⟨q, hq, hpath⟩
      rw [hT] at hpath
      obtain ⟨k', hk'⟩ := Moore.kpath_exists g complete w hpath.not_eps
        ((Moore.mem_k0 g q).2 ⟨q, hq, .nil q⟩) hpath
      obtain ⟨r, hr⟩ := Moore.kpath_reach h h.start hk'
      exact ⟨r, (hdw w r).2 ⟨k', hk', hr⟩⟩
    · rintro rfl w hw
      obtain ⟨k', hk'⟩ := Moore.kpath_complete (k := Moore.k0 g) hw
      obtain ⟨r, hr⟩ := Moore.kpath_reach h h.start hk'
      exact ⟨r, (hdw w r).2 ⟨k', hk', hr⟩⟩
    · rintro rfl q hq a
      obtain ⟨k, hk⟩ := (h.verts q).1 hq
      constructor
      · intro ha
        obtain ⟨r, _, hr⟩ := h.inst k q a hk (by simpa [Moore.subsetSigma] using ha)
        exact ⟨r, hr⟩
      · rintro ⟨r, hr⟩
        by_contra ha
        have : dfa.delta q a = none := h.free k q a hk (by simpa [Moore.subsetSigma] using ha)
        rw [hr] at this; cases this

/-! ## The hypotheses are met -/

/-- An NFA over `Nat` with ε = 9 and an ε-cycle: `0 -1-> 0`, `0 -2-> 1`, `1 -ε-> 2`, `2 -ε-> 1`, final 2. -/
def exampleNfa : Nfa Nat :=
  ((([(0, 0, 1), (0, 1, 2), (1, 2, 9), (2, 1, 9)] : List (Nat × Nat × Nat)).foldl
    (fun g t => (g.addEdge t.1 t.2.1 t.2.2).2) (Nfa.init 9 [] 3)).setFinal 2)

theorem exampleNfa_reachable : exampleNfa.Reachable :=
  ⟨9, [], [.addVertex, .addVertex, .addVertex, .addEdge 0 0 1, .addEdge 0 1 2, .addEdge 1 2 9, .addEdge 2 1 9,
    .setFinal 2 true], rfl⟩

example : exampleNfa.accepts [1, 1, 2] = true ∧ exampleNfa.accepts [1, 1] = false ∧
    exampleNfa.deltaEpsilon [1] = [1, 2] := by decide
example : exampleNfa.Lang [1, 1, 2] := (C26_accepts exampleNfa_reachable (by decide)).1 (by decide)
example : ∃ dfa, Returns (Moore.run exampleNfa true id (fun _ l => l.reverse)) (.ok dfa) ∧
    dfa.accepts [1, 2] = true := by
  obtain ⟨dfa, h1, h2⟩ := C27_moore exampleNfa_reachable true id (fun _ l => l.reverse)
    (fun _ l => List.reverse_perm l)
  exact ⟨dfa, h1, by rw [(h2 [1, 2] (by decide)).1]; decide⟩

end PyBGL
