import Verif.Proofs.TrieLemmas

/-!
# C93: `automaton_insert_string`, `delta_best_effort` and `accepts_debug` on arbitrary automata
-/

namespace PyBGL
open Automaton
variable {A : Type} [DecidableEq A]

/-- An automaton without dangling references: its initial state is one of its states, its transitions lead to states and only states are
final. -/
structure Automaton.Sound (g : Automaton A) (q₀ : Nat) : Prop where
  init : g.initial = some q₀
  mem : q₀ ∈ g.vertices
  targets : ∀ e ∈ g.edges, e.target ∈ g.vertices
  finals : ∀ q, g.isFinal q = true → q ∈ g.vertices

/-! ## Extension of an automaton by a chain of new states -/

theorem deltaWord_mem {g : Automaton A} (hc : ∀ q a r, g.delta q a = some r → r ∈ g.vertices) {s : Nat} (hs : s ∈ g.vertices) {x : List A}
    {t : Nat} (h : g.deltaWord (some s) x = some t) : t ∈ g.vertices := by
  induction x using List.reverseRecOn generalizing t with
  | nil => simp at h; exact h ▸ hs
  | append_singleton y b ih =>
    rw [deltaWord_snoc] at h
    cases hp : g.deltaWord (some s) y with
    | none => rw [hp] at h; cases h
    | some p => rw [hp] at h; exact hc _ _ _ h

/-- Runs of the automaton after the addition of one state below `q`. -/
theorem leaf_runs {g : Automaton A} (hg : AWF g) (hc : ∀ q a r, g.delta q a = some r → r ∈ g.vertices) {q : Nat} {a : A}
    (hq : q ∈ g.vertices) (hd : g.delta q a = none) {s : Nat} (hs : s ∈ g.vertices) (x : List A) :
    ((addLeaf g q a).deltaWord (some s) x = some g.lastVertexId ↔ ∃ y, x = y ++ [a] ∧ g.deltaWord (some s) y = some q) ∧
    ∀ t ∈ g.vertices, ((addLeaf g q a).deltaWord (some s) x = some t ↔ g.deltaWord (some s) x = some t) := by
  have hf := fresh hg
  have hr : ∀ b, g.delta g.lastVertexId b = none := fun b => delta_not_mem b hf
  induction x using List.reverseRecOn with
  | nil =>
    refine ⟨⟨fun h => ?_, fun ⟨y, h, _⟩ => ?_⟩, fun t _ => by simp⟩
    · simp at h; exact absurd (h ▸ hs) hf
    · have := congrArg List.length h; simp at this
  | append_singleton y b ih =>
    rw [deltaWord_snoc, deltaWord_snoc]
    -- where the prefix leads
    cases hp : (addLeaf g q a).deltaWord (some s) y with
    | none =>
      have hn : g.deltaWord (some s) y = none := by
        cases h : g.deltaWord (some s) y with
        | none => rfl
        | some p => rw [(ih.2 p (deltaWord_mem hc hs h)).mpr h] at hp; cases hp
      rw [hn]
      refine ⟨⟨(fun h => by cases h), ?_⟩, fun t _ => by simp [deltaO]⟩
      rintro ⟨z, h1, h2⟩
      obtain ⟨rfl, _⟩ := List.append_inj' h1 rfl
      rw [h2] at hn; cases hn
    | some p =>
      simp only [deltaO, Option.bind_some, delta_addLeaf hg]
      by_cases hpn : p = g.lastVertexId
      · subst hpn
        have hne : ¬ (q = g.lastVertexId ∧ a = b) := fun h => hf (h.1 ▸ hq)
        rw [if_neg hne, hr]
        obtain ⟨z, rfl, hz⟩ := ih.1.mp hp
        have hn : g.deltaWord (some s) (z ++ [a]) = none := by rw [deltaWord_snoc, hz]; exact hd
        rw [hn]
        refine ⟨⟨(fun h => by cases h), ?_⟩, fun t _ => by simp⟩
        rintro ⟨z', h1, h2⟩
        obtain ⟨rfl, _⟩ := List.append_inj' h1 rfl
        rw [h2] at hn; cases hn
      · have hpg : g.deltaWord (some s) y = some p := by
          -- `p` is a state of `g`
          cases h : g.deltaWord (some s) y with
          | some p' => rw [(ih.2 p' (deltaWord_mem hc hs h)).mpr h] at hp; exact hp
          | none =>
            exfalso
            apply hpn
            clear ih
            -- only the new state is outside
            have key : ∀ z p, (addLeaf g q a).deltaWord (some s) z = some p → g.deltaWord (some s) z = none → p = g.lastVertexId := by
              intro z
              induction z using List.reverseRecOn with
              | nil => intro p _ h; simp at h
              | append_singleton z c ihz =>
                intro p h1 h2
                rw [deltaWord_snoc] at h1 h2
                cases hz : (addLeaf g q a).deltaWord (some s) z with
                | none => rw [hz] at h1; cases h1
                | some r =>
                  rw [hz] at h1
                  simp only [deltaO, Option.bind_some, delta_addLeaf hg] at h1
                  split at h1
                  · exact (Option.some.inj h1).symm
                  · cases hz' : g.deltaWord (some s) z with
                    | none =>
                      have := ihz r hz hz'
                      subst this
                      rw [hr] at h1; cases h1
                    | some r' =>
                      rw [hz'] at h2
                      simp only [deltaO, Option.bind_some] at h2
                      -- both automata are deterministic and agree on the states of `g`
                      have : ∀ z r', g.deltaWord (some s) z = some r' → (addLeaf g q a).deltaWord (some s) z = some r' := by
                        intro z
                        induction z using List.reverseRecOn with
                        | nil => intro r' h; simpa using h
                        | append_singleton z c ihz =>
                          intro r' h
                          rw [deltaWord_snoc] at h ⊢
                          cases hz : g.deltaWord (some s) z with
                          | none => rw [hz] at h; cases h
                          | some r =>
                            rw [hz] at h; rw [ihz r hz]
                            simp only [deltaO, Option.bind_some, delta_addLeaf hg] at h ⊢
                            rw [if_neg]
                            · exact h
                            · rintro ⟨rfl, rfl⟩; rw [hd] at h; cases h
                      rw [this z r' hz'] at hz
                      cases hz
                      rw [h2] at h1; cases h1
            exact key y p hp h
        rw [hpg]
        simp only [Option.bind_some]
        by_cases hqp : q = p ∧ a = b
        · obtain ⟨rfl, rfl⟩ := hqp
          rw [if_pos ⟨rfl, rfl⟩, hd]
          refine ⟨⟨fun _ => ⟨y, rfl, hpg⟩, fun _ => rfl⟩, fun t ht => ?_⟩
          constructor
          · intro h; cases h; exact absurd ht hf
          · intro h; cases h
        · rw [if_neg hqp]
          refine ⟨⟨fun h => absurd (hc _ _ _ h) hf, ?_⟩, fun t _ => Iff.rfl⟩
          rintro ⟨z, h1, h2⟩
          obtain ⟨rfl, h3⟩ := List.append_inj' h1 rfl
          rw [hpg] at h2; cases h2
          simp at h3
          exact absurd ⟨rfl, h3.symm⟩ hqp

/-- What `automaton_insert_string` does once the readable prefix is consumed. -/
theorem chain_runs {g : Automaton A} (hg : AWF g) (hc : ∀ q a r, g.delta q a = some r → r ∈ g.vertices) {q : Nat} (hq : q ∈ g.vertices)
    (y : List A) (hd : ∀ a, y.head? = some a → g.delta q a = none) :
    ∃ q' g', insertChain g (some q) y = .ok (some q', g') ∧ AWF g' ∧ (∀ q a r, g'.delta q a = some r → r ∈ g'.vertices) ∧
      g'.q0 = g.q0 ∧ g'.final = g.final ∧ q' ∈ g'.vertices ∧
      g'.vertices = g.vertices ++ List.range' g.lastVertexId y.length ∧
      ∀ s ∈ g.vertices, ∀ x, (g'.deltaWord (some s) x = some q' ↔ ∃ z, x = z ++ y ∧ g.deltaWord (some s) z = some q) ∧
        ∀ t ∈ g.vertices, (g'.deltaWord (some s) x = some t ↔ g.deltaWord (some s) x = some t) := by
  induction y generalizing g q with
  | nil => exact ⟨q, g, rfl, hg, hc, rfl, rfl, hq, by simp, fun s hs x => ⟨by simp, fun t _ => Iff.rfl⟩⟩
  | cons a y ih =>
    have hda := hd a rfl
    have hq' : q ∈ g.addVertex.2.vertices := by rw [vertices_addVertex hg]; simp [hq]
    have hv : (addLeaf g q a).vertices = g.vertices ++ [g.lastVertexId] := by
      unfold addLeaf; rw [vertices_setDelta _ _ hq', vertices_addVertex hg]
    have hwf : AWF (addLeaf g q a) := AWF_setDelta (AWF_addVertex hg) _ _ hq'
    have hcl : ∀ q' a' r, (addLeaf g q a).delta q' a' = some r → r ∈ (addLeaf g q a).vertices := by
      intro q' a' r h
      rw [delta_addLeaf hg] at h
      rw [hv]
      split at h
      · cases h; simp
      · simp [hc _ _ _ h]
    have hf := fresh hg
    have hnone : ∀ b, (addLeaf g q a).delta g.lastVertexId b = none := by
      intro b
      rw [delta_addLeaf hg, if_neg (fun h : q = g.lastVertexId ∧ a = b => hf (h.1 ▸ hq)), delta_not_mem b hf]
    obtain ⟨q', g', h1, h2, h3, h4, h5, h6, h7, h8⟩ := ih hwf hcl (q := g.lastVertexId) (by rw [hv]; simp) (fun b _ => hnone b)
    refine ⟨q', g', ?_, h2, h3, h4, h5, h6, ?_, ?_⟩
    · have := addLeaf_eq hg hq hda
      show (do
        let (_, _, g) ← g.addVertex.2.addEdge q g.lastVertexId a
        insertChain g (some _) y) = _
      rw [this]; exact h1
    · rw [h7, hv, List.length_cons, List.range'_succ, List.append_assoc]; rfl
    · intro s hs x
      have hs' : s ∈ (addLeaf g q a).vertices := by rw [hv]; simp [hs]
      obtain ⟨h9, h10⟩ := h8 s hs' x
      constructor
      · rw [h9]
        constructor
        · rintro ⟨z, rfl, hz⟩
          obtain ⟨z', rfl, hz'⟩ := (leaf_runs hg hc hq hda hs z).1.mp hz
          exact ⟨z', by simp, hz'⟩
        · rintro ⟨z, rfl, hz⟩
          exact ⟨z ++ [a], by simp, (leaf_runs hg hc hq hda hs _).1.mpr ⟨z, rfl, hz⟩⟩
      · intro t ht
        rw [h10 t (by rw [hv]; simp [ht])]
        exact (leaf_runs hg hc hq hda hs x).2 t ht

/-! ## The property -/

/-- **C93**: `delta_best_effort(w)` reads the longest prefix of `w` that labels a path from the initial state, and returns the state it leads to
and its length. -/
theorem C93_best_effort {g : Automaton A} (h : g.Reachable) {q₀ : Nat} (hi : g.initial = some q₀) (w : List A) :
    ∃ q k, g.deltaBestEffort w = (some q, k) ∧ k ≤ w.length ∧ LPath g.Trans q₀ (w.take k) q ∧
      ∀ j r, k < j → j ≤ w.length → ¬ LPath g.Trans q₀ (w.take j) r := by
  obtain ⟨q, k, h1, h2, h3, h4⟩ := deltaBestEffortFrom_spec g w q₀ 0
  refine ⟨q, k, ?_, h2, (deltaWord_iff h.awf).mp h3, ?_⟩
  · unfold deltaBestEffort; rw [hi, h1, Nat.zero_add]
  · intro j r hj hjl hp
    rw [← deltaWord_iff h.awf] at hp
    obtain ⟨b, hb⟩ : ∃ b, (w.drop k).head? = some b := by
      cases hd : w.drop k with
      | nil => have := congrArg List.length hd; simp at this; omega
      | cons b t => exact ⟨b, rfl⟩
    have hn := h4 b hb
    have hsplit : w.take j = w.take k ++ (b :: (w.drop (k + 1)).take (j - k - 1)) := by
      have hdk : w.drop k = b :: w.drop (k + 1) := by
        cases hd : w.drop k with
        | nil => rw [hd] at hb; cases hb
        | cons c t =>
          rw [hd] at hb; simp at hb; subst hb
          congr 1
          have := congrArg List.tail hd
          simpa using this.symm
      have : w.take j = w.take k ++ (w.drop k).take (j - k) := by
        rw [← List.take_add]; congr 1; omega
      rw [this, hdk]
      congr 1
      obtain ⟨m, hm⟩ : ∃ m, j - k = m + 1 := ⟨j - k - 1, by omega⟩
      rw [hm, List.take_succ_cons]; simp
    rw [hsplit, deltaWord_append, h3, deltaWord_cons] at hp
    simp only [deltaO, Option.bind_some, hn] at hp
    simp at hp

/-- What the automaton accepts after `automaton_insert_string(w)`: what it accepted before, and every word made of a word leading to the
state where the reading of `w` stops followed by the unread part of `w`. -/
theorem C93_insert {g : Automaton A} (h : g.Reachable) {q₀ : Nat} (hs : g.Sound q₀) (w : List A) :
    ∃ x y q g', w = x ++ y ∧ LPath g.Trans q₀ x q ∧ (∀ a y', y = a :: y' → ∀ r, ¬ g.Trans q a r) ∧
      g.insertString w = .ok g' ∧ g'.initial = g.initial ∧
      g'.vertices = g.vertices ++ List.range' g.lastVertexId y.length ∧
      ∀ u, g'.Lang u ↔ g.Lang u ∨ ∃ z, LPath g.Trans q₀ z q ∧ u = z ++ y := by
  have hg := h.awf
  have hc : ∀ q a r, g.delta q a = some r → r ∈ g.vertices := fun q a r hr => hs.targets ⟨q, r, a⟩ ((mem_edges hg).mpr hr)
  obtain ⟨q, k, h1, h2, h3, h4⟩ := deltaBestEffortFrom_spec g w q₀ 0
  have hq : q ∈ g.vertices := deltaWord_mem hc hs.mem h3
  obtain ⟨q', g', h5, h6, _, h7, h8, h9, h10, h11⟩ := chain_runs hg hc hq (w.drop k) h4
  refine ⟨w.take k, w.drop k, q, g'.setFinal q', (List.take_append_drop _ _).symm, (deltaWord_iff hg).mp h3, ?_, ?_, ?_, h10, ?_⟩
  · intro a y' hy r hr
    have := h4 a (by rw [hy]; rfl)
    rw [trans_iff hg] at hr
    rw [this] at hr; cases hr
  · unfold insertString deltaBestEffort
    rw [hs.init, h1]
    simp only [Nat.zero_add, h5, bind, Except.bind]
  · exact h7
  · intro u
    have h6' : AWF (g'.setFinal q') := ⟨h6.outer, h6.inner, h6.lt⟩
    have hi : g.q0 = some q₀ := hs.init
    have hacc : (g'.setFinal q').Lang u ↔ ∃ t, g'.deltaWord (some q₀) u = some t ∧ (q' = t ∨ g.isFinal t = true) := by
      unfold Automaton.Lang
      simp only [← deltaWord_iff h6', deltaWord_setFinal, isFinal_setFinal]
      have h7' : (g'.setFinal q').q0 = some q₀ := h7.trans hi
      rw [h7']
      have hfin : ∀ t, g'.isFinal t = g.isFinal t := fun t => by unfold isFinal; rw [h8]
      constructor
      · rintro ⟨_, t, h0, ht, hf⟩
        cases h0
        refine ⟨t, ht, ?_⟩
        split at hf
        · exact .inl ‹_›
        · exact .inr (by rw [← hfin]; exact hf)
      · rintro ⟨t, ht, hf⟩
        refine ⟨q₀, t, rfl, ht, ?_⟩
        split
        · rfl
        · rcases hf with hf | hf
          · contradiction
          · rw [hfin]; exact hf
    have hold : g.Lang u ↔ ∃ t, g.deltaWord (some q₀) u = some t ∧ g.isFinal t = true := by
      unfold Automaton.Lang
      rw [hi]
      simp only [← deltaWord_iff hg]
      constructor
      · rintro ⟨_, t, h0, h⟩; cases h0; exact ⟨t, h⟩
      · rintro ⟨t, h⟩; exact ⟨q₀, t, rfl, h⟩
    rw [hacc, hold]
    constructor
    · rintro ⟨t, ht, rfl | hf⟩
      · obtain ⟨z, rfl, hz⟩ := (h11 q₀ hs.mem u).1.mp ht
        exact .inr ⟨z, (deltaWord_iff hg).mp hz, rfl⟩
      · exact .inl ⟨t, ((h11 q₀ hs.mem u).2 t (hs.finals t hf)).mp ht, hf⟩
    · rintro (⟨t, ht, hf⟩ | ⟨z, hz, rfl⟩)
      · exact ⟨t, ((h11 q₀ hs.mem u).2 t (hs.finals t hf)).mpr ht, .inr hf⟩
      · exact ⟨q', (h11 q₀ hs.mem _).1.mpr ⟨z, rfl, (deltaWord_iff hg).mpr hz⟩, .inl rfl⟩

/-- **C93**: after `automaton_insert_string(w)` the automaton accepts `w`, and every word it accepted before. -/
theorem C93_accepts {g : Automaton A} (h : g.Reachable) {q₀ : Nat} (hs : g.Sound q₀) (w : List A) :
    ∃ g', g.insertString w = .ok g' ∧ g'.Lang w ∧ ∀ u, g.Lang u → g'.Lang u := by
  obtain ⟨x, y, q, g', rfl, hx, _, h1, _, _, h2⟩ := C93_insert h hs w
  exact ⟨g', h1, (h2 _).mpr (.inr ⟨x, hx, rfl⟩), fun u hu => (h2 u).mpr (.inl hu)⟩

/-- **C93**: when no two words lead from the initial state to the same state, `automaton_insert_string(w)` adds exactly the word `w`. -/
theorem C93_exact_partial {g : Automaton A} (h : g.Reachable) {q₀ : Nat} (hs : g.Sound q₀)
    (ht : ∀ x y q, LPath g.Trans q₀ x q → LPath g.Trans q₀ y q → x = y) (w : List A) :
    ∃ g', g.insertString w = .ok g' ∧ ∀ u, g'.Lang u ↔ g.Lang u ∨ u = w := by
  obtain ⟨x, y, q, g', rfl, hx, _, h1, _, _, h2⟩ := C93_insert h hs w
  refine ⟨g', h1, fun u => ?_⟩
  rw [h2]
  constructor
  · rintro (h | ⟨z, hz, rfl⟩)
    · exact .inl h
    · exact .inr (by rw [ht _ _ _ hz hx])
  · rintro (h | rfl)
    · exact .inl h
    · exact .inr ⟨x, hx, rfl⟩

/-- The states reached by the words, before and after: the property read literally, "the automaton accepts `w` and what it accepted, and nothing
else". -/
def C93_statement : Prop :=
  ∀ (g : Automaton Char), g.Reachable → ∀ (w : List Char) (g' : Automaton Char), g.insertString w = .ok g' → ∀ u, g'.Lang u ↔ g.Lang u ∨ u = w

/-- **C93**, counterexample: in an automaton without any state, whose initial state is `0` by default, the first inserted symbol makes a loop on
state `0`: after the insertion of `"ab"` the automaton accepts `"b"` and `"aab"`. -/
theorem C93_counterexample : ¬ C93_statement := by
  intro h
  have hr : (Automaton.empty : Automaton Char).Reachable := ⟨[], rfl⟩
  have h1 := h _ hr ['a', 'b'] ⟨2, [(0, [('a', 0), ('b', 1)]), (1, [])], some 0, [(1, true)]⟩ rfl ['b']
  have hl : Automaton.Lang (⟨2, [(0, [('a', 0), ('b', 1)]), (1, [])], some 0, [(1, true)]⟩ : Automaton Char) ['b'] :=
    ⟨0, 1, rfl, .cons (by unfold Automaton.Trans; decide) (.nil _), by decide⟩
  rcases h1.mp hl with ⟨q, f, _, hp, _⟩ | h
  · cases hp with
    | cons ht _ => simp [Automaton.Trans, Automaton.edges, Automaton.empty] at ht
  · cases h

/-- A loop labelled by `'a'` on the initial state: inserting `"ab"` adds every word of `a*b`. -/
def exLoop : Automaton Char := ⟨1, [(0, [('a', 0)])], some 0, []⟩

theorem exLoop_reachable : exLoop.Reachable := ⟨[.addVertex, .addEdge 0 0 'a'], rfl⟩

theorem exLoop_sound : exLoop.Sound 0 := ⟨rfl, by decide, by decide, by intro q h; simp [exLoop, isFinal, Dict.getD] at h⟩

/-- **C93**, counterexample without dangling references: the automaton may be sound and still accept more than `w`. -/
theorem C93_loop_counterexample :
    ∃ g' : Automaton Char, exLoop.insertString ['a', 'b'] = .ok g' ∧ g'.accepts ['b'] = true ∧ exLoop.accepts ['b'] = false :=
  ⟨_, rfl, by decide, by decide⟩

/-- **C93**: without initial state, inserting a non-empty word raises; inserting the empty word changes nothing. -/
theorem C93_no_initial {g : Automaton A} (hi : g.initial = none) (w : List A) :
    g.insertString w = if w = [] then .ok g else .error .assertionError := by
  unfold insertString deltaBestEffort
  rw [hi]
  cases w with
  | nil => rfl
  | cons a w => rfl

/-- **C93**: `accepts_debug` answers like `accepts`. -/
theorem C93_accepts_debug {g : Automaton A} (w : List A) : g.acceptsDebug w = g.accepts w := by
  unfold acceptsDebug accepts
  generalize g.initial = q
  induction w generalizing q with
  | nil => cases q <;> rfl
  | cons a w ih =>
    cases q with
    | none => rfl
    | some q => exact ih (g.delta q a)

/-- Non-vacuity: an automaton with a branch and a loop away from the stop state; the hypotheses of `C93_insert` hold. -/
example : exLoop.Reachable ∧ exLoop.Sound 0 := ⟨exLoop_reachable, exLoop_sound⟩

/-- Non-vacuity of `C93_exact_partial`: two states and one transition. -/
example : ∃ g : Automaton Char, g.Reachable ∧ g.Sound 0 ∧ g.Lang ['a'] ∧
    ∀ x y q, LPath g.Trans 0 x q → LPath g.Trans 0 y q → x = y := by
  let g : Automaton Char := ⟨2, [(0, [('a', 1)]), (1, [])], some 0, [(1, true)]⟩
  have hT : ∀ q a r, g.Trans q a r → q = 0 ∧ a = 'a' ∧ r = 1 := by
    intro q a r h
    simp [g, Automaton.Trans, Automaton.edges] at h
    exact ⟨h.1, h.2.2, h.2.1⟩
  have hP : ∀ x q, LPath g.Trans 0 x q → (x = [] ∧ q = 0) ∨ (x = ['a'] ∧ q = 1) := by
    intro x q h
    cases h with
    | nil => exact .inl ⟨rfl, rfl⟩
    | cons h p =>
      obtain ⟨_, rfl, rfl⟩ := hT _ _ _ h
      cases p with
      | nil => exact .inr ⟨rfl, rfl⟩
      | cons h p => cases (hT _ _ _ h).1
  refine ⟨g, ⟨[.addVertex, .addVertex, .addEdge 0 1 'a', .setFinal 1 true], rfl⟩, ⟨rfl, by decide, by decide, ?_⟩, ?_, ?_⟩
  · intro q h
    by_cases h1 : q = 1
    · subst h1; decide
    · simp [g, isFinal, Dict.getD, Dict.get?, Ne.symm h1] at h
  · exact ⟨0, 1, rfl, .cons (by unfold Automaton.Trans; decide) (.nil _), by decide⟩
  · intro x y q hx hy
    rcases hP _ _ hx with ⟨rfl, rfl⟩ | ⟨rfl, rfl⟩ <;> rcases hP _ _ hy with ⟨rfl, h⟩ | ⟨rfl, h⟩ <;> first | rfl | cases h

end PyBGL
