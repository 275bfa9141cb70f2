import Verif.Spec.AutomatonTests
import Verif.Props.C38_C40_Hopcroft

/-!
# C168: `is_deterministic` and `is_minimal`

`is_minimal(g)` returns an exception object instead of raising it, so that `if is_minimal(g)` is taken whatever `g`. What a caller can do instead is to compare the numbers of states
before and after `hopcroft_minimize`.
-/

namespace PyBGL
open Automaton Hopcroft
variable {A : Type} [DecidableEq A]

/-- `is_deterministic(g)` and `is_finite(g)` say true, and rightly so: whatever the history, no two transitions from a state have the same label. -/
theorem C168_deterministic {g : Automaton A} (h : g.Reachable) : (g.isDeterministic.truthy = true ↔ Deterministic g) ∧ g.isDeterministic = .bool true ∧ g.isFinite = .bool true := by
  refine ⟨⟨fun _ => ?_, fun _ => rfl⟩, rfl, rfl⟩
  rintro ⟨q, r, a⟩ he ⟨q', r', a'⟩ he' h1 h2
  dsimp only at h1 h2
  subst h1 h2
  rw [mem_edges h.awf] at he he'
  rw [he] at he'
  cases he'
  rfl

omit [DecidableEq A] in
/-- `if is_minimal(g)` is always taken; what is returned is not even a Boolean. -/
theorem C168_minimal_always (g : Automaton A) : g.isMinimal.truthy = true ∧ ∀ b, g.isMinimal ≠ .bool b := ⟨rfl, fun _ h => by cases h⟩

private theorem proper_paths {k : Automaton A} (hk : Proper k) (k0 : Nat) (u : List A) (r : Nat) (h0 : k.q0 = some k0) (h : LPath k.Trans k0 u r) : r ∈ k.vertices := by
  obtain ⟨_, hc, q0, hq0, e⟩ := hk
  rw [e] at h0
  cases h0
  clear e
  induction h with
  | nil => exact hq0
  | cons ht _ ih => exact ih (hc _ _ _ ht)

private theorem merged {g : IAutomaton A} (h : IAutomaton.SafeHistory g) (hm : Mixed g.a) {ord : HopcroftOrd A} (ho : ord.Valid) (ht : ∀ q ∈ g.a.vertices, Useful g.a q) :
    ∃ m, Returns (hopcroftMinimize ord g) (.ok m) ∧ Proper m.a ∧ (∀ w, m.a.Lang w ↔ g.a.Lang w) ∧ m.a.vertices.length ≤ g.a.vertices.length ∧
      (m.a.vertices.length = g.a.vertices.length ↔ ∀ p ∈ g.a.vertices, ∀ q ∈ g.a.vertices, g.a.Indist p q → p = q) ∧
      ∀ k : Automaton A, Proper k → (∀ w, k.Lang w ↔ g.a.Lang w) → m.a.vertices.length ≤ k.vertices.length := by
  obtain ⟨m, h1, hw, ⟨n, hn⟩, φ, f1, f2, f3, f4, _⟩ := C39_quotient h hm ho
  obtain ⟨r, hr, hl, _⟩ := C38_language h ho
  cases returns_unique h1 hr
  have hgn : g.a.vertices.Nodup := h.wf.out.outer
  have hmn : m.a.vertices.Nodup := by rw [hn]; exact List.nodup_range
  refine ⟨m, h1, ⟨hw.out, ?_, ?_⟩, ?_, ?_, ⟨?_, ?_⟩, ?_⟩
  · intro q a r hT
    have hmem := (hw.mirror q r a).2 ((mem_edges hw.out).1 hT)
    rw [← hw.keys]
    by_contra hc
    rw [← Dict.get?_eq_none_iff] at hc
    simp [lk, hc] at hmem
  · obtain ⟨q0, hq0, e⟩ := hm.init
    exact ⟨φ q0, f1 q0 hq0, by rw [f4, e]; rfl⟩
  · intro w
    rw [← accepts_iff hw.out, ← accepts_iff h.wf.out]
    exact hl m rfl w
  · exact card_le hmn (fun s q => φ q = s) (fun s hs => f2 s hs) fun s _ s' _ y e e' => e.symm.trans e'
  · intro hlen p hp q hq hi
    by_contra hne
    have hφ := (f3 p hp q hq).2 hi
    have : m.a.vertices.length ≤ (g.a.vertices.erase p).length := by
      refine card_le hmn (fun s q => φ q = s) (fun s hs => ?_) fun s _ s' _ y e e' => e.symm.trans e'
      obtain ⟨x, hx, rfl⟩ := f2 s hs
      by_cases hxp : x = p
      · subst hxp
        exact ⟨q, (List.mem_erase_of_ne (Ne.symm hne)).2 hq, hφ.symm⟩
      · exact ⟨x, (List.mem_erase_of_ne hxp).2 hx, rfl⟩
    rw [List.length_erase_of_mem hp] at this
    have := List.length_pos_of_mem hp
    omega
  · intro hinj
    refine Nat.le_antisymm ?_ ?_
    · exact card_le hmn (fun s q => φ q = s) (fun s hs => f2 s hs) fun s _ s' _ y e e' => e.symm.trans e'
    · refine card_le hgn (fun q s => q ∈ g.a.vertices ∧ φ q = s) (fun q hq => ⟨φ q, f1 q hq, hq, rfl⟩) ?_
      rintro q hq q' hq' s ⟨_, e⟩ ⟨_, e'⟩
      exact hinj q hq q' hq' ((f3 q hq q' hq').1 (e.trans e'.symm))
  · intro k hk hlang
    obtain ⟨m', r', hle⟩ := minimum_trim h hm ho ht hk.1 hlang k.vertices (proper_paths hk)
    cases returns_unique h1 r'
    exact hle

/-- The test that works: an automaton whose states are all useful (and not all alike) has the fewest possible states exactly if `hopcroft_minimize` returns one with as many states,
whatever the enumerations of the sets. -/
theorem C168_test {g : IAutomaton A} (h : IAutomaton.SafeHistory g) (hm : Mixed g.a) {ord : HopcroftOrd A} (ho : ord.Valid) (ht : ∀ q ∈ g.a.vertices, Useful g.a q) :
    ∃ m, Returns (hopcroftMinimize ord g) (.ok m) ∧ (m.a.vertices.length = g.a.vertices.length ↔ Fewest g.a) := by
  obtain ⟨m, h1, h2, h3, h4, _, h6⟩ := merged h hm ho ht
  refine ⟨m, h1, fun e k hk hl => by rw [← e]; exact h6 k hk hl, fun hF => Nat.le_antisymm h4 (hF m.a h2 h3)⟩

/-- Such an automaton has the fewest possible states exactly if no two of its states are indistinguishable. -/
theorem C168_states {g : IAutomaton A} (h : IAutomaton.SafeHistory g) (hm : Mixed g.a) (ht : ∀ q ∈ g.a.vertices, Useful g.a q) {ord : HopcroftOrd A} (ho : ord.Valid) :
    Fewest g.a ↔ ∀ p ∈ g.a.vertices, ∀ q ∈ g.a.vertices, g.a.Indist p q → p = q := by
  obtain ⟨m, h1, h2, h3, h4, h5, h6⟩ := merged h hm ho ht
  rw [← h5]
  exact ⟨fun hF => Nat.le_antisymm h4 (hF m.a h2 h3), fun e k hk hl => by rw [← e]; exact h6 k hk hl⟩

/-- The result of `hopcroft_minimize` has the fewest possible states. -/
theorem C168_minimized {g : IAutomaton A} (h : IAutomaton.SafeHistory g) (hm : Mixed g.a) {ord : HopcroftOrd A} (ho : ord.Valid) (ht : ∀ q ∈ g.a.vertices, Useful g.a q) :
    ∃ m, Returns (hopcroftMinimize ord g) (.ok m) ∧ Proper m.a ∧ (∀ w, m.a.Lang w ↔ g.a.Lang w) ∧ Fewest m.a := by
  obtain ⟨m, h1, h2, h3, _, _, h6⟩ := merged h hm ho ht
  exact ⟨m, h1, h2, h3, fun k hk hl => h6 k hk fun w => (hl w).trans (h3 w)⟩

open Examples in
/-- `is_minimal` says yes of an automaton that has two equivalent states. -/
theorem C168_minimal_counterexample : ¬ ∀ g : IAutomaton Char, IAutomaton.SafeHistory g → (g.a.isMinimal.truthy = true ↔ Fewest g.a) := by
  intro h
  have hF := (h diamond diamond_safe).1 rfl
  have key := ((C168_states diamond_safe diamond_mixed diamond_useful hopcroftId_valid).1 hF) 1 (by decide) 2 (by decide)
  have hind : diamond.a.Indist 1 2 := by
    have t : ∀ a, diamond.a.delta 1 a = diamond.a.delta 2 a := fun a => rfl
    have cases' : ∀ (w : List Char) (r : Nat), LPath diamond.a.Trans 1 w r ∧ w ≠ [] ↔ LPath diamond.a.Trans 2 w r ∧ w ≠ [] := by
      intro w r
      constructor
      · rintro ⟨hp, hw⟩
        cases hp with
        | nil => exact absurd rfl hw
        | cons ht hp => exact ⟨.cons (by unfold Automaton.Trans at ht ⊢; rw [mem_edges diamond_safe.wf.out] at ht ⊢; rw [← t]; exact ht) hp, hw⟩
      · rintro ⟨hp, hw⟩
        cases hp with
        | nil => exact absurd rfl hw
        | cons ht hp => exact ⟨.cons (by unfold Automaton.Trans at ht ⊢; rw [mem_edges diamond_safe.wf.out] at ht ⊢; rw [t]; exact ht) hp, hw⟩
    intro w
    by_cases hw : w = []
    · subst hw
      refine ⟨⟨fun _ => ⟨2, .nil _⟩, fun _ => ⟨1, .nil _⟩⟩, ⟨?_, ?_⟩⟩ <;>
      · rintro ⟨r, hr, hf⟩
        cases hr
        exact absurd hf (by decide)
    · have c := fun r => cases' w r
      simp only [ne_eq, hw, not_false_eq_true, and_true] at c
      exact ⟨exists_congr c, exists_congr fun r => and_congr (c r) Iff.rfl⟩
  exact absurd (key hind) (by decide)

open Examples in
/-- The hypotheses of `C168_test`, `C168_states` and `C168_minimized` are met by an automaton that is not minimal. -/
example : IAutomaton.SafeHistory diamond ∧ Mixed diamond.a ∧ (∀ q ∈ diamond.a.vertices, Useful diamond.a q) := ⟨diamond_safe, diamond_mixed, diamond_useful⟩

end PyBGL
