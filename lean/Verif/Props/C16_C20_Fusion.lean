import Verif.Proofs.Fusion
import Verif.Props.C14_C18_Trie
import Verif.Props.C44_C45_Pbfs

/-!
# C16, C20: fusion and matching of tries
-/

namespace PyBGL
open Automaton
variable {A : Type} [DecidableEq A]

/-- The tries a user can build: a new trie, then insertions of words (`insert(str)`) and of other tries (`insert(Trie)`), the latter with any order
of enumeration of the symbols. -/
inductive Trie.Made : Automaton A → Prop
  | new : Trie.Made Trie.new
  | word {g g' : Automaton A} (h : Trie.Made g) (w : List A) (h' : Trie.insert g w = .ok g') : Trie.Made g'
  | trie {g1 g2 g' : Automaton A} {ord : SetOracle A} (ho : ord.Valid) (h1 : Trie.Made g1) (h2 : Trie.Made g2)
      (h' : Returns (trieFusion ord g1 g2) (.ok g')) : Trie.Made g'

theorem Trie.Made.inv {g : Automaton A} (h : Trie.Made g) : TrieInv g := by
  induction h with
  | new => exact TrieInv.new
  | word _ w h' ih => exact insert_inv ih h'
  | trie ho _ _ h' ih1 ih2 =>
    obtain ⟨g, hr, hg, _⟩ := fusion_spec ih1 ih2 ho
    have := returns_unique h' hr
    cases this
    exact hg

/-- **C16**: inserting a trie `g2` in a trie `g1` terminates without raising, whatever the order in which symbols are enumerated, and `g1` then
accepts exactly the words that `g1` or `g2` accepted. -/
theorem C16_language {g1 g2 : Automaton A} (h1 : Trie.Made g1) (h2 : Trie.Made g2) {ord : SetOracle A} (ho : ord.Valid) :
    ∃ g, Returns (trieFusion ord g1 g2) (.ok g) ∧ ∀ w, g.accepts w = true ↔ g1.accepts w = true ∨ g2.accepts w = true := by
  obtain ⟨g, hr, _, _, _, h⟩ := fusion_spec h1.inv h2.inv ho
  exact ⟨g, hr, h⟩

/-- **C16**: the result is a trie again: its root is the initial state, every state is reached from the root by exactly one word, the states
of `g1` keep the word leading to them, and a word leads somewhere iff it did in `g1` or in `g2`. -/
theorem C16_trie {g1 g2 : Automaton A} (h1 : Trie.Made g1) (h2 : Trie.Made g2) {ord : SetOracle A} (ho : ord.Valid) :
    ∃ g, Returns (trieFusion ord g1 g2) (.ok g) ∧ g.initial = some 0 ∧
      (∀ q ∈ g.vertices, ∃ x, LPath g.Trans 0 x q ∧ ∀ y, LPath g.Trans 0 y q → y = x) ∧
      (∀ x q, LPath g1.Trans 0 x q → LPath g.Trans 0 x q) ∧
      (∀ x, (∃ q, LPath g.Trans 0 x q) ↔ (∃ q, LPath g1.Trans 0 x q) ∨ ∃ q, LPath g2.Trans 0 x q) := by
  obtain ⟨g, hr, hg, hold, hdom, h⟩ := fusion_spec h1.inv h2.inv ho
  have hw : ∀ {g : Automaton A}, TrieInv g → ∀ x q, LPath g.Trans 0 x q ↔ g.deltaWord (some 0) x = some q := fun hg x q => (deltaWord_iff hg.wf).symm
  have hex : ∀ {g : Automaton A}, TrieInv g → ∀ x, (∃ q, LPath g.Trans 0 x q) ↔ g.deltaWord (some 0) x ≠ none := by
    intro g hg x
    simp only [hw hg]
    exact Option.ne_none_iff_exists'.symm
  refine ⟨g, hr, hg.init, ?_, ?_, ?_⟩
  · intro q hq
    obtain ⟨x, hx⟩ := hg.surj q hq
    exact ⟨x, (hw hg x q).mpr hx, fun y hy => hg.inj y x q ((hw hg y q).mp hy) hx⟩
  · intro x q hx; exact (hw hg x q).mpr (hold x q ((hw h1.inv x q).mp hx))
  · intro x; rw [hex hg, hex h1.inv, hex h2.inv]; exact hdom x

/-! ## Matching -/

/-- `Counts n P`: exactly `n` words satisfy `P`. -/
def Counts (n : Nat) (P : List A → Prop) : Prop := ∃ ws : List (List A), ws.Nodup ∧ ws.length = n ∧ ∀ w, w ∈ ws ↔ P w

/-- The counter updated by a pair. -/
def matchCode (g1 g2 : Automaton A) (p : StatePair) : Nat := (if g1.isFinalO p.1 then 1 else 0) + 2 * (if g2.isFinalO p.2 then 1 else 0)

theorem matchUpdate_eq (g1 g2 : Automaton A) (p : StatePair) (n0 n1 n2 n3 : Nat) :
    matchUpdate g1 g2 p.1 p.2 [n0, n1, n2, n3] =
      [n0 + (if matchCode g1 g2 p = 0 then 1 else 0), n1 + (if matchCode g1 g2 p = 1 then 1 else 0),
       n2 + (if matchCode g1 g2 p = 2 then 1 else 0), n3 + (if matchCode g1 g2 p = 3 then 1 else 0)] := by
  unfold matchUpdate matchCode
  cases g1.isFinalO p.1 <;> cases g2.isFinalO p.2 <;> rfl

theorem emit_matchVisitor (g1 g2 : Automaton A) (tr : List (PEvent A)) (hs : Pbfs.started tr = []) (n0 n1 n2 n3 : Nat) :
    emit (matchVisitor g1 g2) tr [n0, n1, n2, n3] =
      .ok [n0 + (Pbfs.discovered tr).countP (matchCode g1 g2 · = 0), n1 + (Pbfs.discovered tr).countP (matchCode g1 g2 · = 1),
           n2 + (Pbfs.discovered tr).countP (matchCode g1 g2 · = 2), n3 + (Pbfs.discovered tr).countP (matchCode g1 g2 · = 3)] := by
  induction tr generalizing n0 n1 n2 n3 with
  | nil => rfl
  | cons x tr ih =>
    simp only [Pbfs.started_cons, List.append_eq_nil_iff] at hs
    rw [emit_cons]
    cases x with
    | start q1 q2 => simp at hs
    | discover q1 q2 =>
      simp only [matchVisitor, Pbfs.discovered_cons, List.cons_append, List.nil_append]
      have := matchUpdate_eq g1 g2 (q1, q2) n0 n1 n2 n3
      simp only at this
      rw [this, ih hs.2]
      simp only [List.countP_cons, decide_eq_true_eq]
      congr 2
      · omega
      · congr 1
        · omega
        · congr 1
          · omega
          · congr 1; omega
    | _ => simp only [matchVisitor, Pbfs.discovered_cons, List.nil_append]; exact ih hs.2 n0 n1 n2 n3

/-- **C20**: `trie_matching(g1, g2)` terminates without raising, whatever the order in which symbols are enumerated, and returns four counters
`c`: `c[3]` is the number of words accepted by both tries, `c[1]` the number of words accepted by `g1` only, `c[2]` the number of words accepted by
`g2` only, and `c[0]` the number of words which lead somewhere in `g1` or in `g2` and are accepted by neither. -/
theorem C20_matching {g1 g2 : Automaton A} (h1 : Trie.Made g1) (h2 : Trie.Made g2) {ord : SetOracle A} (ho : ord.Valid) :
    ∃ c0 c1 c2 c3, Returns (trieMatching ord g1 g2) (.ok [c0, c1, c2, c3]) ∧
      Counts c3 (fun w => g1.Lang w ∧ g2.Lang w) ∧
      Counts c1 (fun w => g1.Lang w ∧ ¬g2.Lang w) ∧
      Counts c2 (fun w => ¬g1.Lang w ∧ g2.Lang w) ∧
      Counts c0 (fun w => ((∃ q, LPath g1.Trans 0 w q) ∨ ∃ q, LPath g2.Trans 0 w q) ∧ ¬g1.Lang w ∧ ¬g2.Lang w) := by
  have i1 := h1.inv
  have i2 := h2.inv
  obtain ⟨tr, c, hf, hr⟩ := Pbfs.facts (push := pushAll) i1.wf i2.wf ho (pp := fun _ => true) (fun _ _ => rfl) [startPair g1 g2]
  have hfifo : Pbfs.examined tr = startPair g1 g2 :: Pbfs.discovered tr := by rw [hf.fifo]; simp
  have hpair : ∀ w, Pbfs.pairOf g1 g2 w = Fuse.pr g1 g2 w := by intro w; simp [Pbfs.pairOf, Fuse.pr, initial, i1.init, i2.init]
  have hstart : startPair g1 g2 = Fuse.pr g1 g2 [] := by simp [Fuse.pr, startPair, initial, i1.init, i2.init]
  have hne0 : Fuse.pr g1 g2 [] ≠ (none, none) := by simp [Fuse.pr]
  -- the pairs met are those of the words known to one of the tries
  have hmem : ∀ p, p ∈ Pbfs.examined tr ↔ ∃ w, p = Fuse.pr g1 g2 w ∧ p ≠ (none, none) := by
    intro p
    rw [Pbfs.mem_examined hf]
    constructor
    · rintro ⟨w, rfl, hw⟩
      refine ⟨w, hpair w, ?_⟩
      rcases hw with rfl | hw
      · rw [hpair]; exact hne0
      · exact hw
    · rintro ⟨w, rfl, hw⟩
      exact ⟨w, (hpair w).symm, .inr hw⟩
  have hnd : (Pbfs.examined tr).Nodup := by
    rw [hfifo, List.nodup_cons]
    refine ⟨?_, hf.nodup⟩
    intro hc
    obtain ⟨p, hp, a, ha, e⟩ := hf.source _ hc
    obtain ⟨w, rfl, _⟩ := (hmem p).mp hp
    have : Pbfs.nxt g1 g2 (Fuse.pr g1 g2 w) a = Fuse.pr g1 g2 (w ++ [a]) := by rw [← hpair, ← hpair, Pbfs.pairOf_snoc]
    rw [this, hstart] at e
    have := Fuse.pr_inj i1 i2 e hne0
    simp at this
  -- counting pairs is counting words
  have hcount : ∀ (k : Nat) (P : List A → Prop), (∀ w, P w ↔ Fuse.pr g1 g2 w ≠ (none, none) ∧ matchCode g1 g2 (Fuse.pr g1 g2 w) = k) →
      Counts ((Pbfs.examined tr).countP (matchCode g1 g2 · = k)) P := by
    intro k P hP
    have hall : ∀ l : List StatePair, l.Nodup → (∀ p ∈ l, ∃ w, p = Fuse.pr g1 g2 w ∧ p ≠ (none, none)) →
        ∃ ws : List (List A), ws.Nodup ∧ ws.length = l.length ∧ ∀ w, w ∈ ws ↔ Fuse.pr g1 g2 w ≠ (none, none) ∧ Fuse.pr g1 g2 w ∈ l := by
      intro l
      induction l with
      | nil => intro _ _; exact ⟨[], by simp⟩
      | cons p l ih =>
        intro hnd hl
        rw [List.nodup_cons] at hnd
        obtain ⟨ws, k1, k2, k3⟩ := ih hnd.2 (fun p hp => hl p (by simp [hp]))
        obtain ⟨u, rfl, hu⟩ := hl p (by simp)
        refine ⟨u :: ws, ?_, by simp [k2], ?_⟩
        · rw [List.nodup_cons]
          refine ⟨?_, k1⟩
          intro hc
          exact hnd.1 ((k3 u).mp hc).2
        · intro w
          rw [List.mem_cons, List.mem_cons, k3]
          constructor
          · rintro (rfl | ⟨h3, h4⟩)
            · exact ⟨hu, .inl rfl⟩
            · exact ⟨h3, .inr h4⟩
          · rintro ⟨h3, h4 | h4⟩
            · exact .inl (Fuse.pr_inj i1 i2 h4 h3)
            · exact .inr ⟨h3, h4⟩
    obtain ⟨ws, k1, k2, k3⟩ := hall ((Pbfs.examined tr).filter (matchCode g1 g2 · = k)) (hnd.filter _)
      (fun p hp => (hmem p).mp (List.mem_filter.mp hp).1)
    refine ⟨ws, k1, by rw [k2, List.countP_eq_length_filter], ?_⟩
    intro w
    rw [k3, hP, List.mem_filter]
    constructor
    · rintro ⟨h3, _, h5⟩; exact ⟨h3, by simpa using h5⟩
    · rintro ⟨h3, h4⟩; exact ⟨h3, (hmem _).mpr ⟨w, rfl, h3⟩, by simpa using h4⟩
  have hl1 : ∀ w, g1.Lang w ↔ g1.isFinalO (Fuse.pr g1 g2 w).1 = true := by
    intro w; rw [lang_iff_final i1.wf, ← hpair]; rfl
  have hl2 : ∀ w, g2.Lang w ↔ g2.isFinalO (Fuse.pr g1 g2 w).2 = true := by
    intro w; rw [lang_iff_final i2.wf, ← hpair]; rfl
  have hd1 : ∀ w, (∃ q, LPath g1.Trans 0 w q) ↔ (Fuse.pr g1 g2 w).1 ≠ none := by
    intro w
    simp only [← deltaWord_iff i1.wf]
    exact Option.ne_none_iff_exists'.symm
  have hd2 : ∀ w, (∃ q, LPath g2.Trans 0 w q) ↔ (Fuse.pr g1 g2 w).2 ≠ none := by
    intro w
    simp only [← deltaWord_iff i2.wf]
    exact Option.ne_none_iff_exists'.symm
  have hne1 : ∀ p : StatePair, g1.isFinalO p.1 = true → p ≠ (none, none) := by
    rintro p hp rfl; cases hp
  have hne2 : ∀ p : StatePair, g2.isFinalO p.2 = true → p ≠ (none, none) := by
    rintro p hp rfl; cases hp
  refine ⟨_, _, _, _, ?_, hcount 3 _ ?_, hcount 1 _ ?_, hcount 2 _ ?_, hcount 0 _ ?_⟩
  · obtain ⟨N, hN⟩ := hr _ (matchVisitor g1 g2) [0, 0, 0, 0]
    refine ⟨N, fun fuel hfu => ?_⟩
    have hN : pbfs ord (fun _ => g1) g2 [startPair g1 g2] pushAll (matchVisitor g1 g2) [0, 0, 0, 0] fuel = _ := hN fuel hfu
    unfold trieMatching
    rw [hN]
    unfold Pbfs.outcome
    have hem : emit (matchVisitor g1 g2) ([startPair g1 g2].map (fun p => .start p.1 p.2) ++ tr) [0, 0, 0, 0] =
        .ok [(Pbfs.examined tr).countP (matchCode g1 g2 · = 0), (Pbfs.examined tr).countP (matchCode g1 g2 · = 1),
          (Pbfs.examined tr).countP (matchCode g1 g2 · = 2), (Pbfs.examined tr).countP (matchCode g1 g2 · = 3)] := by
      rw [hfifo]
      simp only [List.map_cons, List.map_nil, List.cons_append, List.nil_append, emit_cons, matchVisitor]
      have := matchUpdate_eq g1 g2 (startPair g1 g2) 0 0 0 0
      simp only at this
      rw [this, emit_matchVisitor g1 g2 tr hf.noStart]
      simp only [List.countP_cons, decide_eq_true_eq, Nat.zero_add, Nat.add_comm]
    rw [hem]
    rfl
  · intro w
    rw [hl1, hl2]
    unfold matchCode
    cases e1 : g1.isFinalO (Fuse.pr g1 g2 w).1 <;> cases e2 : g2.isFinalO (Fuse.pr g1 g2 w).2 <;> simp
    exact hne1 _ e1
  · intro w
    rw [hl1, hl2]
    unfold matchCode
    cases e1 : g1.isFinalO (Fuse.pr g1 g2 w).1 <;> cases e2 : g2.isFinalO (Fuse.pr g1 g2 w).2 <;> simp
    exact hne1 _ e1
  · intro w
    rw [hl1, hl2]
    unfold matchCode
    cases e1 : g1.isFinalO (Fuse.pr g1 g2 w).1 <;> cases e2 : g2.isFinalO (Fuse.pr g1 g2 w).2 <;> simp
    exact hne2 _ e2
  · intro w
    rw [hl1, hl2, hd1, hd2]
    have : ((Fuse.pr g1 g2 w).1 ≠ none ∨ (Fuse.pr g1 g2 w).2 ≠ none) ↔ Fuse.pr g1 g2 w ≠ (none, none) := by
      constructor
      · rintro h e
        rw [e] at h
        rcases h with h | h <;> exact h rfl
      · intro h
        by_contra hc
        rw [not_or, not_not, not_not] at hc
        exact h (Prod.ext hc.1 hc.2)
    rw [this]
    unfold matchCode
    cases e1 : g1.isFinalO (Fuse.pr g1 g2 w).1 <;> cases e2 : g2.isFinalO (Fuse.pr g1 g2 w).2 <;> simp

section Examples

/-- The hypotheses of C16 and C20 are met by tries with common and distinct words. -/
example : ∃ g1 g2 : Automaton Char, Trie.Built [['a', 'b'], ['a', 'c'], ['d']] g1 ∧ Trie.Built [['a', 'b'], ['a', 'b', 'e'], []] g2 ∧
    trieMatching (fun _ s => s) g1 g2 20 = some (.ok [1, 2, 2, 1]) ∧
    (trieFusion (fun _ s => s) g1 g2 20).map (fun r => r.map fun g =>
      (g.vertices, [[], ['a', 'b'], ['a', 'b', 'e'], ['a', 'c'], ['d'], ['a'], ['e']].map g.accepts)) =
      some (.ok ([0, 1, 2, 3, 4, 5], [true, true, true, true, true, false, false])) :=
  ⟨_, _, rfl, rfl, by decide, by decide⟩

end Examples
end PyBGL
