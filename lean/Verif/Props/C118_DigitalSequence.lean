import Verif.Proofs.PbfsI
import Verif.Props.C14_C18_Trie
import Verif.Props.C16_C20_Fusion
import Verif.Props.C19_DigitalSequence
import Verif.Props.C44_C45_Pbfs
import Verif.Props.C46_C47_Product

/-!
# C118: a `DigitalSequence` wherever a `Trie` or an `Automaton` is expected
-/

namespace PyBGL
variable {A : Type} [DecidableEq A]
open Automaton

/-- What can be handed to the functions built on the parallel search: an automaton (or trie), or a `DigitalSequence` of word `w`. -/
inductive Operand (A : Type) where
  | automaton (g : Automaton A)
  | sequence (w : List A)

namespace Operand

/-- Its methods. -/
def detI : Operand A → DetI A
  | automaton g => g.detI
  | sequence w => DigitalSequence.detI w

/-- The words it stands for. -/
def Lang : Operand A → List A → Prop
  | automaton g, x => g.Lang x
  | sequence w, x => x = w

/-- Automata are those that any history of calls can produce, or tries. -/
def Valid : Operand A → Prop
  | automaton g => g.Reachable ∨ Trie.Made g
  | sequence _ => True

/-- Automata are tries, made by inserting words and tries. -/
def IsTrie : Operand A → Prop
  | automaton g => Trie.Made g
  | sequence _ => True

/-- The words that lead somewhere: for a sequence, the prefixes of its word. -/
def Leads : Operand A → List A → Prop
  | automaton g, x => ∃ q, LPath g.Trans 0 x q
  | sequence w, x => x <+: w

end Operand

namespace DigitalSequence

/-- `g` is the chain of `w`, whatever its final states. -/
structure Chain (g : Automaton A) (w : List A) : Prop where
  init : g.q0 = some 0
  last : g.lastVertexId = w.length + 1
  get : ∀ q, g.adj.get? q = if q ≤ w.length then some ((w[q]?).elim [] fun a => [(a, q + 1)]) else none

theorem Chain.new : Chain (Trie.new : Automaton A) [] := by
  refine ⟨rfl, rfl, ?_⟩
  intro q
  simp only [Trie.new, Automaton.init, addVertex, Automaton.empty, List.length_nil, List.getElem?_nil, Option.elim_none]
  rw [Dict.get?_set]
  by_cases hq : q = 0
  · subst hq; simp
  · rw [if_neg (by omega), if_neg (by omega)]; rfl

theorem Chain.getD {g : Automaton A} {w : List A} (h : Chain g w) (q : Nat) : g.adj.getD q [] = (w[q]?).elim [] fun a => [(a, q + 1)] := by
  unfold Dict.getD
  rw [h.get]
  by_cases hq : q ≤ w.length
  · rw [if_pos hq]; rfl
  · rw [if_neg hq, List.getElem?_eq_none (by omega)]; rfl

theorem Chain.step {g : Automaton A} {w : List A} (h : Chain g w) (a : A) :
    ∃ e b g', g.addVertex.2.addEdge w.length g.addVertex.1 a = .ok (e, b, g') ∧ Chain g' (w ++ [a]) ∧ g'.final = g.final := by
  have hg : ∀ q, g.addVertex.2.adj.get? q = if q = w.length + 1 then some [] else g.adj.get? q := by
    intro q
    simp only [addVertex]
    rw [Dict.get?_set, h.last]
    by_cases hq : q = w.length + 1
    · rw [if_pos hq, if_pos hq.symm]
    · rw [if_neg hq, if_neg (fun e => hq e.symm)]
  have hd : g.addVertex.2.delta w.length a = none := by
    unfold Automaton.delta Dict.getD
    rw [hg, if_neg (by omega), h.get, if_pos (Nat.le_refl _), List.getElem?_eq_none (Nat.le_refl _)]
    rfl
  have he : g.addVertex.2.adj.getE w.length = .ok [] := by
    apply Dict.getE_of_get?
    rw [hg, if_neg (by omega), h.get, if_pos (Nat.le_refl _), List.getElem?_eq_none (Nat.le_refl _)]
    rfl
  have hk : g.addVertex.1 = w.length + 1 := h.last
  unfold addEdge
  rw [hd, he, hk]
  refine ⟨_, _, _, rfl, ?_, rfl⟩
  refine ⟨h.init, ?_, ?_⟩
  · simp [addVertex, h.last]
  · intro q
    simp only
    rw [Dict.get?_set, hg, h.get]
    simp only [List.length_append, List.length_singleton]
    by_cases h1 : q = w.length
    · subst h1
      rw [if_pos rfl, if_pos (by omega)]
      simp [Dict.set]
    · rw [if_neg (fun e => h1 e.symm)]
      by_cases h2 : q = w.length + 1
      · subst h2
        rw [if_pos rfl, if_pos (Nat.le_refl _), List.getElem?_eq_none (by simp)]
        rfl
      · rw [if_neg h2]
        by_cases h3 : q ≤ w.length
        · rw [if_pos h3, if_pos (by omega), List.getElem?_append_left (by omega)]
        · rw [if_neg h3, if_neg (by omega)]

theorem Chain.insertChain {v : List A} : ∀ {g : Automaton A} {u : List A}, Chain g u →
    ∃ g', Automaton.insertChain g (some u.length) v = .ok (some (u ++ v).length, g') ∧ Chain g' (u ++ v) ∧ g'.final = g.final := by
  induction v with
  | nil => intro g u h; exact ⟨g, by simp [Automaton.insertChain], by simpa using h, rfl⟩
  | cons a v ih =>
    intro g u h
    obtain ⟨e, b, g1, k1, k2, k3⟩ := h.step a
    obtain ⟨g2, l1, l2, l3⟩ := ih k2
    refine ⟨g2, ?_, by simpa using l2, l3.trans k3⟩
    unfold Automaton.insertChain
    have hk : g.addVertex.1 = (u ++ [a]).length := by simp [addVertex, h.last]
    simp only [k1, bind, Except.bind]
    rw [hk, l1]
    simp

/-- The trie in which `w` is inserted is the chain of `w`. -/
theorem insert_chain (w : List A) :
    ∃ g : Automaton A, Trie.insert Trie.new w = .ok g ∧ Chain g w ∧ ∀ q, g.isFinal q = decide (q = w.length) := by
  obtain ⟨g, h1, h2, h3⟩ := Chain.insertChain (v := w) (Chain.new (A := A))
  have hb : (Trie.new : Automaton A).deltaBestEffort w = (some 0, 0) := by
    unfold deltaBestEffort
    cases w with
    | nil => rfl
    | cons a w => rfl
  refine ⟨g.setFinal w.length, ?_, ⟨h2.init, h2.last, h2.get⟩, ?_⟩
  · unfold Trie.insert insertString
    rw [hb]
    simp only [List.drop_zero]
    have h1 : Automaton.insertChain (Trie.new : Automaton A) (some 0) w = _ := h1
    rw [h1]
    rfl
  · intro q
    rw [isFinal_setFinal]
    have : g.isFinal q = false := by unfold Automaton.isFinal; rw [h3]; rfl
    rw [this]
    by_cases hq : q = w.length
    · simp [hq]
    · simp [hq]
      try (intro e; exact hq e.symm)

/-- A `DigitalSequence` answers like the chain of its word. -/
theorem agrees {g : Automaton A} {w : List A} (h : Chain g w) (hf : ∀ q, g.isFinal q = decide (q = w.length)) :
    (DigitalSequence.detI w).Agrees g (fun q => ∀ k, q = some k → k ≤ w.length) := by
  have hdelta : ∀ q a, g.delta q a = if w[q]? = some a then some (q + 1) else none := by
    intro q a
    unfold Automaton.delta
    rw [h.getD]
    cases hw : w[q]? with
    | none => rfl
    | some b =>
      simp only [Option.elim_some, Dict.get?, Option.some.injEq]
  refine ⟨?_, ?_, ?_, ?_, ?_, ?_, ?_, ?_⟩
  · exact h.init.symm
  · intro k e; cases e
  · intro k e
    have e : g.q0 = some k := e
    rw [h.init] at e; cases e; exact Nat.zero_le _
  · intro q a hq k e
    cases q with
    | none => cases e
    | some q =>
      simp only [deltaO, Option.bind_some, hdelta] at e
      by_cases hw : w[q]? = some a
      · rw [if_pos hw] at e
        obtain ⟨hlt, _⟩ := List.getElem?_eq_some_iff.mp hw
        cases e; omega
      · rw [if_neg hw] at e; cases e
  · intro q hq
    cases q with
    | none => simp [DigitalSequence.detI, isInitialO, h.init]
    | some q =>
      simp only [DigitalSequence.detI, DigitalSequence.isInitial, isInitialO, h.init, Option.some.injEq]
      exact decide_eq_decide.mpr ⟨fun e => e.symm, fun e => e.symm⟩
  · intro q hq
    cases q with
    | none => rfl
    | some q => simp only [DigitalSequence.detI, DigitalSequence.isFinal, isFinalO, hf]
  · intro q hq
    cases q with
    | none => rfl
    | some q =>
      have hq := hq q rfl
      simp only [DigitalSequence.detI, DigitalSequence.sigma, DigitalSequence.isFinal, sigmaO, Automaton.sigma, h.getD]
      by_cases hl : q = w.length
      · subst hl; simp [mkSet, Dict.keys]
      · have hg : w[q]? = some w[q] := by
          have : q < w.length := by omega
          simp [this]
        simp only [hl, decide_false, Bool.false_eq_true, if_false, charAt_of hg, bind, Except.bind, hg, Option.elim_some]
        rfl
  · intro q a hq
    cases q with
    | none => rfl
    | some q =>
      have hq := hq q rfl
      simp only [DigitalSequence.detI, DigitalSequence.delta, DigitalSequence.isFinal, deltaO, Option.bind_some, hdelta]
      by_cases hl : q = w.length
      · subst hl; simp
      · have hg : w[q]? = some w[q] := by
          have : q < w.length := by omega
          simp [this]
        simp only [hl, decide_false, Bool.false_eq_true, if_false, charAt_of hg, bind, Except.bind, hg, Option.some.injEq]

end DigitalSequence

namespace Operand

theorem trie (o : Operand A) (h : o.IsTrie) :
    ∃ (g : Automaton A) (V : Option Nat → Prop), o.detI.Agrees g V ∧ Trie.Made g ∧ (∀ x, g.Lang x ↔ o.Lang x) ∧
      ∀ x, (∃ q, LPath g.Trans 0 x q) ↔ o.Leads x := by
  cases o with
  | automaton g => exact ⟨g, _, g.detI_agrees, h, fun _ => Iff.rfl, fun _ => Iff.rfl⟩
  | sequence w =>
    obtain ⟨g, h1, h2, h3⟩ := DigitalSequence.insert_chain w
    have hb : Trie.Built [w] g := by unfold Trie.Built; rw [List.foldlM_cons, h1]; rfl
    refine ⟨g, _, DigitalSequence.agrees h2 h3, .word .new w h1, ?_, ?_⟩
    · intro x
      rw [← accepts_iff hb.inv.wf, C15_language hb]
      simp [Lang]
    · intro x
      have := C15_prefixes hb x
      unfold Leads
      refine this.trans ?_
      simp only [List.mem_singleton, exists_eq_left]
      constructor
      · rintro (rfl | h)
        · exact List.nil_prefix
        · exact h
      · exact .inr

theorem awf (o : Operand A) (h : o.Valid) :
    ∃ (g : Automaton A) (V : Option Nat → Prop), o.detI.Agrees g V ∧ AWF g ∧ ∀ x, g.Lang x ↔ o.Lang x := by
  cases o with
  | automaton g => exact ⟨g, _, g.detI_agrees, h.elim (·.awf) (·.inv.wf), fun _ => Iff.rfl⟩
  | sequence w =>
    obtain ⟨g, V, h1, h2, h3, _⟩ := trie (sequence w) trivial
    exact ⟨g, V, h1, h2.inv.wf, h3⟩

end Operand

/-- **C118**: the methods of `DigitalSequence(w)` answer what those of a trie in which `w` was inserted answer. -/
theorem C118_methods (w : List A) :
    ∃ g : Automaton A, Trie.insert Trie.new w = .ok g ∧ DigitalSequence.vertices w = g.vertices ∧ DigitalSequence.numVertices w = g.numVertices ∧
      DigitalSequence.numEdges w = Trie.numEdges g ∧ DigitalSequence.initial = g.initial ∧
      (∀ a, a ∈ DigitalSequence.alphabet w ↔ a ∈ g.alphabet) ∧
      (∃ es, DigitalSequence.edges w = .ok es ∧ es.Perm g.edges) ∧
      ∀ q ∈ DigitalSequence.vertices w, DigitalSequence.outEdges w q = .ok (g.outEdges q) ∧ DigitalSequence.sigma w q = .ok (g.sigma q) ∧
        DigitalSequence.isInitial q = g.isInitial q ∧ DigitalSequence.isFinal w q = g.isFinal q ∧
        ∀ a, DigitalSequence.delta w (some q) a = .ok (g.delta q a) := by
  obtain ⟨g, h1, h2, h3⟩ := DigitalSequence.insert_chain w
  have hi := insert_inv TrieInv.new h1
  have ha := DigitalSequence.agrees h2 h3
  have hv : DigitalSequence.vertices w = g.vertices := by rw [hi.verts, h2.last]; rfl
  have hn : g.numVertices = w.length + 1 := by unfold numVertices; rw [hi.verts, h2.last, List.length_range]
  obtain ⟨c1, c2, es, c3, c4, c5, c6, c7, c8⟩ := C19_structure w
  have hmem : ∀ e, e ∈ es ↔ e ∈ g.edges := by
    intro e
    rw [c6, mem_edges hi.wf]
    have : ∀ q a, g.delta q a = if w[q]? = some a then some (q + 1) else none := by
      intro q a
      unfold Automaton.delta
      rw [h2.getD]
      cases hw : w[q]? with
      | none => rfl
      | some b => simp only [Option.elim_some, Dict.get?, Option.some.injEq]
    rw [this]
    constructor
    · rintro ⟨k1, k2⟩; rw [if_pos k2, k1]
    · intro k
      by_cases hw : w[e.source]? = some e.distinguisher
      · rw [if_pos hw] at k; injection k with k; exact ⟨k.symm, hw⟩
      · rw [if_neg hw] at k; cases k
  have hperm : es.Perm g.edges := by
    have hlen : es.length ≤ g.edges.length := by
      have := hi.count
      have hn' : g.vertices.length = w.length + 1 := hn
      rw [c4]
      unfold DigitalSequence.numEdges
      omega
    exact ((List.subperm_of_subset (nodup_edges hi.wf) fun e he => (hmem e).mpr he).perm_of_length_le hlen).symm
  refine ⟨g, h1, hv, hn.symm, ?_, h2.init.symm, ?_, ⟨es, c3, ?_⟩, ?_⟩
  · unfold Trie.numEdges; rw [hn]; simp [DigitalSequence.numEdges]
  · intro a
    rw [c8]
    unfold alphabet
    rw [mem_mkSet, List.mem_flatMap]
    constructor
    · rintro ⟨e, he, rfl⟩
      rw [hmem, mem_edges hi.wf] at he
      exact ⟨e.source, delta_mem_vertices he, (Dict.mem_keys_iff _ _).mpr ⟨e.target, he⟩⟩
    · rintro ⟨q, _, hq⟩
      obtain ⟨r, hr⟩ := (Dict.mem_keys_iff _ _).mp hq
      exact ⟨⟨q, r, a⟩, (hmem _).mpr ((mem_edges hi.wf).mpr hr), rfl⟩
  · exact hperm
  · intro q hq
    have hq' : ∀ k, some q = some k → k ≤ w.length := by
      intro k e; cases e; exact (c1 q).mp hq
    refine ⟨?_, ha.sigma _ hq', ha.isInitial _ hq', ha.isFinal _ hq', fun a => ha.delta _ a hq'⟩
    unfold DigitalSequence.outEdges Automaton.outEdges
    rw [h2.getD]
    by_cases hl : q = w.length
    · subst hl; simp [DigitalSequence.isFinal]
    · have hlt : q < w.length := by have := (c1 q).mp hq; omega
      have hg : w[q]? = some w[q] := by simp [hlt]
      simp only [DigitalSequence.isFinal, hl, decide_false, Bool.false_eq_true, if_false, DigitalSequence.charAt_of hg, bind, Except.bind, hg, Option.elim_some]
      rfl

/-- **C118**: `deterministic_inclusion` compares the languages of its operands, be they automata, tries or sequences, and does not raise. -/
theorem C118_inclusion {ord : SetOracle A} (ho : ord.Valid) {x y : Operand A} (hx : x.Valid) (hy : y.Valid) :
    ∃ r, Returns (deterministicInclusionI ord x.detI y.detI) (.ok r) ∧
      (r = some 0 ↔ ∀ w, x.Lang w ↔ y.Lang w) ∧
      (r = some 1 ↔ (∀ w, x.Lang w → y.Lang w) ∧ ∃ w, y.Lang w ∧ ¬x.Lang w) ∧
      (r = some (-1) ↔ (∀ w, y.Lang w → x.Lang w) ∧ ∃ w, x.Lang w ∧ ¬y.Lang w) ∧
      (r = none ↔ (∃ w, x.Lang w ∧ ¬y.Lang w) ∧ ∃ w, y.Lang w ∧ ¬x.Lang w) := by
  obtain ⟨g1, V1, k1, k2, k3⟩ := x.awf hx
  obtain ⟨g2, V2, l1, l2, l3⟩ := y.awf hy
  rw [deterministicInclusionI_eq k1 l1]
  simp only [← k3, ← l3]
  exact Pbfs.inclusion_awf ho k2 l2

/-- **C118**: whether a word is in an automaton can be decided by `deterministic_inclusion(DigitalSequence(w), g)`: the result is `0` or `1` iff `g` accepts `w`. -/
theorem C118_member {ord : SetOracle A} (ho : ord.Valid) (w : List A) {g : Automaton A} (hg : g.Reachable) :
    ∃ r, Returns (deterministicInclusionI ord (DigitalSequence.detI w) g.detI) (.ok r) ∧ ((r = some 0 ∨ r = some 1) ↔ g.accepts w = true) := by
  obtain ⟨r, h, h0, h1, h2, h3⟩ := C118_inclusion ho (x := .sequence w) (y := .automaton g) trivial (.inl hg)
  refine ⟨r, h, ?_⟩
  rw [accepts_iff hg.awf, h0, h1]
  simp only [Operand.Lang]
  constructor
  · rintro (k | k)
    · exact (k w).mp rfl
    · exact k.1 w rfl
  · intro k
    by_cases hex : ∃ x, g.Lang x ∧ x ≠ w
    · exact .inr ⟨fun x hx => hx ▸ k, hex⟩
    · refine .inl fun x => ⟨fun hx => hx ▸ k, fun hx => ?_⟩
      by_contra hn
      exact hex ⟨x, hx, hn⟩

/-- **C118**: `trie_matching` counts the words of its operands, be they tries or sequences, and does not raise: `c[3]` is the number of words of both, `c[1]` of the
first only, `c[2]` of the second only, and `c[0]` the number of words which lead somewhere in one of them and belong to neither. -/
theorem C118_matching {ord : SetOracle A} (ho : ord.Valid) {x y : Operand A} (hx : x.IsTrie) (hy : y.IsTrie) :
    ∃ c0 c1 c2 c3, Returns (trieMatchingI ord x.detI y.detI) (.ok [c0, c1, c2, c3]) ∧
      Counts c3 (fun w => x.Lang w ∧ y.Lang w) ∧
      Counts c1 (fun w => x.Lang w ∧ ¬y.Lang w) ∧
      Counts c2 (fun w => ¬x.Lang w ∧ y.Lang w) ∧
      Counts c0 (fun w => (x.Leads w ∨ y.Leads w) ∧ ¬x.Lang w ∧ ¬y.Lang w) := by
  obtain ⟨g1, V1, k1, k2, k3, k4⟩ := x.trie hx
  obtain ⟨g2, V2, l1, l2, l3, l4⟩ := y.trie hy
  rw [trieMatchingI_eq k1 l1]
  simp only [← k3, ← l3, ← k4, ← l4]
  exact C20_matching k2 l2 ho

/-- **C118**: inserting `DigitalSequence(w)` in a trie does not raise, makes a trie, and adds exactly the word `w`. -/
theorem C118_insert {ord : SetOracle A} (ho : ord.Valid) {g : Automaton A} (hg : Trie.Made g) (w : List A) :
    ∃ g', Returns (trieFusionI ord g (DigitalSequence.detI w)) (.ok g') ∧ Trie.Made g' ∧
      ∀ x, g'.accepts x = true ↔ g.accepts x = true ∨ x = w := by
  obtain ⟨g2, V2, l1, l2, l3, _⟩ := (Operand.sequence w).trie trivial
  have l1 : (DigitalSequence.detI w).Agrees g2 V2 := l1
  obtain ⟨g', k1, k2⟩ := C16_language hg l2 ho
  rw [trieFusionI_eq l1]
  refine ⟨g', k1, .trie ho hg l2 k1, ?_⟩
  intro x
  rw [k2, accepts_iff l2.inv.wf, l3]
  rfl

/-- In a trie, only the empty word leads to the initial state. -/
theorem Trie.Made.after_zero {g : Automaton A} (h : Trie.Made g) {u : List A} (hu : g.After u (some 0)) : u = [] := by
  rw [after_iff h.inv.wf] at hu
  have hi : g.initial = some 0 := h.inv.init
  rw [hi] at hu
  exact h.inv.inj u [] 0 hu (by simp)

theorem Trie.Made.after_nil {g : Automaton A} (h : Trie.Made g) {x : List A} {r : Nat} (hx : g.After x (some r)) : LPath g.Trans 0 x r := by
  obtain ⟨q, h1, h2⟩ := hx
  rw [h.inv.init] at h1
  cases h1; exact h2

/-- **C118**: `deterministic_intersection` of tries or sequences does not raise; a non-empty word is accepted iff it belongs to both; the empty word is
accepted iff it belongs to both and they have a first symbol in common. -/
theorem C118_intersection_partial {ord : SetOracle A} (ho : ord.Valid) {x y : Operand A} (hx : x.IsTrie) (hy : y.IsTrie) :
    ∃ g, Returns (deterministicIntersectionI ord x.detI y.detI) (.ok g) ∧
      (∀ w, w ≠ [] → (g.Lang w ↔ x.Lang w ∧ y.Lang w)) ∧
      (g.Lang [] ↔ x.Lang [] ∧ y.Lang [] ∧ ∃ a, x.Leads [a] ∧ y.Leads [a]) := by
  obtain ⟨g1, V1, k1, k2, k3, k4⟩ := x.trie hx
  obtain ⟨g2, V2, l1, l2, l3, l4⟩ := y.trie hy
  rw [deterministicIntersectionI_eq k1 l1]
  obtain ⟨g, m1, m2, m3⟩ := Product.inter_awf (ord := ord) k2.inv.wf l2.inv.wf ho (by rw [k2.inv.init]; simp) (by rw [l2.inv.init]; simp) (by
    intro u r1 r2 hu h1 h2
    left
    constructor
    · rintro rfl; exact hu (k2.after_zero h1)
    · rintro rfl; exact hu (l2.after_zero h2))
  refine ⟨g, m1, ?_, ?_⟩
  · intro w hw; rw [m2 w hw, k3, l3]
  · rw [m3, k3, l3]
    simp only [← k4, ← l4]
    constructor
    · rintro ⟨n1, n2, a, r1, r2, n3, n4⟩
      exact ⟨n1, n2, a, ⟨r1, k2.after_nil n3⟩, ⟨r2, l2.after_nil n4⟩⟩
    · rintro ⟨n1, n2, a, ⟨r1, n3⟩, ⟨r2, n4⟩⟩
      exact ⟨n1, n2, a, r1, r2, ⟨0, k2.inv.init, n3⟩, ⟨0, l2.inv.init, n4⟩⟩

/-- **C118**: `deterministic_union` of tries or sequences does not raise; a non-empty word is accepted iff it belongs to one of them; the empty word is
accepted iff it belongs to one of them and one of them has a transition. -/
theorem C118_union_partial {ord : SetOracle A} (ho : ord.Valid) {x y : Operand A} (hx : x.IsTrie) (hy : y.IsTrie) :
    ∃ g, Returns (deterministicUnionI ord x.detI y.detI) (.ok g) ∧
      (∀ w, w ≠ [] → (g.Lang w ↔ x.Lang w ∨ y.Lang w)) ∧
      (g.Lang [] ↔ (x.Lang [] ∨ y.Lang []) ∧ ∃ a, x.Leads [a] ∨ y.Leads [a]) := by
  obtain ⟨g1, V1, k1, k2, k3, k4⟩ := x.trie hx
  obtain ⟨g2, V2, l1, l2, l3, l4⟩ := y.trie hy
  rw [deterministicUnionI_eq k1 l1]
  obtain ⟨g, m1, m2, m3⟩ := Product.union_awf (ord := ord) k2.inv.wf l2.inv.wf ho (by
    rintro u ⟨p1, p2⟩ hu h1 h2 _ h
    rcases h with h | h
    · simp only at h h1; subst h
      have hi : g1.initial = some 0 := k2.inv.init
      rw [hi] at h1
      exact absurd (k2.after_zero h1) hu
    · simp only at h h2; subst h
      have hi : g2.initial = some 0 := l2.inv.init
      rw [hi] at h2
      exact absurd (l2.after_zero h2) hu)
  refine ⟨g, m1, ?_, ?_⟩
  · intro w hw; rw [m2 w hw, k3, l3]
  · rw [m3, k3, l3]
    simp only [← k4, ← l4]
    constructor
    · rintro ⟨n1, a, r, n3 | n3⟩
      · exact ⟨n1, a, .inl ⟨r, k2.after_nil n3⟩⟩
      · exact ⟨n1, a, .inr ⟨r, l2.after_nil n3⟩⟩
    · rintro ⟨n1, a, ⟨r, n3⟩ | ⟨r, n3⟩⟩
      · exact ⟨n1, a, r, .inl ⟨0, k2.inv.init, n3⟩⟩
      · exact ⟨n1, a, r, .inr ⟨0, l2.inv.init, n3⟩⟩

/-- **C118**: every call that would modify a `DigitalSequence` raises: `TypeError` for `set_initial` and `set_final`, `RuntimeError` for the others. -/
theorem C118_immutable (w : List A) (c : DSCall A) :
    DigitalSequence.call w c = .error (match c with | .setInitial _ => .typeError | .setFinal _ => .typeError | _ => .runtimeError) := by
  cases c with
  | clear =>
    unfold DigitalSequence.call DigitalSequence.vertices
    rw [List.range_succ_eq_map]
    rfl
  | _ => rfl

/-- The hypotheses are met: a trie and a sequence. -/
example : Operand.Valid (.automaton (Trie.new : Automaton Char)) ∧ Operand.IsTrie (.automaton (Trie.new : Automaton Char)) ∧
    Operand.IsTrie (.sequence ['a', 'b']) := ⟨.inr .new, .new, trivial⟩

/-- Inserting `DigitalSequence("ab")` in an empty trie, and comparing it with `DigitalSequence("ac")` and itself. -/
example : (trieFusionI (fun _ s => s) Trie.new (DigitalSequence.detI ['a', 'b']) 10).map (fun r => r.toOption.map fun g =>
      (g.accepts ['a', 'b'], g.accepts ['a'], g.vertices)) = some (some (true, false, [0, 1, 2])) ∧
    deterministicInclusionI (fun _ s => s) (DigitalSequence.detI ['a', 'b']) (DigitalSequence.detI ['a', 'b']) 10 = some (.ok (some 0)) ∧
    deterministicInclusionI (fun _ s => s) (DigitalSequence.detI ['a', 'b']) (DigitalSequence.detI ['a', 'c']) 10 = some (.ok none) ∧
    trieMatchingI (fun _ s => s) (DigitalSequence.detI ['a', 'b']) (DigitalSequence.detI ['a', 'c']) 10 = some (.ok [2, 1, 1, 0]) :=
  ⟨by decide, by decide, by decide, by decide⟩

/-- **C118** (intersection), the full statement. It does not hold of the code: see `C118_intersection_counterexample`. -/
def C118_intersection_statement : Prop :=
  ∀ (x y : Operand Char) (ord : SetOracle Char), ord.Valid → x.IsTrie → y.IsTrie →
    ∃ g, Returns (deterministicIntersectionI ord x.detI y.detI) (.ok g) ∧ ∀ w, g.Lang w ↔ x.Lang w ∧ y.Lang w

/-- The intersection of `DigitalSequence("")` with itself rejects the empty word. -/
theorem C118_intersection_counterexample : ¬C118_intersection_statement := by
  intro h
  obtain ⟨g, h1, h2⟩ := h (.sequence []) (.sequence []) (fun _ s => s) (fun _ _ => .refl _) trivial trivial
  obtain ⟨g', k1, _, k2⟩ := C118_intersection_partial (ord := fun _ (s : List Char) => s) (fun _ _ => .refl _) (x := .sequence []) (y := .sequence []) trivial trivial
  have := returns_unique h1 k1
  injection this with this
  subst this
  have := k2.mp ((h2 []).mpr ⟨rfl, rfl⟩)
  obtain ⟨_, _, a, ha, _⟩ := this
  simp [Operand.Leads] at ha

end PyBGL
