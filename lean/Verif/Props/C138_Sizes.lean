import Verif.Proofs.ThompsonSize
import Verif.Props.C14_C18_Trie
import Verif.Props.C25_C28_Nfa
import Verif.Props.C38_C40_Hopcroft
import Verif.Props.C46_C47_Product
import Verif.Props.C99_RegexExact
import Mathlib.Data.List.Sublists
import Mathlib.Data.List.Dedup
import Mathlib.Data.List.Infix
import Mathlib.Data.List.ProdSigma
import Mathlib.Tactic.Ring

/-!
# C138: sizes of the automata computed
-/

namespace PyBGL
open Automaton
variable {A : Type} [DecidableEq A]

/-! ## Automata of regular expressions -/

/-- **C138.** The automaton compiled from an expression has exactly the states `0, …, n - 1`, where `n` is `Regex.states`; its initial state is among them and its final state is the last one. -/
theorem C138_thompson {eps : A} (e : Regex A) (hv : e.NoVoid) {g : Nfa A} {q f : Nat} (h : Thompson.compile eps e.toPostfix = .ok (g, q, f)) :
    g.vertices = List.range e.states ∧ q < e.states ∧ f + 1 = e.states :=
  have := Thompson.compile_sized e hv _ h
  ⟨this.1.1, this.2.1, this.2.2⟩

/-- **C138.** Without repetitions `{m,n}`, the automaton has at most twice as many states as the expression has tokens. -/
theorem C138_thompson_linear {eps : A} (e : Regex A) (hv : e.NoRep) {g : Nfa A} {q f : Nat} (h : Thompson.compile eps e.toPostfix = .ok (g, q, f)) :
    g.vertices.length ≤ 2 * e.toPostfix.length := by
  have hn : ∀ e : Regex A, e.NoRep → e.NoVoid ∧ e.states ≤ 2 * e.toPostfix.length := by
    intro e
    induction e with
    | sym a => intro _; simp [Regex.NoVoid, Regex.states, Regex.toPostfix]
    | chars a => intro _; simp [Regex.NoVoid, Regex.states, Regex.toPostfix]
    | cat e₁ e₂ i₁ i₂ =>
      intro h
      have a := i₁ h.1; have b := i₂ h.2
      refine ⟨⟨a.1, b.1⟩, ?_⟩
      simp only [Regex.states, Regex.toPostfix, List.length_append, List.length_singleton]; omega
    | alt e₁ e₂ i₁ i₂ =>
      intro h
      have a := i₁ h.1; have b := i₂ h.2
      refine ⟨⟨a.1, b.1⟩, ?_⟩
      simp only [Regex.states, Regex.toPostfix, List.length_append, List.length_singleton]; omega
    | opt e i =>
      intro h
      have a := i h
      refine ⟨a.1, ?_⟩
      simp only [Regex.states, Regex.toPostfix, List.length_append, List.length_singleton]; omega
    | star e i =>
      intro h
      have a := i h
      refine ⟨a.1, ?_⟩
      simp only [Regex.states, Regex.toPostfix, List.length_append, List.length_singleton]; omega
    | plus e i =>
      intro h
      have a := i h
      refine ⟨a.1, ?_⟩
      simp only [Regex.states, Regex.toPostfix, List.length_append, List.length_singleton]; omega
    | rep m n e i => intro h; exact h.elim
  have := hn e hv
  rw [(C138_thompson e this.1 h).1, List.length_range]
  exact this.2

/-! ## Determinisation -/

/-- **C138.** `moore_determination` of an automaton whose initial states and targets of transitions lie in `S` has at most `2 ^ |S|` states. -/
theorem C138_moore {g : Nfa A} (hg : g.WF) {S : List Nat} (hi : ∀ q ∈ g.initials, q ∈ S) (ht : ∀ q a r, g.Trans q a r → r ∈ S) (complete : Bool) (pick : Nat → Nat)
    (order : Nat → List A → List A) (hord : ∀ t l, (order t l).Perm l) :
    ∃ dfa, Returns (Moore.run g complete pick order) (.ok dfa) ∧ dfa.vertices.length ≤ 2 ^ S.length := by
  have hT : g.Trans = g.T := by funext q a r; exact propext (Nfa.trans_iff hg q a r)
  obtain ⟨r, hr, hp⟩ := Moore.run_spec g complete pick order hord
  cases r with
  | error e => cases hp
  | ok dfa =>
    obtain ⟨map, h⟩ := hp
    refine ⟨dfa, hr, ?_⟩
    have hsub : ∀ k q, map.get? k = some q → ∀ x ∈ k, x ∈ S := by
      intro k q hk x hx
      obtain ⟨w, hw⟩ := h.reach k q hk
      obtain ⟨q0, h0, u, hu, -⟩ := (Moore.k0path_mem hw x).1 hx
      replace h0 := hi _ h0
      rw [← hT] at hu
      clear hx
      induction hu with
      | nil => exact h0
      | cons e _ ih => exact ih (ht _ _ _ e)
    rw [← List.length_sublists]
    refine Hopcroft.card_le h.awf.outer (fun q l => ∃ k, map.get? k = some q ∧ ∀ x, x ∈ k ↔ x ∈ l) ?_ ?_
    · intro q hq
      obtain ⟨k, hk⟩ := (h.verts q).1 hq
      refine ⟨S.filter (fun x => decide (x ∈ k)), List.mem_sublists.2 List.filter_sublist, k, hk, fun x => ?_⟩
      rw [List.mem_filter, decide_eq_true_eq]
      exact ⟨fun hx => ⟨hsub k q hk x hx, hx⟩, fun hx => hx.2⟩
    · rintro q _ q' _ l ⟨k, hk, e⟩ ⟨k', hk', e'⟩
      have := Moore.kreach_ext (h.reach _ _ hk) (h.reach _ _ hk') (fun x => (e x).trans (e' x).symm)
      subst this
      rw [hk] at hk'; exact Option.some.inj hk'

omit [DecidableEq A] in
theorem Regex.noVoid {eps : A} (e : Regex A) (hv : e.Valid eps) (hs : e.Regular) : e.NoVoid := by
  induction e with
  | sym a => trivial
  | chars a => trivial
  | cat e₁ e₂ i₁ i₂ => exact ⟨i₁ hv.1 hs.1, i₂ hv.2 hs.2⟩
  | alt e₁ e₂ i₁ i₂ => exact ⟨i₁ hv.1 hs.1, i₂ hv.2 hs.2⟩
  | opt e i => exact i hv hs
  | star e i => exact i hv hs
  | plus e i => exact i hv hs
  | rep m n e i =>
    cases n with
    | none => exact i hv hs
    | some n =>
      refine ⟨i hv.2 hs.1, fun h => hs.2 ?_ (by omega)⟩
      have := hv.1; omega

/-- **C138.** Hence the deterministic automaton of an expression has at most `2 ^ n` states, where `n` is `Regex.states`. -/
theorem C138_regex_dfa {eps : A} (e : Regex A) (hv : e.Valid eps) (hs : e.Regular) (complete : Bool) (pick : Nat → Nat)
    (order : Nat → List A → List A) (hord : ∀ t l, (order t l).Perm l) :
    ∃ g q f dfa, Thompson.compile eps e.toPostfix = .ok (g, q, f) ∧ Returns (Moore.run g complete pick order) (.ok dfa) ∧ dfa.vertices.length ≤ 2 ^ e.states := by
  obtain ⟨g, q, f, h1, h2, -⟩ := C99_compile e hv hs
  have hV := (C138_thompson e (Regex.noVoid e hv hs) h1).1
  obtain ⟨dfa, d1, d2⟩ := C138_moore (g := g) h2.wf (S := g.vertices) (fun x hx => by rw [(h2.init x).1 hx]; exact h2.q0_mem)
    (fun x a r hx => (h2.closed x a r hx).2) complete pick order hord
  refine ⟨g, q, f, dfa, h1, d1, ?_⟩
  rwa [hV, List.length_range] at d2

/-! ## Tries -/

theorem TrieInv.size {g : Automaton A} (h : TrieInv g) {P : List (List A)} (hn : P.Nodup) (hP : ∀ x, x ∈ P ↔ ∃ s, g.deltaWord (some 0) x = some s) :
    g.vertices.length = P.length := by
  apply Nat.le_antisymm
  · refine Hopcroft.card_le h.wf.outer (fun q x => g.deltaWord (some 0) x = some q) ?_ ?_
    · intro q hq
      obtain ⟨u, hu⟩ := h.surj q hq
      exact ⟨u, (hP u).2 ⟨q, hu⟩, hu⟩
    · intro q _ q' _ x hx hx'
      rw [hx] at hx'; exact Option.some.inj hx'
  · refine Hopcroft.card_le hn (fun x q => g.deltaWord (some 0) x = some q) ?_ ?_
    · intro x hx
      obtain ⟨q, hq⟩ := (hP x).1 hx
      refine ⟨q, ?_, hq⟩
      induction x using List.reverseRecOn with
      | nil =>
        rw [deltaWord_nil] at hq; cases hq
        rw [h.mem_vertices]; exact h.pos
      | append_singleton x a _ =>
        rw [deltaWord_snoc] at hq
        cases hu : g.deltaWord (some 0) x with
        | none => rw [hu] at hq; cases hq
        | some p => rw [hu] at hq; exact h.closed p a q hq
    · intro x _ x' _ q hx hx'
      exact h.inj _ _ _ hx hx'

/-- **C138.** A trie has one state per prefix of the words inserted, the empty word included. -/
theorem C138_trie {ws : List (List A)} {g : Automaton A} (h : Trie.Built ws g) {P : List (List A)} (hn : P.Nodup) (hP : ∀ x, x ∈ P ↔ x = [] ∨ ∃ w ∈ ws, x <+: w) :
    g.vertices.length = P.length := by
  refine h.inv.size hn fun x => ?_
  rw [hP, ← C15_prefixes h]
  exact exists_congr fun q => (deltaWord_iff h.inv.wf).symm

/-- **C138.** A trie has at most one state more than the total length of the words inserted. -/
theorem C138_trie_bound {ws : List (List A)} {g : Automaton A} (h : Trie.Built ws g) : g.vertices.length ≤ 1 + (ws.map List.length).sum := by
  let P := ([] :: ws.flatMap fun w => w.inits.tail).dedup
  have hP : ∀ x, x ∈ P ↔ x = [] ∨ ∃ w ∈ ws, x <+: w := by
    intro x
    simp only [P, List.mem_dedup, List.mem_cons, List.mem_flatMap]
    by_cases hx : x = []
    · simp [hx]
    · simp only [hx, false_or]
      refine exists_congr fun w => and_congr_right fun _ => ?_
      rw [← List.mem_inits]
      cases w with
      | nil => simp [hx]
      | cons a w => simp [hx]
  rw [C138_trie h (List.nodup_dedup _) hP]
  refine (List.dedup_sublist _).length_le.trans ?_
  simp only [List.length_cons, List.length_flatMap, List.length_tail, List.length_inits, Nat.add_sub_cancel]
  show (ws.map List.length).sum + 1 ≤ _
  omega

/-- **C138.** A suffix trie has one state per factor of the word (of length at most `max_len`, if given), the empty one included. -/
theorem C138_suffix_trie {w : List A} {maxLen : Option Nat} {g : Automaton A} (h : SuffixTrie.make w maxLen = .ok g) {P : List (List A)} (hn : P.Nodup)
    (hP : ∀ x, x ∈ P ↔ x <:+: w ∧ ∀ k, maxLen = some k → k ≠ 0 → x.length ≤ k) : g.vertices.length = P.length := by
  obtain ⟨g', h1, h2, _⟩ := make_spec w maxLen (List.range w.length) (TrieInv.new (A := A))
  have : g = g' := by
    have e : SuffixTrie.make w maxLen = .ok g' := h1
    rw [h] at e; cases e; rfl
  subst this
  refine h2.size hn fun x => ?_
  obtain ⟨g'', k1, k2⟩ := C17_make_suffix_trie w maxLen
  rw [h] at k1; cases k1
  rw [hP, ← k2]
  unfold SuffixTrie.accepts acceptsWith initial
  rw [h2.init]
  cases g.deltaWord (some 0) x <;> simp

omit [DecidableEq A] in
theorem sum_tails (w : List A) : 2 * (w.tails.map List.length).sum = w.length * (w.length + 1) := by
  induction w with
  | nil => simp
  | cons a w ih =>
    simp only [List.tails_cons, List.map_cons, List.sum_cons, List.length_cons, Nat.mul_add, ih]
    ring

/-- **C138.** The suffix trie of a word of length `n` has at most `1 + n (n + 1) / 2` states. -/
theorem C138_suffix_trie_bound {w : List A} {maxLen : Option Nat} {g : Automaton A} (h : SuffixTrie.make w maxLen = .ok g) :
    2 * (g.vertices.length - 1) ≤ w.length * (w.length + 1) := by
  let P := (([] :: w.tails.flatMap fun w => w.inits.tail).filter fun x => decide (∀ k ∈ maxLen.toList, k ≠ 0 → x.length ≤ k)).dedup
  have hP : ∀ x, x ∈ P ↔ x <:+: w ∧ ∀ k, maxLen = some k → k ≠ 0 → x.length ≤ k := by
    intro x
    simp only [P, List.mem_dedup, List.mem_filter, decide_eq_true_eq, Option.mem_toList]
    refine and_congr_left fun _ => ?_
    simp only [List.mem_cons, List.mem_flatMap, List.mem_tails]
    by_cases hx : x = []
    · simp [hx]
    · simp only [hx, false_or]
      rw [List.infix_iff_prefix_suffix]
      refine exists_congr fun v => ?_
      rw [and_comm]
      refine and_congr_left fun _ => ?_
      rw [← List.mem_inits]
      cases v with
      | nil => simp [hx]
      | cons a w => simp [hx]
  rw [C138_suffix_trie h (List.nodup_dedup _) hP]
  have : P.length ≤ 1 + (w.tails.map List.length).sum := by
    refine (List.dedup_sublist _).length_le.trans ((List.length_filter_le _ _).trans ?_)
    simp only [List.length_cons, List.length_flatMap, List.length_tail, List.length_inits, Nat.add_sub_cancel]
    show (w.tails.map List.length).sum + 1 ≤ _
    omega
  show 2 * (P.length - 1) ≤ _
  have := sum_tails w
  omega

/-! ## Products -/

/-- **C138.** The intersection of two automata reaching only states of `S₁` and of `S₂` has at most `|S₁| |S₂|` states. -/
theorem C138_intersection {g1 g2 : Automaton A} {ord : SetOracle A} (h1 : g1.Reachable) (h2 : g2.Reachable) (ho : ord.Valid) (i1 : g1.q0 ≠ none) (i2 : g2.q0 ≠ none)
    {S1 S2 : List Nat} (s1 : ∀ w q, g1.After w (some q) → q ∈ S1) (s2 : ∀ w q, g2.After w (some q) → q ∈ S2) :
    ∃ g, Returns (deterministicIntersection ord g1 g2) (.ok g) ∧ g.vertices.length ≤ S1.length * S2.length := by
  obtain ⟨s, L, E, k0, k1, k2, k3, k4, k5⟩ := Product.inter_spec ho h1.awf h2.awf i1 i2
  have hE : ∀ p ∈ E, ∃ w, p = Pbfs.pairOf g1 g2 w := by
    refine k5 _ ⟨[], rfl⟩ ?_
    rintro _ ⟨w, rfl⟩ a _
    exact ⟨w ++ [a], (Pbfs.pairOf_snoc w a).symm⟩
  have hb : ∀ p q, s.map.get? p = some q → (∃ w, p = Pbfs.pairOf g1 g2 w) ∧ Product.both p = true := by
    intro p q hq
    obtain ⟨⟨p', a⟩, hx, hp⟩ := (k1.dom p).1 (by rw [hq]; simp)
    obtain ⟨m1, m2⟩ := (k2 p' a).1 hx
    obtain ⟨w, rfl⟩ := hE _ m1
    rcases hp with rfl | rfl
    · refine ⟨⟨w, rfl⟩, ?_⟩
      rw [Product.both_iff] at m2 ⊢
      simp only [Pbfs.nxt] at m2
      constructor
      · intro e; rw [e] at m2; exact m2.1 rfl
      · intro e; rw [e] at m2; exact m2.2 rfl
    · exact ⟨⟨w ++ [a], (Pbfs.pairOf_snoc w a).symm⟩, m2⟩
  refine ⟨s.g12, k0, ?_⟩
  rw [← List.length_product]
  refine Hopcroft.card_le k1.wf.outer (fun q (p : Nat × Nat) => s.map.get? (some p.1, some p.2) = some q) ?_ ?_
  · intro q hq
    obtain ⟨p, hp⟩ := (k1.verts q).1 hq
    obtain ⟨⟨w, hw⟩, hbp⟩ := hb p q hp
    obtain ⟨p1, p2⟩ := p
    rw [Product.both_iff] at hbp
    obtain ⟨x1, rfl⟩ := Option.ne_none_iff_exists'.1 hbp.1
    obtain ⟨x2, rfl⟩ := Option.ne_none_iff_exists'.1 hbp.2
    simp only [Pbfs.pairOf, Prod.mk.injEq] at hw
    exact ⟨(x1, x2), List.mem_product.2 ⟨s1 w x1 ((after_iff h1.awf).2 hw.1.symm), s2 w x2 ((after_iff h2.awf).2 hw.2.symm)⟩, hp⟩
  · intro q _ q' _ p hp hp'
    rw [hp] at hp'; exact Option.some.inj hp'

/-- **C138.** The union of two automata reaching only states of `S₁` and of `S₂` has fewer than `(|S₁| + 1) (|S₂| + 1)` states. -/
theorem C138_union {g1 g2 : Automaton A} {ord : SetOracle A} (h1 : g1.Reachable) (h2 : g2.Reachable) (ho : ord.Valid)
    {S1 S2 : List Nat} (s1 : ∀ w q, g1.After w (some q) → q ∈ S1) (s2 : ∀ w q, g2.After w (some q) → q ∈ S2) :
    ∃ g, Returns (deterministicUnion ord g1 g2) (.ok g) ∧ g.vertices.length < (S1.length + 1) * (S2.length + 1) := by
  obtain ⟨s, L, k0, k1, k2⟩ := Product.union_spec ho h1.awf h2.awf
  refine ⟨s.g12, k0, ?_⟩
  let T : List StatePair := ((none :: S1.map some) ×ˢ (none :: S2.map some)).tail
  have hT : T.length < (S1.length + 1) * (S2.length + 1) := by
    have e : (S1.length + 1) * (S2.length + 1) = ((none :: S1.map some) ×ˢ (none :: S2.map some)).length := by
      rw [List.length_product]; simp
    rw [e, List.length_tail]
    have : 0 < ((none :: S1.map some) ×ˢ (none :: S2.map some)).length := by
      rw [← e]; exact Nat.mul_pos (by omega) (by omega)
    omega
  refine Nat.lt_of_le_of_lt ?_ hT
  refine Hopcroft.card_le k1.wf.outer (fun q p => s.map.get? p = some q) ?_ ?_
  · intro q hq
    obtain ⟨p, hp⟩ := (k1.verts q).1 hq
    refine ⟨p, ?_, hp⟩
    have hw : (∃ w, p = Pbfs.pairOf g1 g2 w) ∧ p ≠ Product.bot := by
      obtain ⟨⟨p', a⟩, hx, hp⟩ := (k1.dom p).1 (by rw [hp]; simp)
      obtain ⟨⟨w, rfl⟩, m2⟩ := (k2 p' a).1 hx
      rcases hp with rfl | rfl
      · refine ⟨⟨w, rfl⟩, ?_⟩
        intro e; simp only at e; rw [e] at m2; exact m2 rfl
      · exact ⟨⟨w ++ [a], (Pbfs.pairOf_snoc w a).symm⟩, m2⟩
    obtain ⟨⟨w, hw⟩, hb⟩ := hw
    obtain ⟨p1, p2⟩ := p
    simp only [Pbfs.pairOf, Prod.mk.injEq] at hw
    have m1 : p1 ∈ none :: S1.map some := by
      cases p1 with
      | none => simp
      | some x => simpa using s1 w x ((after_iff h1.awf).2 hw.1.symm)
    have m2 : p2 ∈ none :: S2.map some := by
      cases p2 with
      | none => simp
      | some x => simpa using s2 w x ((after_iff h2.awf).2 hw.2.symm)
    have m := List.mem_product.2 ⟨m1, m2⟩
    have e : (none :: S1.map some) ×ˢ (none :: S2.map some) = (none, none) :: T := rfl
    rw [e, List.mem_cons] at m
    exact m.resolve_left hb
  · intro q _ q' _ p hp hp'
    rw [hp] at hp'; exact Option.some.inj hp'

/-! ## Concrete cases -/

namespace Examples

/-- `(a|b)*a{0,2}`. -/
def sizedRegex : Regex Char := .cat (.star (.alt (.sym 'a') (.sym 'b'))) (.rep 0 (some 2) (.sym 'a'))

/-- Its automaton has `8 + 5` states. -/
example : sizedRegex.NoVoid ∧ sizedRegex.Valid 'ε' ∧ sizedRegex.Regular ∧ sizedRegex.states = 13 ∧
    (Thompson.compile 'ε' sizedRegex.toPostfix).toOption.map (fun x => x.1.vertices) = some (List.range 13) := by
  refine ⟨?_, ?_, ?_, rfl, by decide⟩
  · simp [sizedRegex, Regex.NoVoid]
  · simp [sizedRegex, Regex.Valid]
  · simp [sizedRegex, Regex.Regular, Regex.StartsAtZero]

/-- `C138_thompson` requires that `{0}` be not applied to `a|b`: the automaton of `(a|b){0}?` has two states, and not one. -/
example : ¬ (Regex.opt (.rep 0 (some 0) (.alt (.sym 'a') (.sym 'b')))).NoVoid ∧
    (Regex.opt (.rep 0 (some 0) (.alt (.sym 'a') (.sym 'b')))).states = 1 ∧
    (Thompson.compile 'ε' (Regex.opt (.rep 0 (some 0) (.alt (.sym 'a') (.sym 'b')))).toPostfix).toOption.map (fun x => x.1.vertices) = some [0, 4] := by
  refine ⟨?_, rfl, by decide⟩
  simp [Regex.NoVoid, Regex.StartsAtZero]

/-- The trie of `ab` and `ac` has a state for each of ``, `a`, `ab`, `ac`. -/
example : ∃ g, Trie.Built [['a', 'b'], ['a', 'c']] g ∧ g.vertices = [0, 1, 2, 3] := ⟨_, rfl, by decide⟩

/-- The suffix trie of `aba` has a state for each of ``, `a`, `b`, `ab`, `ba`, `aba`. -/
example : (SuffixTrie.make ['a', 'b', 'a'] none).toOption.map (fun g => g.vertices.length) = some 6 := by decide

/-- The union of `aa*` and `b` has the states `(0, 0)`, `(1, ⊥)` and `(⊥, 1)`: the bound is `(2 + 1) * (2 + 1) - 1`. -/
example : ∃ g1 g2 : Automaton Char, Runs Automaton.exec Automaton.empty plusHistory g1 ∧ Runs Automaton.exec Automaton.empty letterHistory g2 ∧
    (deterministicUnion (fun _ s => s) g1 g2 10).map (fun r => r.toOption.map fun g => g.vertices.length) = some (some 3) :=
  ⟨_, _, rfl, rfl, by decide⟩

end Examples
end PyBGL
