import Verif.Proofs.TrieLemmas

/-!
# C14, C15, C17, C18: tries, suffix tries, factors
-/

namespace PyBGL
open Automaton
variable {A : Type} [DecidableEq A]

/-- The trie obtained by inserting the words `ws`, in order, in a new `Trie`. -/
def Trie.Built (ws : List (List A)) (g : Automaton A) : Prop := ws.foldlM Trie.insert Trie.new = .ok g

theorem foldlM_snoc {S X : Type} (f : S → X → Except PyErr S) (s : S) (l : List X) (x : X) :
    (l ++ [x]).foldlM f s = (l.foldlM f s >>= fun t => f t x) := by
  rw [List.foldlM_append]
  congr; funext t
  show (f t x >>= fun y => pure y) = f t x
  cases f t x <;> rfl

theorem Trie.Built.inv {ws : List (List A)} {g : Automaton A} (h : Trie.Built ws g) : TrieInv g := by
  induction ws using List.reverseRecOn generalizing g with
  | nil => cases h; exact TrieInv.new
  | append_singleton ws w ih =>
    unfold Trie.Built at h
    rw [foldlM_snoc, except_bind_ok] at h
    obtain ⟨g1, h1, h2⟩ := h
    exact insert_inv (ih h1) h2

/-- **C14**: on a trie built by insertions, `insert(w)` returns normally and adds exactly the word `w`
to the accepted words; inserting a word twice is the same as inserting it once, as far as states,
transitions and accepted words are concerned. -/
theorem C14_insert {ws : List (List A)} {g : Automaton A} (h : Trie.Built ws g) (w : List A) :
    ∃ g', Trie.insert g w = .ok g' ∧ Trie.Built (ws ++ [w]) g' ∧
      (∀ x, g'.accepts x = true ↔ g.accepts x = true ∨ x = w) ∧
      ∃ g'', Trie.insert g' w = .ok g'' ∧ g''.adj = g'.adj ∧ g''.initial = g'.initial ∧
        ∀ q, g''.isFinal q = g'.isFinal q := by
  obtain ⟨g1, q, g2, h1, h2, h3⟩ := insert_spec h.inv w
  have hinv := insert_inv h.inv h3
  refine ⟨g2, h3, ?_, insert_accepts h.inv h3, g2.setFinal q, ?_, rfl, rfl, ?_⟩
  · unfold Trie.Built at h ⊢
    rw [foldlM_snoc, h]; exact h3
  · apply insert_known hinv
    rw [h2, deltaWord_setFinal]; exact h1.goal
  · intro p
    rw [h2]; simp only [isFinal_setFinal]; split <;> rfl

/-- **C15**: inserting any list of words in a new trie succeeds. -/
theorem C15_total (ws : List (List A)) : ∃ g, Trie.Built ws g := by
  induction ws using List.reverseRecOn with
  | nil => exact ⟨_, rfl⟩
  | append_singleton ws w ih =>
    obtain ⟨g, h⟩ := ih
    obtain ⟨g', h', hb, _⟩ := C14_insert h w
    exact ⟨g', hb⟩

/-- **C15**: the trie accepts exactly the inserted words. -/
theorem C15_language {ws : List (List A)} {g : Automaton A} (h : Trie.Built ws g) (x : List A) :
    g.accepts x = true ↔ x ∈ ws := by
  induction ws using List.reverseRecOn generalizing g with
  | nil =>
    cases h
    rw [TrieInv.new.accepts_iff]
    simp only [List.not_mem_nil, iff_false]
    rintro ⟨q, _, hf⟩
    simp [Trie.new, Automaton.init, addVertex, Automaton.empty, isFinal, Dict.getD] at hf
  | append_singleton ws w ih =>
    unfold Trie.Built at h
    rw [foldlM_snoc, except_bind_ok] at h
    obtain ⟨g1, h1, h2⟩ := h
    rw [insert_accepts (Trie.Built.inv h1) h2, ih h1]
    simp

/-- **C15**: `x` leads from the root to some state iff `x` is empty or a prefix of an inserted word. -/
theorem C15_prefixes {ws : List (List A)} {g : Automaton A} (h : Trie.Built ws g) (x : List A) :
    (∃ q, LPath (fun q a r => (⟨q, r, a⟩ : EdgeDesc A) ∈ g.edges) 0 x q) ↔ x = [] ∨ ∃ w ∈ ws, x <+: w := by
  have e : (∃ q, LPath (fun q a r => (⟨q, r, a⟩ : EdgeDesc A) ∈ g.edges) 0 x q) ↔
      ∃ q, g.deltaWord (some 0) x = some q :=
    exists_congr fun q => (deltaWord_iff h.inv.wf).symm
  rw [e]; clear e
  induction ws using List.reverseRecOn generalizing g with
  | nil =>
    cases h
    constructor
    · rintro ⟨q, hq⟩
      cases x with
      | nil => exact .inl rfl
      | cons a x =>
        rw [deltaWord_cons] at hq
        have : (Trie.new : Automaton A).deltaO (some 0) a = none := rfl
        rw [this] at hq; simp at hq
    · rintro (rfl | ⟨w, hw, _⟩)
      · exact ⟨0, rfl⟩
      · cases hw
  | append_singleton ws w ih =>
    unfold Trie.Built at h
    rw [foldlM_snoc, except_bind_ok] at h
    obtain ⟨g1, h1, h2⟩ := h
    rw [insert_domain (Trie.Built.inv h1) h2, iff_of_eq (congrArg (· ∨ x <+: w) (propext (ih h1)))]
    simp only [List.mem_append, List.mem_singleton]
    constructor
    · rintro ((h | ⟨v, hv, hx⟩) | h)
      · exact .inl h
      · exact .inr ⟨v, .inl hv, hx⟩
      · exact .inr ⟨w, .inr rfl, h⟩
    · rintro (h | ⟨v, hv | rfl, hx⟩)
      · exact .inl (.inl h)
      · exact .inl (.inr ⟨v, hv, hx⟩)
      · exact .inr hx

/-- **C15**: every state is reached from the root by exactly one word, the root is the initial state,
and `num_edges()`, computed as `num_vertices() - 1`, is the number of edges. -/
theorem C15_states {ws : List (List A)} {g : Automaton A} (h : Trie.Built ws g) :
    g.initial = some 0 ∧
    (∀ q ∈ g.vertices, ∃ x, LPath (fun q a r => (⟨q, r, a⟩ : EdgeDesc A) ∈ g.edges) 0 x q ∧
      ∀ y, LPath (fun q a r => (⟨q, r, a⟩ : EdgeDesc A) ∈ g.edges) 0 y q → y = x) ∧
    Trie.numEdges g = g.edges.length ∧ g.edges.Nodup := by
  refine ⟨h.inv.init, ?_, ?_, nodup_edges h.inv.wf⟩
  · intro q hq
    obtain ⟨x, hx⟩ := h.inv.surj q hq
    refine ⟨x, (deltaWord_iff h.inv.wf).1 hx, ?_⟩
    intro y hy
    exact h.inv.inj _ _ _ ((deltaWord_iff h.inv.wf).2 hy) hx
  · unfold Trie.numEdges numVertices
    have := h.inv.count
    simp only
    split <;> omega

/-- **C15**: an empty trie (`Trie(0)`, or all the vertices have been removed) has no edge, and `num_edges()` says so. -/
theorem C15_no_state {g : Automaton A} (h : g.numVertices = 0) : Trie.numEdges g = 0 ∧ g.edges = [] := by
  have h1 : g.adj = [] := by
    have : g.adj.length = 0 := by simpa [numVertices, vertices, Dict.keys] using h
    exact List.eq_nil_of_length_eq_zero this
  exact ⟨by simp [Trie.numEdges, h], by simp [edges, h1]⟩

example : (Automaton.init 0 : Automaton Char).numVertices = 0 := rfl

/-- After other operations than insertions, `num_edges()` may be wrong: here `remove_edge` has been called on the trie of `a`. -/
example : ∃ g : Automaton Char, Trie.insert Trie.new ['a'] = .ok g ∧ (g.removeEdge ⟨0, 1, 'a'⟩).edges = [] ∧
    Trie.numEdges (g.removeEdge ⟨0, 1, 'a'⟩) = 1 :=
  ⟨⟨2, [(0, [('a', 1)]), (1, [])], some 0, [(1, true)]⟩, rfl, rfl, rfl⟩

/-- Witness: three words, one a prefix of another. -/
def exWords : List (List Char) := [['a', 'b'], ['a'], ['b']]

/-- The trie of `exWords`. -/
def exTrie : Automaton Char :=
  ⟨4, [(0, [('a', 1), ('b', 3)]), (1, [('b', 2)]), (2, []), (3, [])], some 0, [(2, true), (1, true), (3, true)]⟩

theorem exTrie_built : Trie.Built exWords exTrie := rfl

example : ∃ g, Trie.Built exWords g ∧ g.accepts ['a'] = true ∧ g.accepts [] = false ∧
    g.numVertices = 4 := ⟨exTrie, exTrie_built, rfl, rfl, rfl⟩

/-! ## C17 -/

theorem prefix_window_iff (w : List A) (maxLen : Option Nat) (x : List A) (hx : x ≠ []) :
    (∃ i ∈ List.range w.length, x <+: SuffixTrie.window w maxLen i) ↔
      x <:+: w ∧ ∀ k, maxLen = some k → k ≠ 0 → x.length ≤ k := by
  have hpos : 0 < x.length := List.length_pos_iff.2 hx
  have hinfix : x <:+: w ↔ ∃ i ∈ List.range w.length, x <+: w.drop i := by
    constructor
    · rintro ⟨s, t, rfl⟩
      refine ⟨s.length, ?_, ?_⟩
      · simp only [List.mem_range, List.length_append]; omega
      · exact ⟨t, by simp⟩
    · rintro ⟨i, _, h⟩
      exact h.isInfix.trans (List.drop_suffix i w).isInfix
  rw [hinfix]
  rcases maxLen with _ | _ | k
  · simp [SuffixTrie.window, boundOf]
  · simp [SuffixTrie.window, boundOf]
  · simp only [SuffixTrie.window, boundOf, Option.some.injEq]
    constructor
    · rintro ⟨i, hi, h⟩
      refine ⟨⟨i, hi, h.trans (List.take_prefix _ _)⟩, ?_⟩
      rintro _ rfl _
      have := h.length_le
      rw [List.length_take] at this; omega
    · rintro ⟨⟨i, hi, h⟩, hl⟩
      refine ⟨i, hi, ?_⟩
      rw [List.prefix_take_iff]
      exact ⟨h, hl _ rfl (by omega)⟩

/-- **C17**: `make_suffix_trie(w, max_len)` returns a trie accepting exactly the contiguous factors of `w`
of length at most `max_len` (no bound when `max_len` is `None` or `0`). -/
theorem C17_make_suffix_trie (w : List A) (maxLen : Option Nat) :
    ∃ g, SuffixTrie.make w maxLen = .ok g ∧
      ∀ x, SuffixTrie.accepts g x = true ↔
        x <:+: w ∧ ∀ k, maxLen = some k → k ≠ 0 → x.length ≤ k := by
  obtain ⟨g, h1, h2, h3⟩ := make_spec w maxLen (List.range w.length) (TrieInv.new (A := A))
  refine ⟨g, h1, ?_⟩
  intro x
  have hacc : SuffixTrie.accepts g x = true ↔ ∃ s, g.deltaWord (some 0) x = some s := by
    unfold SuffixTrie.accepts acceptsWith initial
    rw [h2.init]
    cases g.deltaWord (some 0) x <;> simp
  rw [hacc, h3]
  by_cases hx : x = []
  · subst hx
    constructor
    · intro _; exact ⟨List.nil_infix, by simp⟩
    · intro _; exact .inl ⟨0, rfl⟩
  · rw [prefix_window_iff w maxLen x hx, or_iff_right]
    rintro ⟨s, hs⟩
    cases x with
    | nil => exact hx rfl
    | cons a x =>
      rw [deltaWord_cons] at hs
      have : (Trie.new : Automaton A).deltaO (some 0) a = none := rfl
      rw [this] at hs; simp at hs

/-- Every path of the suffix trie spells a different factor: one state per bounded factor. -/
theorem C17_states (w : List A) (maxLen : Option Nat) (g : Automaton A)
    (h : SuffixTrie.make w maxLen = .ok g) :
    ∀ q ∈ g.vertices, ∃ x, LPath (fun q a r => (⟨q, r, a⟩ : EdgeDesc A) ∈ g.edges) 0 x q ∧
      ∀ y, LPath (fun q a r => (⟨q, r, a⟩ : EdgeDesc A) ∈ g.edges) 0 y q → y = x := by
  obtain ⟨g', h1, h2, _⟩ := make_spec w maxLen (List.range w.length) (TrieInv.new (A := A))
  have : g = g' := by
    have e : SuffixTrie.make w maxLen = .ok g' := h1
    rw [h] at e; cases e; rfl
  subst this
  intro q hq
  obtain ⟨x, hx⟩ := h2.surj q hq
  refine ⟨x, (deltaWord_iff h2.wf).1 hx, fun y hy => ?_⟩
  exact h2.inj _ _ _ ((deltaWord_iff h2.wf).2 hy) hx

example : ∃ g, SuffixTrie.make ['a', 'b', 'a'] (some 2) = .ok g ∧ g.numVertices = 5 ∧
    SuffixTrie.accepts g ['b', 'a'] = true ∧ SuffixTrie.accepts g ['a', 'b', 'a'] = false :=
  ⟨_, rfl, rfl, rfl, rfl⟩

/-! ## C18 -/

/-- **C18**: `slices(n, max_len)` yields `(0, 0)` and exactly the pairs `0 <= i < j <= n` with
`j - i <= max_len` (when `max_len` is truthy), each once. -/
theorem C18_slices (n : Nat) (maxLen : Option Nat) :
    (slices n maxLen).Nodup ∧
    ∀ i j, (i, j) ∈ slices n maxLen ↔ (i = 0 ∧ j = 0) ∨
      (i < j ∧ j ≤ n ∧ ∀ k, maxLen = some k → k ≠ 0 → j - i ≤ k) := by
  have hmem : ∀ i j, (i, j) ∈ properSlices n maxLen ↔
      (i < j ∧ j ≤ n ∧ ∀ k, maxLen = some k → k ≠ 0 → j - i ≤ k) := by
    intro i j
    simp only [properSlices, List.mem_flatMap, List.mem_range, List.mem_map, Prod.mk.injEq, List.mem_range'_1]
    constructor
    · rintro ⟨i', hi, j', hj, rfl, rfl⟩
      rcases maxLen with _ | _ | k
      · have hj : i' + 1 ≤ j' ∧ j' < i' + 1 + (n + 1 - (i' + 1)) := hj
        refine ⟨by omega, by omega, by simp⟩
      · have hj : i' + 1 ≤ j' ∧ j' < i' + 1 + (n + 1 - (i' + 1)) := hj
        refine ⟨by omega, by omega, by simp⟩
      · have hj : i' + 1 ≤ j' ∧ j' < i' + 1 + (min n (i' + (k + 1)) + 1 - (i' + 1)) := hj
        refine ⟨by omega, by omega, ?_⟩
        rintro _ ⟨⟩ _; omega
    · rintro ⟨h1, h2, h3⟩
      refine ⟨i, by omega, j, ?_, rfl, rfl⟩
      rcases maxLen with _ | _ | k
      · show i + 1 ≤ j ∧ j < i + 1 + (n + 1 - (i + 1)); omega
      · show i + 1 ≤ j ∧ j < i + 1 + (n + 1 - (i + 1)); omega
      · show i + 1 ≤ j ∧ j < i + 1 + (min n (i + (k + 1)) + 1 - (i + 1))
        have := h3 _ rfl (by omega)
        omega
  constructor
  · unfold slices
    rw [List.nodup_cons]
    constructor
    · rw [hmem]; omega
    · unfold properSlices
      rw [List.nodup_flatMap]
      constructor
      · intro i _
        exact (List.nodup_range').map (by intro a b h; simpa using h)
      · refine List.nodup_range.imp ?_
        intro i i' hne
        simp only [Function.onFun, List.disjoint_left, List.mem_map]
        rintro p ⟨j, _, rfl⟩ ⟨j', _, h⟩
        simp at h; exact hne h.1.symm
  · intro i j
    unfold slices
    rw [List.mem_cons, hmem]
    simp

/-- **C18**: `x` occurs in `factors(s, max_len)` iff it is a contiguous factor of `s` within the bound. -/
theorem C18_factors (s : List A) (maxLen : Option Nat) (x : List A) :
    x ∈ factors s maxLen ↔ x <:+: s ∧ ∀ k, maxLen = some k → k ≠ 0 → x.length ≤ k := by
  unfold factors
  rw [List.mem_map]
  constructor
  · rintro ⟨⟨i, j⟩, hm, rfl⟩
    rw [(C18_slices s.length maxLen).2] at hm
    refine ⟨((List.take_prefix _ _).isInfix).trans (List.drop_suffix i s).isInfix, ?_⟩
    intro k hk h0
    rw [List.length_take]
    rcases hm with ⟨rfl, rfl⟩ | ⟨h1, h2, h3⟩
    · simp
    · have := h3 k hk h0
      simp only; omega
  · rintro ⟨⟨u, v, rfl⟩, h⟩
    by_cases hx : x = []
    · subst hx
      refine ⟨(0, 0), ?_, by simp⟩
      rw [(C18_slices _ maxLen).2]; simp
    · have hpos : 0 < x.length := List.length_pos_iff.2 hx
      refine ⟨(u.length, u.length + x.length), ?_, ?_⟩
      · rw [(C18_slices _ maxLen).2]
        right
        refine ⟨by omega, by simp only [List.length_append]; omega, ?_⟩
        intro k hk h0
        have := h k hk h0; omega
      · simp

example : factors ['a', 'b', 'c'] (some 2) =
    [[], ['a'], ['a', 'b'], ['b'], ['b', 'c'], ['c']] := by decide

end PyBGL
