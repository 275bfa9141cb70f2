import Verif.Proofs.AutomatonLemmas
import Mathlib.Data.List.Induction

/-!
# The trie invariant
-/

namespace PyBGL
open Automaton
variable {A : Type} [DecidableEq A]

/-- Invariant of tries: every state is reached from state 0 by exactly one word. -/
structure TrieInv (g : Automaton A) : Prop where
  wf : AWF g
  init : g.q0 = some 0
  verts : g.vertices = List.range g.lastVertexId
  pos : 0 < g.lastVertexId
  closed : ∀ q a r, g.delta q a = some r → r ∈ g.vertices
  surj : ∀ q ∈ g.vertices, ∃ u, g.deltaWord (some 0) u = some q
  inj : ∀ u v q, g.deltaWord (some 0) u = some q → g.deltaWord (some 0) v = some q → u = v
  fin : ∀ q, g.isFinal q = true → q ∈ g.vertices
  count : g.edges.length + 1 = g.vertices.length

namespace TrieInv
variable {g : Automaton A}

theorem mem_vertices (h : TrieInv g) {q : Nat} : q ∈ g.vertices ↔ q < g.lastVertexId := by
  rw [h.verts, List.mem_range]

theorem reached (h : TrieInv g) {u : List A} {q : Nat} (hu : g.deltaWord (some 0) u = some q) :
    q ∈ g.vertices := by
  rcases List.eq_nil_or_concat u with rfl | ⟨u, a, rfl⟩
  · simp at hu; subst hu; rw [h.mem_vertices]; exact h.pos
  · rw [List.concat_eq_append, deltaWord_snoc] at hu
    cases hd : g.deltaWord (some 0) u with
    | none => rw [hd] at hu; cases hu
    | some p => rw [hd] at hu; exact h.closed _ _ _ hu

theorem accepts_iff (h : TrieInv g) (x : List A) :
    g.accepts x = true ↔ ∃ q, g.deltaWord (some 0) x = some q ∧ g.isFinal q = true := by
  unfold accepts initial
  rw [h.init]
  cases hd : g.deltaWord (some 0) x with
  | none => simp
  | some q => simp

theorem new : TrieInv (Trie.new : Automaton A) := by
  have hd : ∀ q a, (Trie.new : Automaton A).delta q a = none := by
    intro q a
    show Dict.get? (Dict.getD [(0, [])] q []) a = none
    unfold Dict.getD
    by_cases h : (0 : Nat) = q <;> simp [Dict.get?, h]
  have hw : ∀ u q, (Trie.new : Automaton A).deltaWord (some 0) u = some q → u = [] ∧ q = 0 := by
    intro u q h
    cases u with
    | nil => simp at h; exact ⟨rfl, h.symm⟩
    | cons a u => rw [deltaWord_cons] at h; simp [deltaO, hd] at h
  refine ⟨AWF_addVertex AWF_empty, rfl, rfl, Nat.zero_lt_one, ?_, ?_, ?_, ?_, rfl⟩
  · intro q a r h; rw [hd] at h; cases h
  · intro q hq
    have : q = 0 := by simpa [Trie.new, Automaton.init, addVertex, Automaton.empty, vertices, Dict.set, Dict.keys] using hq
    subst this; exact ⟨[], rfl⟩
  · intro u v q h1 h2; rw [(hw _ _ h1).1, (hw _ _ h2).1]
  · intro q h; simp [Trie.new, Automaton.init, addVertex, Automaton.empty, isFinal, Dict.getD] at h

end TrieInv

/-- Result of adding a fresh state below `q` along `a`. -/
def addLeaf (g : Automaton A) (q : Nat) (a : A) : Automaton A := g.addVertex.2.setDelta q g.lastVertexId a

theorem addLeaf_eq {g : Automaton A} (hg : AWF g) {q : Nat} {a : A} (hq : q ∈ g.vertices)
    (hd : g.delta q a = none) :
    g.addVertex.2.addEdge q g.lastVertexId a = .ok (some ⟨q, g.lastVertexId, a⟩, true, addLeaf g q a) := by
  apply addEdge_of_free
  · left; rw [delta_addVertex hg, hd]
  · rw [vertices_addVertex hg]; simp [hq]

theorem delta_addLeaf {g : Automaton A} (hg : AWF g) (q : Nat) (a : A) (q' : Nat) (a' : A) :
    (addLeaf g q a).delta q' a' = if q = q' ∧ a = a' then some g.lastVertexId else g.delta q' a' := by
  unfold addLeaf; rw [delta_setDelta, delta_addVertex hg]

theorem deltaWord_addLeaf {g : Automaton A} (h : TrieInv g) {q : Nat} {a : A} {u : List A}
    (hu : g.deltaWord (some 0) u = some q) (hd : g.delta q a = none) (x : List A) :
    (addLeaf g q a).deltaWord (some 0) x =
      if x = u ++ [a] then some g.lastVertexId else g.deltaWord (some 0) x := by
  have hr : ∀ b, g.delta g.lastVertexId b = none := fun b => delta_not_mem b (fresh h.wf)
  have hqr : q ≠ g.lastVertexId := by
    have := h.mem_vertices.1 (h.reached hu); omega
  induction x using List.reverseRecOn with
  | nil => simp
  | append_singleton y b ih =>
    rw [deltaWord_snoc, deltaWord_snoc, ih]
    by_cases hy : y = u ++ [a]
    · subst hy
      rw [if_pos rfl, if_neg (by intro h; have := congrArg List.length h; simp at this)]
      rw [deltaWord_snoc, hu]
      simp [deltaO, hd, delta_addLeaf h.wf, hqr, hr]
    · rw [if_neg hy]
      cases hp : g.deltaWord (some 0) y with
      | none =>
        rw [if_neg]
        · rfl
        · intro he
          obtain ⟨rfl, _⟩ := List.append_inj' he rfl
          rw [hu] at hp; cases hp
      | some p =>
        simp only [deltaO, Option.bind_some, delta_addLeaf h.wf]
        by_cases hqp : q = p ∧ a = b
        · obtain ⟨rfl, rfl⟩ := hqp
          rw [h.inj _ _ _ hp hu]
          simp
        · rw [if_neg hqp, if_neg]
          intro he
          obtain ⟨rfl, h2⟩ := List.append_inj' he rfl
          rw [hu] at hp; cases hp
          simp at h2
          exact hqp ⟨rfl, h2.symm⟩

theorem mem_edges_addLeaf {g : Automaton A} (hg : AWF g) {q : Nat} {a : A} (hq : q ∈ g.vertices)
    (hd : g.delta q a = none) (e : EdgeDesc A) :
    e ∈ (addLeaf g q a).edges ↔ e = ⟨q, g.lastVertexId, a⟩ ∨ e ∈ g.edges := by
  have hq' : q ∈ g.addVertex.2.vertices := by rw [vertices_addVertex hg]; simp [hq]
  rw [mem_edges (g := addLeaf g q a) (AWF_setDelta (AWF_addVertex hg) _ _ hq'), mem_edges hg]
  obtain ⟨q', r', a'⟩ := e
  show (addLeaf g q a).delta q' a' = some r' ↔ _
  rw [delta_addLeaf hg]
  simp only [EdgeDesc.mk.injEq]
  by_cases h : q = q' ∧ a = a'
  · obtain ⟨rfl, rfl⟩ := h
    simp [hd, eq_comm]
  · rw [if_neg h]
    constructor
    · exact Or.inr
    · rintro (⟨rfl, _, rfl⟩ | h')
      · exact absurd ⟨rfl, rfl⟩ h
      · exact h'

theorem TrieInv.addLeaf {g : Automaton A} (h : TrieInv g) {q : Nat} {a : A}
    (hq : q ∈ g.vertices) (hd : g.delta q a = none) : TrieInv (addLeaf g q a) := by
  obtain ⟨u, hu⟩ := h.surj q hq
  have hq' : q ∈ g.addVertex.2.vertices := by rw [vertices_addVertex h.wf]; simp [hq]
  have hv : (PyBGL.addLeaf g q a).vertices = g.vertices ++ [g.lastVertexId] := by
    unfold PyBGL.addLeaf; rw [vertices_setDelta _ _ hq', vertices_addVertex h.wf]
  have hwf : AWF (PyBGL.addLeaf g q a) := AWF_setDelta (AWF_addVertex h.wf) _ _ hq'
  have hW := deltaWord_addLeaf h hu hd
  have hl : (PyBGL.addLeaf g q a).lastVertexId = g.lastVertexId + 1 := rfl
  have hf := fresh h.wf
  refine ⟨hwf, h.init, ?_, ?_, ?_, ?_, ?_, ?_, ?_⟩
  · rw [hv, hl, h.verts, List.range_succ]
  · rw [hl]; omega
  · intro q' a' r hr
    rw [delta_addLeaf h.wf] at hr
    rw [hv]
    split at hr
    · cases hr; simp
    · simp [h.closed _ _ _ hr]
  · intro p hp
    rw [hv, List.mem_append, List.mem_singleton] at hp
    rcases hp with hp | rfl
    · obtain ⟨v, hv'⟩ := h.surj p hp
      refine ⟨v, ?_⟩
      rw [hW, if_neg]
      · exact hv'
      · rintro rfl
        rw [deltaWord_snoc, hu] at hv'
        simp [deltaO, hd] at hv'
    · exact ⟨u ++ [a], by rw [hW]; simp⟩
  · intro v w p h1 h2
    rw [hW] at h1 h2
    split at h1 <;> split at h2
    · rename_i e1 e2; rw [e1, e2]
    · cases h1; exact absurd (h.reached h2) hf
    · cases h2; exact absurd (h.reached h1) hf
    · exact h.inj _ _ _ h1 h2
  · intro p hp
    have : g.isFinal p = true := hp
    rw [hv]; simp [h.fin p this]
  · have hlen : (PyBGL.addLeaf g q a).edges.length = ((⟨q, g.lastVertexId, a⟩ : EdgeDesc A) :: g.edges).length := by
      apply List.Perm.length_eq
      rw [List.perm_ext_iff_of_nodup (nodup_edges hwf)]
      · intro e; rw [mem_edges_addLeaf h.wf hq hd, List.mem_cons]
      · rw [List.nodup_cons]
        refine ⟨?_, nodup_edges h.wf⟩
        rw [mem_edges h.wf]; simp [hd]
    rw [hlen, hv, List.length_append, List.length_cons, h.count]; rfl

/-- States and final flags. -/
theorem TrieInv.setFinal {g : Automaton A} (h : TrieInv g) {q : Nat} (hq : q ∈ g.vertices) :
    TrieInv (g.setFinal q) := by
  have hW : ∀ x, (g.setFinal q).deltaWord (some 0) x = g.deltaWord (some 0) x := by
    intro x
    induction x using List.reverseRecOn with
    | nil => simp
    | append_singleton y b ih => rw [deltaWord_snoc, deltaWord_snoc, ih]; rfl
  refine ⟨⟨h.wf.1, h.wf.2, h.wf.3⟩, h.init, h.verts, h.pos, h.closed, ?_, ?_, ?_, h.count⟩
  · intro p hp; obtain ⟨u, hu⟩ := h.surj p hp; exact ⟨u, by rw [hW]; exact hu⟩
  · intro u v p h1 h2; rw [hW] at h1 h2; exact h.inj _ _ _ h1 h2
  · intro p hp
    simp only [Automaton.setFinal, isFinal, Dict.getD_set] at hp
    split at hp
    · rename_i e; subst e; exact hq
    · exact h.fin p hp

theorem isFinal_setFinal (g : Automaton A) (q p : Nat) :
    (g.setFinal q).isFinal p = if q = p then true else g.isFinal p := by
  simp only [Automaton.setFinal, isFinal, Dict.getD_set]

theorem deltaWord_setFinal (g : Automaton A) (q : Nat) (s : Option Nat) (x : List A) :
    (g.setFinal q).deltaWord s x = g.deltaWord s x := by
  induction x using List.reverseRecOn with
  | nil => simp
  | append_singleton y b ih => rw [deltaWord_snoc, deltaWord_snoc, ih]; rfl

/-- What extending a trie below a state achieves: the words of the new states are the prefixes of `w`. -/
structure Extends (g g' : Automaton A) (w : List A) (q' : Nat) : Prop where
  inv : TrieInv g'
  goal : g'.deltaWord (some 0) w = some q'
  mono : ∀ x s, g.deltaWord (some 0) x = some s → g'.deltaWord (some 0) x = some s
  dom : ∀ x s, g'.deltaWord (some 0) x = some s → (g.deltaWord (some 0) x = some s ∨ x <+: w)
  final : g'.final = g.final
  le : g.lastVertexId ≤ g'.lastVertexId

theorem Extends.refl {g : Automaton A} (h : TrieInv g) {w : List A} {q : Nat}
    (hw : g.deltaWord (some 0) w = some q) : Extends g g w q :=
  ⟨h, hw, fun _ _ h => h, fun _ _ h => .inl h, rfl, Nat.le_refl _⟩

theorem Extends.addLeaf {g : Automaton A} (h : TrieInv g) {q : Nat} {a : A} {u : List A}
    (hu : g.deltaWord (some 0) u = some q) (hd : g.delta q a = none) :
    Extends g (addLeaf g q a) (u ++ [a]) g.lastVertexId := by
  have hW := deltaWord_addLeaf h hu hd
  refine ⟨h.addLeaf (h.reached hu) hd, by rw [hW]; simp, ?_, ?_, rfl, Nat.le_succ _⟩
  · intro x s hx
    rw [hW, if_neg]
    · exact hx
    · rintro rfl; rw [deltaWord_snoc, hu] at hx; simp [deltaO, hd] at hx
  · intro x s hx
    rw [hW] at hx
    split at hx
    · rename_i e; right; rw [e]; exact List.prefix_refl _
    · exact .inl hx

theorem Extends.trans {g g1 g2 : Automaton A} {u w : List A} {q r : Nat} (h1 : Extends g g1 u q)
    (h2 : Extends g1 g2 w r) (huw : u <+: w) : Extends g g2 w r := by
  refine ⟨h2.inv, h2.goal, fun x s h => h2.mono _ _ (h1.mono _ _ h), ?_, h2.final.trans h1.final,
    Nat.le_trans h1.le h2.le⟩
  intro x s h
  rcases h2.dom _ _ h with h | h
  · rcases h1.dom _ _ h with h | h
    · exact .inl h
    · exact .inr (h.trans huw)
  · exact .inr h

/-- The prefixes of `w` label states of `g'`. -/
theorem Extends.prefixes {g g' : Automaton A} {w : List A} {q : Nat} (h : Extends g g' w q) {x : List A}
    (hx : x <+: w) : ∃ s, g'.deltaWord (some 0) x = some s := by
  obtain ⟨y, rfl⟩ := hx
  have := h.goal
  rw [deltaWord_append] at this
  cases hd : g'.deltaWord (some 0) x with
  | none => rw [hd] at this; simp at this
  | some s => exact ⟨s, rfl⟩

/-- Final states of `g'` are those of `g`: acceptance is unchanged. -/
theorem Extends.accepts {g g' : Automaton A} {w : List A} {q : Nat} (hg : TrieInv g)
    (h : Extends g g' w q) (x : List A) : g'.accepts x = g.accepts x := by
  rw [Bool.eq_iff_iff, h.inv.accepts_iff, hg.accepts_iff]
  have hf : ∀ s, g'.isFinal s = g.isFinal s := fun s => by unfold isFinal; rw [h.final]
  constructor
  · rintro ⟨s, h1, h2⟩
    rw [hf] at h2
    obtain ⟨v, hv⟩ := hg.surj s (hg.fin s h2)
    have := h.inv.inj _ _ _ h1 (h.mono _ _ hv)
    subst this
    exact ⟨s, hv, h2⟩
  · rintro ⟨s, h1, h2⟩
    exact ⟨s, h.mono _ _ h1, by rw [hf]; exact h2⟩

theorem insertChain_spec {g : Automaton A} (h : TrieInv g) {q : Nat} {u : List A}
    (hu : g.deltaWord (some 0) u = some q) (w : List A)
    (hd : ∀ a, w.head? = some a → g.delta q a = none) :
    ∃ q' g', insertChain g (some q) w = .ok (some q', g') ∧ Extends g g' (u ++ w) q' := by
  induction w generalizing g q u with
  | nil => exact ⟨q, g, rfl, by rw [List.append_nil]; exact .refl h hu⟩
  | cons a w ih =>
    have hda := hd a rfl
    have hE := Extends.addLeaf h hu hda
    have hnone : ∀ b, (addLeaf g q a).delta g.lastVertexId b = none := by
      intro b
      have hqr : q ≠ g.lastVertexId := by have := h.mem_vertices.1 (h.reached hu); omega
      rw [delta_addLeaf h.wf, if_neg (fun h => hqr h.1), delta_not_mem b (fresh h.wf)]
    obtain ⟨q', g', h1, h2⟩ := ih hE.inv hE.goal (fun b _ => hnone b)
    refine ⟨q', g', ?_, ?_⟩
    · have := addLeaf_eq h.wf (h.reached hu) hda
      show (do
        let (_, _, g) ← g.addVertex.2.addEdge q g.lastVertexId a
        insertChain g (some _) w) = _
      rw [this]; exact h1
    · rw [List.append_assoc] at h2
      exact hE.trans h2 ⟨w, by simp⟩

theorem deltaBestEffortFrom_spec (g : Automaton A) (w : List A) (q i : Nat) :
    ∃ r k, deltaBestEffortFrom g (some q) i w = (some r, i + k) ∧ k ≤ w.length ∧
      g.deltaWord (some q) (w.take k) = some r ∧ ∀ a, (w.drop k).head? = some a → g.delta r a = none := by
  induction w generalizing q i with
  | nil => exact ⟨q, 0, rfl, by simp, by simp, by simp⟩
  | cons a w ih =>
    cases hd : g.delta q a with
    | none =>
      refine ⟨q, 0, ?_, by simp, by simp, ?_⟩
      · simp [deltaBestEffortFrom, deltaO, hd]
      · intro b hb; simp at hb; subst hb; exact hd
    | some r =>
      obtain ⟨s, k, h1, h2, h3, h4⟩ := ih r (i + 1)
      refine ⟨s, k + 1, ?_, by simp; omega, ?_, ?_⟩
      · simp only [deltaBestEffortFrom, deltaO, Option.bind_some, hd]
        rw [h1]; simp; omega
      · rw [List.take_succ_cons, deltaWord_cons]; simp only [deltaO, Option.bind_some, hd]; exact h3
      · simpa using h4

theorem insert_spec {g : Automaton A} (h : TrieInv g) (w : List A) :
    ∃ g' q g'', Extends g g' w q ∧ g'' = g'.setFinal q ∧ Trie.insert g w = .ok g'' := by
  obtain ⟨r, k, h1, h2, h3, h4⟩ := deltaBestEffortFrom_spec g w 0 0
  obtain ⟨q, g', h5, h6⟩ := insertChain_spec h h3 (w.drop k) h4
  rw [List.take_append_drop] at h6
  refine ⟨g', q, _, h6, rfl, ?_⟩
  unfold Trie.insert insertString deltaBestEffort initial
  rw [h.init, h1]
  simp only [Nat.zero_add, h5, bind, Except.bind]

theorem insert_inv {g g' : Automaton A} (h : TrieInv g) {w : List A} (hg : Trie.insert g w = .ok g') :
    TrieInv g' := by
  obtain ⟨g1, q, g2, h1, h2, h3⟩ := insert_spec h w
  rw [hg] at h3; cases h3; subst h2
  exact h1.inv.setFinal (h1.inv.reached h1.goal)

theorem insert_accepts {g g' : Automaton A} (h : TrieInv g) {w : List A} (hg : Trie.insert g w = .ok g')
    (x : List A) : g'.accepts x = true ↔ g.accepts x = true ∨ x = w := by
  have hinv := insert_inv h hg
  obtain ⟨g1, q, g2, h1, h2, h3⟩ := insert_spec h w
  rw [hg] at h3; cases h3; subst h2
  rw [hinv.accepts_iff, ← h1.accepts h, h1.inv.accepts_iff]
  simp only [deltaWord_setFinal, isFinal_setFinal]
  constructor
  · rintro ⟨s, hs, hf⟩
    split at hf
    · rename_i e; subst e; exact .inr (h1.inv.inj _ _ _ hs h1.goal)
    · exact .inl ⟨s, hs, hf⟩
  · rintro (⟨s, hs, hf⟩ | rfl)
    · exact ⟨s, hs, by split <;> simp [hf]⟩
    · exact ⟨q, h1.goal, by simp⟩

theorem insert_domain {g g' : Automaton A} (h : TrieInv g) {w : List A} (hg : Trie.insert g w = .ok g')
    (x : List A) : (∃ s, g'.deltaWord (some 0) x = some s) ↔ (∃ s, g.deltaWord (some 0) x = some s) ∨ x <+: w := by
  obtain ⟨g1, q, g2, h1, h2, h3⟩ := insert_spec h w
  rw [hg] at h3; cases h3; subst h2
  simp only [deltaWord_setFinal]
  constructor
  · rintro ⟨s, hs⟩
    rcases h1.dom _ _ hs with h | h
    · exact .inl ⟨s, h⟩
    · exact .inr h
  · rintro (⟨s, hs⟩ | hx)
    · exact ⟨s, h1.mono _ _ hs⟩
    · exact h1.prefixes hx

/-- Inserting a word that is already accepted leaves states and transitions unchanged. -/
theorem insert_known {g : Automaton A} (h : TrieInv g) {w : List A} {q : Nat}
    (hw : g.deltaWord (some 0) w = some q) : Trie.insert g w = .ok (g.setFinal q) := by
  have key : ∀ (w : List A) (p i : Nat), g.deltaWord (some p) w = some q →
      deltaBestEffortFrom g (some p) i w = (some q, i + w.length) := by
    intro w
    induction w with
    | nil => intro p i h; simp at h; subst h; rfl
    | cons a w ih =>
      intro p i h
      rw [deltaWord_cons] at h
      simp only [deltaO, Option.bind_some] at h
      cases hd : g.delta p a with
      | none => rw [hd] at h; simp at h
      | some r =>
        rw [hd] at h
        simp only [deltaBestEffortFrom, deltaO, Option.bind_some, hd]
        rw [ih r (i + 1) h]; simp; omega
  unfold Trie.insert insertString deltaBestEffort initial
  rw [h.init, key w 0 0 hw]
  simp [insertChain, bind, Except.bind]

/-! ## Suffix tries -/

theorem insertFactor_spec {g : Automaton A} (h : TrieInv g) {q : Nat} {u : List A}
    (hu : g.deltaWord (some 0) u = some q) (w : List A) :
    ∃ g' q', SuffixTrie.insertFactor g (some q) w = .ok g' ∧ Extends g g' (u ++ w) q' := by
  induction w generalizing g q u with
  | nil => exact ⟨g, q, rfl, by rw [List.append_nil]; exact .refl h hu⟩
  | cons a w ih =>
    cases hd : g.delta q a with
    | some r =>
      have hr : g.deltaWord (some 0) (u ++ [a]) = some r := by
        rw [deltaWord_snoc, hu]; exact hd
      obtain ⟨g', q', h1, h2⟩ := ih h hr
      refine ⟨g', q', ?_, by simpa using h2⟩
      simp only [SuffixTrie.insertFactor, deltaO, Option.bind_some, hd]
      exact h1
    | none =>
      have hE := Extends.addLeaf h hu hd
      obtain ⟨g', q', h1, h2⟩ := ih hE.inv hE.goal
      refine ⟨g', q', ?_, ?_⟩
      · simp only [SuffixTrie.insertFactor, deltaO, Option.bind_some, hd]
        have := addLeaf_eq h.wf (h.reached hu) hd
        show (do
          let (_, _, g) ← g.addVertex.2.addEdge q g.lastVertexId a
          SuffixTrie.insertFactor g (some _) w) = _
        rw [this]; exact h1
      · rw [List.append_assoc] at h2
        exact hE.trans h2 ⟨w, by simp⟩

theorem make_spec (w : List A) (maxLen : Option Nat) (is : List Nat) {g : Automaton A} (h : TrieInv g) :
    ∃ g', is.foldlM (fun g i => SuffixTrie.insertFactor g g.initial (SuffixTrie.window w maxLen i)) g = .ok g' ∧
      TrieInv g' ∧ ∀ x, (∃ s, g'.deltaWord (some 0) x = some s) ↔
        (∃ s, g.deltaWord (some 0) x = some s) ∨ ∃ i ∈ is, x <+: SuffixTrie.window w maxLen i := by
  induction is generalizing g with
  | nil => exact ⟨g, rfl, h, by simp⟩
  | cons i is ih =>
    obtain ⟨g1, q1, h1, h2⟩ := insertFactor_spec h (q := 0) (u := []) (by simp) (SuffixTrie.window w maxLen i)
    rw [List.nil_append] at h2
    obtain ⟨g', i1, i2, i3⟩ := ih h2.inv
    refine ⟨g', ?_, i2, ?_⟩
    · rw [List.foldlM_cons]
      unfold initial
      rw [h.init, h1]; exact i1
    · intro x
      rw [i3]
      constructor
      · rintro (⟨s, hs⟩ | ⟨j, hj, hx⟩)
        · rcases h2.dom _ _ hs with h | h
          · exact .inl ⟨s, h⟩
          · exact .inr ⟨i, by simp, h⟩
        · exact .inr ⟨j, by simp [hj], hx⟩
      · rintro (⟨s, hs⟩ | ⟨j, hj, hx⟩)
        · exact .inl ⟨s, h2.mono _ _ hs⟩
        · rcases List.mem_cons.1 hj with rfl | hj
          · exact .inl (h2.prefixes hx)
          · exact .inr ⟨j, hj, hx⟩

end PyBGL
