import Verif.Proofs.PbfsWords
import Verif.Proofs.TrieLemmas

/-!
# Fusion of tries
-/

namespace PyBGL
open Automaton
variable {A : Type} [DecidableEq A]

namespace Fuse
variable {g1 g2 : Automaton A}

/-- The pair reached by a word from the roots. -/
def pr (g1 g2 : Automaton A) (w : List A) : StatePair := (g1.deltaWord (some 0) w, g2.deltaWord (some 0) w)

theorem pr_snoc (w : List A) (a : A) : pr g1 g2 (w ++ [a]) = (g1.deltaO (pr g1 g2 w).1 a, g2.deltaO (pr g1 g2 w).2 a) := by
  simp [pr, deltaWord_snoc]

theorem pr_inj (h1 : TrieInv g1) (h2 : TrieInv g2) {x y : List A} (h : pr g1 g2 x = pr g1 g2 y) (hx : pr g1 g2 x ≠ (none, none)) : x = y := by
  cases e1 : g1.deltaWord (some 0) x with
  | some q =>
    refine h1.inj x y q e1 ?_
    have := congrArg Prod.fst h
    simp only [pr] at this
    rw [← this, e1]
  | none =>
    cases e2 : g2.deltaWord (some 0) x with
    | some q =>
      refine h2.inj x y q e2 ?_
      have := congrArg Prod.snd h
      simp only [pr] at this
      rw [← this, e2]
    | none => exact absurd (by rw [pr, e1, e2]) hx

/-- The word `x` is accepted, read from the root. -/
def Acc (g : Automaton A) (x : List A) : Prop := ∃ q, g.deltaWord (some 0) x = some q ∧ g.isFinal q = true

/-- Invariant of the fusion: `D` is the list of the words whose last transition has been examined. -/
structure Inv (g1 g2 : Automaton A) (D : List (List A)) (c : Dict StatePair Color) (s : Fusion A) : Prop where
  trie : TrieInv s.g1
  old : ∀ x q, g1.deltaWord (some 0) x = some q → s.g1.deltaWord (some 0) x = some q
  dom : ∀ x, s.g1.deltaWord (some 0) x ≠ none ↔ g1.deltaWord (some 0) x ≠ none ∨ (x ∈ D ∧ g2.deltaWord (some 0) x ≠ none)
  fin : ∀ x, Acc s.g1 x ↔ Acc g1 x ∨ (x ∈ D ∧ Acc g2 x)
  map : ∀ x ∈ D, g1.deltaWord (some 0) x = none → ∀ r2, g2.deltaWord (some 0) x = some r2 →
    ∃ r, s.map.get? (some r2) = some (some r) ∧ s.g1.deltaWord (some 0) x = some r
  col : ∀ p, colorOf c p ≠ .white → ∃ x ∈ D, p = pr g1 g2 x
  sub : ∀ x ∈ D, pr g1 g2 x ≠ (none, none)
  nodup : D.Nodup

theorem acc_setFinal {g : Automaton A} (h : TrieInv g) {x : List A} {r : Nat} (hr : g.deltaWord (some 0) x = some r) (y : List A) :
    Acc (g.setFinal r) y ↔ Acc g y ∨ y = x := by
  unfold Acc
  simp only [deltaWord_setFinal, PyBGL.isFinal_setFinal]
  constructor
  · rintro ⟨q, hq, hf⟩
    by_cases e : r = q
    · subst e; exact .inr (h.inj _ _ _ hq hr)
    · simp [e] at hf; exact .inl ⟨q, hq, hf⟩
  · rintro (⟨q, hq, hf⟩ | rfl)
    · exact ⟨q, hq, by simp [hf]⟩
    · exact ⟨r, hr, by simp⟩

/-- One symbol. -/
theorem examine (h1 : TrieInv g1) (h2 : TrieInv g2) {D : List (List A)} {c : Dict StatePair Color} {s : Fusion A} (h : Inv g1 g2 D c s)
    {w : List A} {a : A} (hw : w ∈ D) (hD : w ++ [a] ∉ D) (hne : pr g1 g2 (w ++ [a]) ≠ (none, none)) (q : List StatePair) :
    ∃ s', pbfsSymbol Fusion.g1 g2 fusionPush (fusionVisitor g2) (pr g1 g2 w).1 (pr g1 g2 w).2 a ⟨c, s, q⟩ =
      .ok ⟨c.set (pr g1 g2 (w ++ [a])) .gray, s', if (pr g1 g2 w).2.isSome then q ++ [pr g1 g2 (w ++ [a])] else q⟩ ∧
      Inv g1 g2 (D ++ [w ++ [a]]) (c.set (pr g1 g2 (w ++ [a])) .gray) s' := by
  -- the pair reached
  have hr1 : s.g1.deltaO (pr g1 g2 w).1 a = (pr g1 g2 (w ++ [a])).1 := by
    cases e : g1.deltaWord (some 0) w with
    | none => simp [pr, e, deltaO, deltaWord_snoc]
    | some q1 =>
      have e' := h.old _ _ e
      have : s.g1.deltaO (pr g1 g2 w).1 a = s.g1.deltaWord (some 0) (w ++ [a]) := by
        rw [deltaWord_snoc, e']; simp [pr, e]
      rw [this]
      cases e2 : g1.deltaWord (some 0) (w ++ [a]) with
      | some r => simp only [pr]; rw [h.old _ _ e2, e2]
      | none =>
        simp only [pr, e2]
        by_contra hc
        rcases (h.dom _).mp hc with h' | h'
        · exact h' e2
        · exact hD h'.1
  have hr2 : g2.deltaO (pr g1 g2 w).2 a = (pr g1 g2 (w ++ [a])).2 := by rw [pr_snoc]
  have hwhite : colorOf c (pr g1 g2 (w ++ [a])) = .white := by
    by_contra hc
    obtain ⟨x, hx, e⟩ := h.col _ hc
    exact hD (by rw [pr_inj h1 h2 e hne]; exact hx)
  have hcol : ∀ p, colorOf (c.set (pr g1 g2 (w ++ [a])) .gray) p ≠ .white → ∃ x ∈ D ++ [w ++ [a]], p = pr g1 g2 x := by
    intro p hp
    rw [colorOf_set] at hp
    split at hp
    · rename_i e; exact ⟨w ++ [a], by simp, e.symm⟩
    · obtain ⟨x, hx, e⟩ := h.col p hp
      exact ⟨x, by simp [hx], e⟩
  have hsub : ∀ x ∈ D ++ [w ++ [a]], pr g1 g2 x ≠ (none, none) := by
    intro x hx
    rcases List.mem_append.mp hx with hx | hx
    · exact h.sub x hx
    · simp at hx; subst hx; exact hne
  have hnd : (D ++ [w ++ [a]]).Nodup := by
    rw [List.nodup_append]
    exact ⟨h.nodup, by simp, by rintro x hx y hy rfl; simp at hy; subst hy; exact hD hx⟩
  -- the visitor
  have hvis : ∃ s', fusionVisitor g2 (.examineEdge (getEdge s.g1 (pr g1 g2 w).1 (pr g1 g2 (w ++ [a])).1 a)
      (getEdge g2 (pr g1 g2 w).2 (pr g1 g2 (w ++ [a])).2 a) a) s = .ok s' ∧
      Inv g1 g2 (D ++ [w ++ [a]]) (c.set (pr g1 g2 (w ++ [a])) .gray) s' := by
    have t1 : (getEdge s.g1 (pr g1 g2 w).1 (pr g1 g2 (w ++ [a])).1 a).bind AEdge.target = (pr g1 g2 (w ++ [a])).1 := by
      rw [← hr1, Pbfs.getEdge_eq]
      cases (pr g1 g2 w).1 <;> rfl
    have t2 : (getEdge g2 (pr g1 g2 w).2 (pr g1 g2 (w ++ [a])).2 a).bind AEdge.target = (pr g1 g2 (w ++ [a])).2 := by
      rw [← hr2, Pbfs.getEdge_eq]
      cases (pr g1 g2 w).2 <;> rfl
    -- the middle state, before `set_final`
    have hmid : ∃ r1 s1, fusionTarget (getEdge s.g1 (pr g1 g2 w).1 (pr g1 g2 (w ++ [a])).1 a)
        (getEdge g2 (pr g1 g2 w).2 (pr g1 g2 (w ++ [a])).2 a) a s = .ok (r1, s1) ∧ TrieInv s1.g1 ∧
        s1.g1.deltaWord (some 0) (w ++ [a]) = some r1 ∧
        (∀ x, x ≠ w ++ [a] → s1.g1.deltaWord (some 0) x = s.g1.deltaWord (some 0) x) ∧
        (g1.deltaWord (some 0) (w ++ [a]) ≠ none → s1.g1.deltaWord (some 0) (w ++ [a]) = s.g1.deltaWord (some 0) (w ++ [a])) ∧
        (∀ x, Acc s1.g1 x ↔ Acc s.g1 x) ∧
        (∀ x ∈ D, g1.deltaWord (some 0) x = none → ∀ r2, g2.deltaWord (some 0) x = some r2 → s1.map.get? (some r2) = s.map.get? (some r2)) ∧
        (g1.deltaWord (some 0) (w ++ [a]) = none → ∀ r2, g2.deltaWord (some 0) (w ++ [a]) = some r2 → s1.map.get? (some r2) = some (some r1)) := by
      unfold fusionTarget
      rw [t1]
      cases e : g1.deltaWord (some 0) (w ++ [a]) with
      | some r1 =>
        simp only [pr, e]
        exact ⟨r1, s, rfl, h.trie, h.old _ _ e, fun _ _ => rfl, fun _ => rfl, fun _ => Iff.rfl, fun _ _ _ _ _ => rfl, fun h => by cases h⟩
      | none =>
        -- the parent state in the current trie
        have hsrc : ∃ q1, fusionSource (getEdge s.g1 (pr g1 g2 w).1 (pr g1 g2 (w ++ [a])).1 a)
            (getEdge g2 (pr g1 g2 w).2 (pr g1 g2 (w ++ [a])).2 a) s = .ok q1 ∧ s.g1.deltaWord (some 0) w = some q1 := by
          rw [← hr1, ← hr2, Pbfs.getEdge_eq, Pbfs.getEdge_eq]
          cases e1 : g1.deltaWord (some 0) w with
          | some q1 =>
            refine ⟨q1, ?_, h.old _ _ e1⟩
            simp [fusionSource, pr, e1, jointEdge]
          | none =>
            cases e2 : g2.deltaWord (some 0) w with
            | none => exact absurd (by rw [pr_snoc]; simp [pr, e1, e2, deltaO]) hne
            | some q2 =>
              obtain ⟨r, hr, hr'⟩ := h.map w hw e1 q2 e2
              refine ⟨r, ?_, hr'⟩
              simp [fusionSource, pr, e1, e2, jointEdge, Dict.getE_of_get? hr]
        obtain ⟨q1, hq1, hq1'⟩ := hsrc
        simp only [pr, e]
        simp only [pr, e] at hq1
        rw [hq1]
        simp only
        have hmemq : q1 ∈ s.g1.vertices := h.trie.reached hq1'
        have hfree : s.g1.delta q1 a = none := by
          have : s.g1.delta q1 a = s.g1.deltaWord (some 0) (w ++ [a]) := by
            rw [deltaWord_snoc, hq1']; rfl
          rw [this]
          by_contra hc
          rcases (h.dom _).mp hc with h' | h'
          · exact h' e
          · exact hD h'.1
        have hadd := addLeaf_eq h.trie.wf hmemq hfree
        have hfst : s.g1.addVertex.1 = s.g1.lastVertexId := rfl
        rw [hfst, hadd]
        simp only
        have hW := deltaWord_addLeaf h.trie hq1' hfree
        have hlast : s.g1.isFinal s.g1.lastVertexId = false := by
          by_contra hc
          exact fresh h.trie.wf (h.trie.fin _ (by simpa using hc))
        refine ⟨_, _, rfl, h.trie.addLeaf hmemq hfree, by simp [hW], fun x hx => by simp [hW, hx], fun h => absurd rfl h, ?_, ?_, ?_⟩
        · intro x
          unfold Acc
          simp only [hW]
          have hF : ∀ q, (addLeaf s.g1 q1 a).isFinal q = s.g1.isFinal q := fun q => rfl
          simp only [hF]
          by_cases hx : x = w ++ [a]
          · subst hx
            simp only [if_true, Option.some.injEq, exists_eq_left', hlast, Bool.false_eq_true, false_iff]
            rintro ⟨q, hq, _⟩
            have : s.g1.deltaWord (some 0) (w ++ [a]) ≠ none := by rw [hq]; simp
            rcases (h.dom _).mp this with h' | h'
            · exact h' e
            · exact hD h'.1
          · simp only [hx, if_false]
        · intro x hx e1 r2 e2
          rw [Dict.get?_set, if_neg]
          intro he
          simp only [pr] at t2
          have : g2.deltaWord (some 0) (w ++ [a]) = some r2 := t2.symm.trans he
          exact hD (by rw [h2.inj _ _ _ this e2]; exact hx)
        · intro _ r2 e2
          have : (getEdge g2 (pr g1 g2 w).2 (pr g1 g2 (w ++ [a])).2 a).bind AEdge.target = some r2 := by rw [t2]; exact e2
          simp only [pr] at this
          rw [Dict.get?_set, if_pos this]
    obtain ⟨r1, s1, hk0, hk1, hk2, hk3, hk4, hk5, hk6, hk7⟩ := hmid
    simp only [fusionVisitor]
    rw [hk0]
    simp only [t2]
    refine ⟨_, rfl, ?_⟩
    have hmem : r1 ∈ s1.g1.vertices := hk1.reached hk2
    -- with `set_final` or without
    have hold : ∀ x q, g1.deltaWord (some 0) x = some q → s1.g1.deltaWord (some 0) x = some q := by
      intro x q hx
      by_cases e : x = w ++ [a]
      · subst e; rw [hk4 (by rw [hx]; simp)]; exact h.old _ _ hx
      · rw [hk3 x e]; exact h.old _ _ hx
    have hdom : ∀ x, s1.g1.deltaWord (some 0) x ≠ none ↔
        g1.deltaWord (some 0) x ≠ none ∨ (x ∈ D ++ [w ++ [a]] ∧ g2.deltaWord (some 0) x ≠ none) := by
      intro x
      by_cases e : x = w ++ [a]
      · subst e
        rw [hk2]
        simp only [ne_eq, reduceCtorEq, not_false_eq_true, List.mem_append, List.mem_singleton, or_true, true_and, true_iff]
        by_contra hc
        rw [not_or, not_not, not_not] at hc
        exact hne (by rw [pr, hc.1, hc.2])
      · rw [hk3 x e, h.dom]
        simp [e]
    have hmap : ∀ x ∈ D ++ [w ++ [a]], g1.deltaWord (some 0) x = none → ∀ r2, g2.deltaWord (some 0) x = some r2 →
        ∃ r, s1.map.get? (some r2) = some (some r) ∧ s1.g1.deltaWord (some 0) x = some r := by
      intro x hx e1 r2 e2
      rcases List.mem_append.mp hx with hx | hx
      · obtain ⟨r, hr, hr'⟩ := h.map x hx e1 r2 e2
        refine ⟨r, by rw [hk6 x hx e1 r2 e2]; exact hr, ?_⟩
        rw [hk3 x (by rintro rfl; exact hD hx)]
        exact hr'
      · simp at hx; subst hx
        exact ⟨r1, hk7 e1 r2 e2, hk2⟩
    have hacc2 : g2.isFinalO (pr g1 g2 (w ++ [a])).2 = true ↔ Acc g2 (w ++ [a]) := by
      unfold Acc
      simp only [pr]
      cases g2.deltaWord (some 0) (w ++ [a]) <;> simp [isFinalO]
    by_cases hf : g2.isFinalO (pr g1 g2 (w ++ [a])).2 = true
    · rw [if_pos hf]
      refine ⟨hk1.setFinal hmem, ?_, ?_, ?_, ?_, hcol, hsub, hnd⟩
      · intro x q hx; simp only [deltaWord_setFinal]; exact hold x q hx
      · intro x; simp only [deltaWord_setFinal]; exact hdom x
      · intro x
        rw [acc_setFinal hk1 hk2, hk5, h.fin]
        simp only [List.mem_append, List.mem_singleton]
        constructor
        · rintro ((h' | h') | rfl)
          · exact .inl h'
          · exact .inr ⟨.inl h'.1, h'.2⟩
          · exact .inr ⟨.inr rfl, hacc2.mp hf⟩
        · rintro (h' | ⟨h' | h', h''⟩)
          · exact .inl (.inl h')
          · exact .inl (.inr ⟨h', h''⟩)
          · exact .inr h'
      · simp only [deltaWord_setFinal]; exact hmap
    · rw [if_neg hf]
      refine ⟨hk1, hold, hdom, ?_, hmap, hcol, hsub, hnd⟩
      intro x
      rw [hk5, h.fin]
      simp only [List.mem_append, List.mem_singleton]
      constructor
      · rintro (h' | h')
        · exact .inl h'
        · exact .inr ⟨.inl h'.1, h'.2⟩
      · rintro (h' | ⟨h' | h', h''⟩)
        · exact .inl h'
        · exact .inr ⟨h', h''⟩
        · subst h'; exact absurd (hacc2.mpr h'') hf
  obtain ⟨s', hs', hinv⟩ := hvis
  refine ⟨s', ?_, hinv⟩
  unfold pbfsSymbol
  simp only [hr1, hr2]
  have hsym : fusionVisitor g2 (.examineSymbol (pr g1 g2 w).1 (pr g1 g2 w).2 a) s = .ok s := rfl
  rw [hsym]
  simp only
  rw [hs']
  simp only [pbfsClassify]
  have hpair : ((pr g1 g2 (w ++ [a])).1, (pr g1 g2 (w ++ [a])).2) = pr g1 g2 (w ++ [a]) := rfl
  rw [hpair, hwhite]
  simp only
  have hem : emit (fusionVisitor g2) [.treeEdge (getEdge s.g1 (pr g1 g2 w).1 (pr g1 g2 (w ++ [a])).1 a)
      (getEdge g2 (pr g1 g2 w).2 (pr g1 g2 (w ++ [a])).2 a) a, .discover (pr g1 g2 (w ++ [a])).1 (pr g1 g2 (w ++ [a])).2] s' = .ok s' := rfl
  rw [hem]
  simp only
  have hpush : fusionPush (getEdge s.g1 (pr g1 g2 w).1 (pr g1 g2 (w ++ [a])).1 a)
      (getEdge g2 (pr g1 g2 w).2 (pr g1 g2 (w ++ [a])).2 a) = (pr g1 g2 w).2.isSome := by
    unfold fusionPush getEdge
    cases (pr g1 g2 w).2 <;> rfl
  rw [hpush]

/-- The loop over the symbols. -/
theorem symbols (h1 : TrieInv g1) (h2 : TrieInv g2) {w : List A} : ∀ (as : List A) {D : List (List A)} {c : Dict StatePair Color} {s : Fusion A},
    Inv g1 g2 D c s → w ∈ D → as.Nodup → (∀ a ∈ as, w ++ [a] ∉ D ∧ pr g1 g2 (w ++ [a]) ≠ (none, none)) → ∀ q : List StatePair,
    ∃ c' s', pbfsSymbols Fusion.g1 g2 fusionPush (fusionVisitor g2) (pr g1 g2 w).1 (pr g1 g2 w).2 as ⟨c, s, q⟩ =
      .ok ⟨c', s', q ++ (if (pr g1 g2 w).2.isSome then as.map (fun a => w ++ [a]) else []).map (pr g1 g2)⟩ ∧
      Inv g1 g2 (D ++ as.map (fun a => w ++ [a])) c' s' := by
  intro as
  induction as with
  | nil => intro D c s h _ _ _ q; exact ⟨c, s, by cases (pr g1 g2 w).2 <;> simp [pbfsSymbols], by simpa using h⟩
  | cons a as ih =>
    intro D c s h hw hnd has q
    rw [List.nodup_cons] at hnd
    obtain ⟨s1, e1, hs1⟩ := examine h1 h2 h hw (has a (by simp)).1 (has a (by simp)).2 q
    obtain ⟨c', s', e2, hs2⟩ := ih hs1 (by simp [hw]) hnd.2 (by
      intro b hb
      refine ⟨?_, (has b (by simp [hb])).2⟩
      intro hc
      rcases List.mem_append.mp hc with hc | hc
      · exact (has b (by simp [hb])).1 hc
      · have : b = a := by simpa using hc
        subst this; exact hnd.1 hb) (if (pr g1 g2 w).2.isSome then q ++ [pr g1 g2 (w ++ [a])] else q)
    refine ⟨c', s', ?_, by simpa using hs2⟩
    rw [pbfsSymbols, e1]
    simp only
    rw [e2]
    cases (pr g1 g2 w).2 <;> simp

theorem Inv.black {D : List (List A)} {c : Dict StatePair Color} {s : Fusion A} (h : Inv g1 g2 D c s) {w : List A} (hw : w ∈ D) :
    Inv g1 g2 D (c.set (pr g1 g2 w) .black) s := by
  refine ⟨h.trie, h.old, h.dom, h.fin, h.map, ?_, h.sub, h.nodup⟩
  intro p hp
  rw [colorOf_set] at hp
  split at hp
  · rename_i e; exact ⟨w, hw, e.symm⟩
  · exact h.col p hp

/-- Invariant of the main loop: `ws` is the list of the words in the queue. -/
structure Outer (g1 g2 : Automaton A) (D ws : List (List A)) (c : Dict StatePair Color) (s : Fusion A) : Prop extends Inv g1 g2 D c s where
  root : [] ∈ D
  sub_queue : ∀ w ∈ ws, w ∈ D
  nodup_queue : ws.Nodup
  parent : ∀ w a, w ++ [a] ∈ D → w ∈ D ∧ w ∉ ws
  closed : ∀ w ∈ D, w ∉ ws → ∀ a, g2.deltaWord (some 0) w ≠ none → pr g1 g2 (w ++ [a]) ≠ (none, none) → w ++ [a] ∈ D

theorem mem_sigmaO {g : Automaton A} {q : Option Nat} {a : A} : a ∈ g.sigmaO q ↔ g.deltaO q a ≠ none := by
  cases q with
  | none => simp [Automaton.sigmaO, Automaton.deltaO]
  | some q =>
    simp only [Automaton.sigmaO, Automaton.sigma, mem_mkSet, Automaton.deltaO, Option.bind_some, Automaton.delta, ne_eq,
      Dict.get?_eq_none_iff, not_not]

/-- Result of the fusion. -/
theorem main_loop (h1 : TrieInv g1) (h2 : TrieInv g2) {ord : SetOracle A} (ho : ord.Valid) {K : List (List A)}
    (hK : ∀ x, pr g1 g2 x ≠ (none, none) → x ∈ K) : ∀ n t (D ws : List (List A)) (c : Dict StatePair Color) (s : Fusion A),
    Outer g1 g2 D ws c s → 2 * (K.length - D.length) + ws.length ≤ n →
    ∃ c' s' D', loop (pbfsStep ord Fusion.g1 g2 fusionPush (fusionVisitor g2)) (n + 1) t ⟨c, s, ws.map (pr g1 g2)⟩ = some (.ok (c', s')) ∧
      Outer g1 g2 D' [] c' s' := by
  intro n
  induction n with
  | zero =>
    intro t D ws c s h hn
    have : ws = [] := List.length_eq_zero_iff.mp (by omega)
    subst this
    exact ⟨c, s, D, rfl, h⟩
  | succ n ih =>
    intro t D ws c s h hn
    cases ws with
    | nil => exact ⟨c, s, D, rfl, h⟩
    | cons w ws =>
      have hwD := h.sub_queue w (by simp)
      have hnq := List.nodup_cons.mp h.nodup_queue
      -- the symbols
      let as := ord t (setUnion (s.g1.sigmaO (pr g1 g2 w).1) (g2.sigmaO (pr g1 g2 w).2))
      have has : ∀ a, a ∈ as ↔ pr g1 g2 (w ++ [a]) ≠ (none, none) := by
        intro a
        rw [(ho t _).mem_iff, mem_setUnion, mem_sigmaO, mem_sigmaO]
        have hr1 : s.g1.deltaO (pr g1 g2 w).1 a ≠ none ↔ (pr g1 g2 (w ++ [a])).1 ≠ none := by
          cases e : g1.deltaWord (some 0) w with
          | none => simp [pr, e, deltaO, deltaWord_snoc]
          | some q1 =>
            have : s.g1.deltaO (pr g1 g2 w).1 a = s.g1.deltaWord (some 0) (w ++ [a]) := by
              rw [deltaWord_snoc, h.old _ _ e]; simp [pr, e]
            rw [this, h.dom]
            simp only [pr]
            constructor
            · rintro (h' | h')
              · exact h'
              · exact absurd (by simp) (h.parent w a h'.1).2
            · exact .inl
        have hr2 : g2.deltaO (pr g1 g2 w).2 a = (pr g1 g2 (w ++ [a])).2 := by rw [pr_snoc]
        rw [hr1, hr2]
        constructor
        · rintro h' e
          rw [e] at h'
          rcases h' with h' | h' <;> exact h' rfl
        · intro h'
          by_contra hc
          rw [not_or, not_not, not_not] at hc
          exact h' (Prod.ext hc.1 hc.2)
      have hasn : as.Nodup := (ho t _).nodup_iff.mpr (nodup_setUnion (by cases (pr g1 g2 w).1 <;> simp [sigmaO, sigma, nodup_mkSet]) _)
      have hnotD : ∀ a, w ++ [a] ∉ D := fun a hc => (h.parent w a hc).2 (by simp)
      obtain ⟨c', s', e, hinv⟩ := symbols h1 h2 as h.toInv hwD hasn (fun a ha => ⟨hnotD a, (has a).mp ha⟩) (ws.map (pr g1 g2))
      let ps := if (pr g1 g2 w).2.isSome then as.map (fun a => w ++ [a]) else []
      have hps : ∀ x, x ∈ ps ↔ (pr g1 g2 w).2.isSome = true ∧ ∃ a ∈ as, x = w ++ [a] := by
        intro x
        simp only [ps]
        split
        · rename_i hsome; simp [hsome, eq_comm]
        · rename_i hsome; simp [hsome]
      have hstep : pbfsStep ord Fusion.g1 g2 fusionPush (fusionVisitor g2) t ⟨c, s, (w :: ws).map (pr g1 g2)⟩ =
          .next ⟨c'.set (pr g1 g2 w) .black, s', (ws ++ ps).map (pr g1 g2)⟩ := by
        unfold pbfsStep
        simp only [List.map_cons]
        have hv : fusionVisitor g2 (.examineVertex (pr g1 g2 w).1 (pr g1 g2 w).2) s = .ok s := rfl
        rw [hv]
        simp only
        rw [e]
        simp only
        have hv : fusionVisitor g2 (.finish (pr g1 g2 w).1 (pr g1 g2 w).2) s' = .ok s' := rfl
        rw [hv, List.map_append]
      have hout : Outer g1 g2 (D ++ as.map (fun a => w ++ [a])) (ws ++ ps) (c'.set (pr g1 g2 w) .black) s' := by
        refine { toInv := hinv.black (by simp [hwD]), root := by simp [h.root], sub_queue := ?_, nodup_queue := ?_, parent := ?_, closed := ?_ }
        · intro x hx
          rcases List.mem_append.mp hx with hx | hx
          · simp [h.sub_queue x (by simp [hx])]
          · obtain ⟨_, a, ha, rfl⟩ := (hps x).mp hx
            simp [ha]
        · rw [List.nodup_append]
          refine ⟨hnq.2, ?_, ?_⟩
          · simp only [ps]
            split
            · exact hasn.map (fun a b hab => by simpa using hab)
            · simp
          · rintro x hx y hy rfl
            obtain ⟨_, a, _, rfl⟩ := (hps x).mp hy
            exact hnotD a (h.sub_queue _ (by simp [hx]))
        · intro x a hx
          rcases List.mem_append.mp hx with hx | hx
          · obtain ⟨h3, h4⟩ := h.parent x a hx
            refine ⟨by simp [h3], ?_⟩
            intro hc
            rcases List.mem_append.mp hc with hc | hc
            · exact h4 (by simp [hc])
            · obtain ⟨_, b, _, rfl⟩ := (hps x).mp hc
              exact hnotD b h3
          · have hxw : x = w := by
              obtain ⟨b, _, e⟩ := List.mem_map.mp hx
              exact (List.append_inj' e rfl).1.symm
            subst hxw
            refine ⟨by simp [hwD], ?_⟩
            intro hc
            rcases List.mem_append.mp hc with hc | hc
            · exact hnq.1 hc
            · obtain ⟨_, b, _, e⟩ := (hps x).mp hc
              have := congrArg List.length e
              simp at this
        · intro x hx hxq a h3 h4
          rcases List.mem_append.mp hx with hx | hx
          · by_cases hxw : x = w
            · subst hxw
              simp [(has a).mpr h4]
            · have := h.closed x hx (by
                intro hc
                rcases List.mem_cons.mp hc with hc | hc
                · exact hxw hc
                · exact hxq (by simp [hc])) a h3 h4
              simp [this]
          · obtain ⟨b, hb, rfl⟩ := List.mem_map.mp hx
            exfalso
            refine hxq (List.mem_append.mpr (.inr ((hps _).mpr ⟨?_, b, hb, rfl⟩)))
            rw [deltaWord_snoc] at h3
            simp only [pr]
            cases e : g2.deltaWord (some 0) w with
            | none => rw [e] at h3; exact absurd rfl h3
            | some q => rfl
      have hDK : (D ++ as.map (fun a => w ++ [a])).length ≤ K.length :=
        (List.subperm_of_subset hout.nodup fun x hx => hK x (hout.sub x hx)).length_le
      have hpl : ps.length ≤ as.length := by
        simp only [ps]
        split <;> simp
      obtain ⟨c'', s'', D', hl, hfin⟩ := ih (t + 1) _ _ _ _ hout (by simp at hn hDK ⊢; omega)
      refine ⟨c'', s'', D', ?_, hfin⟩
      rw [loop, hstep]
      exact hl

end Fuse

/-- What the fusion of two tries does. -/
theorem fusion_spec {g1 g2 : Automaton A} (h1 : TrieInv g1) (h2 : TrieInv g2) {ord : SetOracle A} (ho : ord.Valid) :
    ∃ g, Returns (trieFusion ord g1 g2) (.ok g) ∧ TrieInv g ∧
      (∀ x q, g1.deltaWord (some 0) x = some q → g.deltaWord (some 0) x = some q) ∧
      (∀ x, g.deltaWord (some 0) x ≠ none ↔ g1.deltaWord (some 0) x ≠ none ∨ g2.deltaWord (some 0) x ≠ none) ∧
      ∀ x, g.accepts x = true ↔ g1.accepts x = true ∨ g2.accepts x = true := by
  -- the words known to the tries are finitely many
  have hfin : ∀ g : Automaton A, TrieInv g → ∃ K : List (List A), ∀ x, g.deltaWord (some 0) x ≠ none → x ∈ K := by
    intro g hg
    have : ∀ l : List Nat, (∀ q ∈ l, q ∈ g.vertices) → ∃ K : List (List A), ∀ x, (∃ q ∈ l, g.deltaWord (some 0) x = some q) → x ∈ K := by
      intro l
      induction l with
      | nil => intro _; exact ⟨[], by simp⟩
      | cons q l ih =>
        intro hl
        obtain ⟨K, hK⟩ := ih (fun q hq => hl q (by simp [hq]))
        obtain ⟨u, hu⟩ := hg.surj q (hl q (by simp))
        refine ⟨u :: K, ?_⟩
        rintro x ⟨r, hr, hx⟩
        rcases List.mem_cons.mp hr with rfl | hr
        · rw [hg.inj _ _ _ hx hu]; simp
        · exact List.mem_cons_of_mem _ (hK x ⟨r, hr, hx⟩)
    obtain ⟨K, hK⟩ := this g.vertices (fun _ h => h)
    refine ⟨K, fun x hx => ?_⟩
    cases e : g.deltaWord (some 0) x with
    | none => exact absurd e hx
    | some q => exact hK x ⟨q, hg.reached e, e⟩
  obtain ⟨K1, hK1⟩ := hfin g1 h1
  obtain ⟨K2, hK2⟩ := hfin g2 h2
  have hK : ∀ x, Fuse.pr g1 g2 x ≠ (none, none) → x ∈ K1 ++ K2 := by
    intro x hx
    by_contra hc
    rw [List.mem_append, not_or] at hc
    have e1 : g1.deltaWord (some 0) x = none := by by_contra h; exact hc.1 (hK1 x h)
    have e2 : g2.deltaWord (some 0) x = none := by by_contra h; exact hc.2 (hK2 x h)
    exact hx (by rw [Fuse.pr, e1, e2])
  -- the start
  let s0 : Fusion A := ⟨Dict.set [] (some 0) (some 0), if g2.isFinal 0 then g1.setFinal 0 else g1⟩
  have hw0 : ∀ x, s0.g1.deltaWord (some 0) x = g1.deltaWord (some 0) x := by
    intro x
    simp only [s0]
    split
    · rw [deltaWord_setFinal]
    · rfl
  have h0 : (0 : Nat) ∈ g1.vertices := by rw [h1.mem_vertices]; exact h1.pos
  have hout : Fuse.Outer g1 g2 [[]] [[]] [] s0 := by
    refine { trie := ?_, old := ?_, dom := ?_, fin := ?_, map := ?_, col := ?_, sub := ?_, nodup := by simp, root := by simp,
             sub_queue := by simp, nodup_queue := by simp, parent := ?_, closed := ?_ }
    · simp only [s0]
      split
      · exact h1.setFinal h0
      · exact h1
    · intro x q hx; rw [hw0, hx]
    · intro x
      rw [hw0]
      constructor
      · exact .inl
      · rintro (h | ⟨h, _⟩)
        · exact h
        · simp at h; subst h; simp
    · intro x
      have e2 : Fuse.Acc g2 [] ↔ g2.isFinal 0 = true := by simp [Fuse.Acc]
      simp only [s0]
      by_cases hf : g2.isFinal 0 = true
      · rw [if_pos hf, Fuse.acc_setFinal h1 (x := []) (by simp)]
        constructor
        · rintro (h | rfl)
          · exact .inl h
          · exact .inr ⟨by simp, e2.mpr hf⟩
        · rintro (h | ⟨h, _⟩)
          · exact .inl h
          · exact .inr (by simpa using h)
      · rw [if_neg hf]
        constructor
        · exact .inl
        · rintro (h | ⟨h, h'⟩)
          · exact h
          · simp at h; subst h; exact absurd (e2.mp h') hf
    · intro x hx e; simp at hx; subst hx; simp at e
    · intro p hp; exact absurd rfl hp
    · intro x hx; simp at hx; subst hx; simp [Fuse.pr]
    · intro w a h; simp at h
    · intro w hw hq; exact absurd hw hq
  obtain ⟨c', s', D', hl, hend⟩ := Fuse.main_loop h1 h2 ho hK _ 0 [[]] [[]] [] s0 hout (Nat.le_refl _)
  have hD : ∀ x, g2.deltaWord (some 0) x ≠ none → x ∈ D' := by
    intro x
    induction x using List.reverseRecOn with
    | nil => intro _; exact hend.root
    | append_singleton x a ih =>
      intro hx
      have hx' : g2.deltaWord (some 0) x ≠ none := by
        intro e
        rw [deltaWord_snoc, e] at hx
        exact hx rfl
      refine hend.closed x (ih hx') (by simp) a hx' ?_
      intro e
      exact hx (congrArg Prod.snd e)
  have hacc : ∀ {g : Automaton A}, TrieInv g → ∀ x, g.accepts x = true ↔ Fuse.Acc g x := fun hg x => hg.accepts_iff x
  refine ⟨s'.g1, ?_, hend.trie, hend.old, ?_, ?_⟩
  · refine ⟨2 * ((K1 ++ K2).length - 1) + 1 + 1, fun fuel hf => ?_⟩
    have hstart : emit (fusionVisitor g2) ([(g1.initial, g2.initial)].map fun p => .start p.1 p.2) ⟨[], g1⟩ = .ok s0 := by
      simp only [initial, h1.init, h2.init, List.map_cons, List.map_nil, emit_singleton, fusionVisitor, s0, isFinalO, setFinalO]
      rfl
    unfold trieFusion pbfs
    rw [hstart]
    simp only
    have hq : [(g1.initial, g2.initial)] = [[]].map (Fuse.pr g1 g2) := by simp [Fuse.pr, initial, h1.init, h2.init]
    rw [hq, loop_mono _ hl hf]
    rfl
  · intro x
    rw [hend.dom]
    constructor
    · rintro (h | h)
      · exact .inl h
      · exact .inr h.2
    · rintro (h | h)
      · exact .inl h
      · exact .inr ⟨hD x h, h⟩
  · intro x
    rw [hacc hend.trie, hacc h1, hacc h2, hend.fin]
    constructor
    · rintro (h | h)
      · exact .inl h
      · exact .inr h.2
    · rintro (h | h)
      · exact .inl h
      · obtain ⟨q, hq, hf⟩ := h
        exact .inr ⟨hD x (by rw [hq]; simp), q, hq, hf⟩

end PyBGL
