import Verif.Model.Prune
import Verif.Proofs.Dfs
import Verif.Proofs.IncidenceAutomaton

/-!
# `prune_incidence_automaton`
-/

namespace PyBGL
open Automaton
variable {A : Type} [DecidableEq A]

namespace IAutomaton

theorem WF.target_mem {g : IAutomaton A} (hw : WF g) {q r : Nat} {a : A} (h : g.a.delta q a = some r) : r ∈ g.a.vertices := by
  rw [← hw.keys, Dict.mem_keys_iff]
  obtain ⟨vs, _, h1, _⟩ := get?_some_of_lk ((hw.mirror q r a).2 h)
  exact ⟨vs, h1⟩

theorem WF.lpath_mem {g : IAutomaton A} (hw : WF g) {q r : Nat} {w : List A} (h : LPath g.a.Trans q w r) : r = q ∨ r ∈ g.a.vertices := by
  induction h with
  | nil => exact .inl rfl
  | cons h _ ih =>
    rw [trans_iff hw.out] at h
    rcases ih with rfl | ih
    · exact .inr (hw.target_mem h)
    · exact .inr ih

theorem reach_iff {g : IAutomaton A} (hw : WF g) (q r : Nat) :
    Reach (g.toI.through (fun _ => true)) q r ↔ ∃ w, LPath g.a.Trans q w r := by
  constructor
  · rintro ⟨es, h⟩
    induction h with
    | nil => exact ⟨[], .nil _⟩
    | @cons u v e es he _ ih =>
      simp only [GraphI.through, toI, List.filter_true] at he
      obtain ⟨w, hw'⟩ := ih
      rw [mem_outEdges hw.out] at he
      obtain ⟨rfl, hd⟩ := he
      exact ⟨e.distinguisher :: w, .cons ((trans_iff hw.out).2 hd) hw'⟩
  · rintro ⟨w, h⟩
    induction h with
    | nil => exact Reach.refl _ _
    | @cons q r s a w h _ ih =>
      have he : (⟨q, r, a⟩ : EdgeDesc A) ∈ (g.toI.through (fun _ => true)).outEdges q := by
        simp only [GraphI.through, toI, List.filter_true]
        rw [mem_outEdges hw.out]
        exact ⟨rfl, (trans_iff hw.out).1 h⟩
      exact Reach.trans (Reach.edge he) ih

theorem rev_reach_iff {g : IAutomaton A} (hw : WF g) (q r : Nat) :
    Reach ((reverseGraph g.toI).through (fun _ => true)) q r ↔ ∃ w, LPath g.a.Trans r w q := by
  constructor
  · rintro ⟨es, h⟩
    induction h with
    | nil => exact ⟨[], .nil _⟩
    | @cons u v e es he _ ih =>
      simp only [GraphI.through, toI, reverseGraph, swapIncidence, swapEnds, List.filter_true] at he ih
      obtain ⟨w, hw'⟩ := ih
      rw [mem_inEdges hw] at he
      obtain ⟨rfl, hd⟩ := he
      exact ⟨w ++ [e.distinguisher], hw'.snoc ((trans_iff hw.out).2 hd)⟩
  · rintro ⟨w, h⟩
    induction h with
    | nil => exact Reach.refl _ _
    | @cons q r s a w h _ ih =>
      have he : (⟨q, r, a⟩ : EdgeDesc A) ∈ ((reverseGraph g.toI).through (fun _ => true)).outEdges r := by
        simp only [GraphI.through, toI, reverseGraph, swapIncidence, swapEnds, List.filter_true]
        rw [mem_inEdges hw]
        exact ⟨rfl, (trans_iff hw.out).1 h⟩
      exact Reach.trans ih (Reach.edge he)

theorem foldlM_removeVertex {g : IAutomaton A} (hw : WF g) (L : List Nat) (hL : L.Nodup) (hv : ∀ q ∈ L, q ∈ g.a.vertices) :
    ∃ g', L.foldlM removeVertex g = .ok g' ∧ WF g' ∧ g'.a.vertices = g.a.vertices.filter (· ∉ L) ∧
      g'.a.q0 = g.a.q0 ∧ g'.a.final = g.a.final ∧
      ∀ q a, g'.a.delta q a = if q ∈ L ∨ ∃ r ∈ L, g.a.delta q a = some r then none else g.a.delta q a := by
  induction L generalizing g with
  | nil => exact ⟨g, rfl, hw, by simp, rfl, rfl, by simp⟩
  | cons u L ih =>
    rw [List.nodup_cons] at hL
    obtain ⟨g1, h1, w1, v1, _, q1, f1, d1⟩ := removeVertex_WF hw (hv u (by simp))
    obtain ⟨g2, h2, w2, v2, q2, f2, d2⟩ := ih w1 hL.2 (fun q hq => by
      rw [v1, List.mem_filter]
      refine ⟨hv q (by simp [hq]), ?_⟩
      simp only [decide_eq_true_eq]
      rintro rfl; exact hL.1 hq)
    refine ⟨g2, ?_, w2, ?_, q2.trans q1, f2.trans f1, ?_⟩
    · rw [List.foldlM_cons, h1]; exact h2
    · rw [v2, v1, List.filter_filter]
      congr 1; funext q; simp [not_or, Bool.and_comm]
    · intro q a
      rw [d2, d1]
      by_cases hq : q = u
      · simp [hq]
      · by_cases hd : g.a.delta q a = some u
        · simp [hd]
        · have h1 : (if q = u ∨ g.a.delta q a = some u then none else g.a.delta q a) = g.a.delta q a :=
            if_neg (by simp [hq, hd])
          rw [h1]
          simp [hq, hd]

end IAutomaton

theorem findReachable_returns {V E : Type} [DecidableEq V] {g : GraphI V E} {sources U : List V}
    (hU : ∀ s ∈ (if sources = [] then g.vertices else sources), ∀ v, Reach (g.through (fun _ => true)) s v → v ∈ U) :
    ∃ k, Returns (findReachableVertices g sources) (.ok k) ∧
      ∀ v, v ∈ k ↔ ∃ s ∈ (if sources = [] then g.vertices else sources), Reach (g.through (fun _ => true)) s v := by
  obtain ⟨c, tr, f, hr⟩ := dfsSources_facts hU
  refine ⟨c.keys, ?_, fun v => by rw [f.keys, f.reach]⟩
  obtain ⟨N, hN⟩ := hr Unit (fun _ st => .ok st) ()
  refine ⟨N, fun fuel hf => ?_⟩
  have h := hN fuel hf
  have he : ∀ l : List (DfsEvent V E), emit (fun _ st => .ok st) l () = .ok () := by
    intro l
    induction l with
    | nil => rfl
    | cons e l ih => rw [emit_cons]; exact ih
  unfold findReachableVertices dfsGraph
  have hs : (if sources.isEmpty then g.vertices else sources) = if sources = [] then g.vertices else sources := by
    cases sources <;> rfl
  rw [hs]
  have h' : dfsSources g (fun _ => true) (fun _ st => .ok st) fuel (if sources = [] then g.vertices else sources) [] () = _ := h
  rw [h', he]
  rfl

namespace Prune
variable (g : IAutomaton A)

/-- `q` is reachable from the initial state. -/
def FromInitial (q : Nat) : Prop := ∃ q0 w, g.a.q0 = some q0 ∧ LPath g.a.Trans q0 w q

/-- The sources of the backward search. -/
def Source (f : Nat) : Prop := f ∈ g.a.vertices ∧ (g.a.isFinal f = true ∨ g.a.finals = [])

variable {g}

/-- What `prune_incidence_automaton` computes. -/
theorem spec (hw : IAutomaton.WF g) {ord : SetOracle Nat} (ho : ord.Valid) :
    ∃ g', Returns (pruneIncidenceAutomaton ord g) (.ok g') ∧ IAutomaton.WF g' ∧ g'.a.q0 = g.a.q0 ∧ g'.a.final = g.a.final ∧
      (∀ q, q ∈ g'.a.vertices ↔ q ∈ g.a.vertices ∧ FromInitial g q ∧ ∃ w f, LPath g.a.Trans q w f ∧ Source g f) ∧
      (∀ q a r, g'.a.delta q a = some r ↔ g.a.delta q a = some r ∧ q ∈ g'.a.vertices ∧ r ∈ g'.a.vertices) := by
  -- forward search
  obtain ⟨k1, r1, m1⟩ : ∃ k1, Returns (reachedFromInitial g) (.ok k1) ∧ ∀ q, q ∈ k1 ↔ FromInitial g q := by
    unfold reachedFromInitial
    cases hq0 : g.a.initial with
    | none =>
      refine ⟨[], ⟨0, fun _ _ => rfl⟩, fun q => ?_⟩
      simp only [List.not_mem_nil, false_iff]
      rintro ⟨q0, w, h, _⟩
      rw [show g.a.q0 = none from hq0] at h
      cases h
    | some q0 =>
      obtain ⟨k, hk, hm⟩ := findReachable_returns (g := g.toI) (sources := [q0]) (U := q0 :: g.a.vertices) (by
        intro s hs v hr
        simp at hs; subst hs
        rw [IAutomaton.reach_iff hw] at hr
        obtain ⟨w, hr⟩ := hr
        rcases hw.lpath_mem hr with rfl | h
        · simp
        · simp [h])
      refine ⟨k, hk, fun q => ?_⟩
      rw [hm]
      simp only [reduceCtorEq, if_false, List.mem_singleton, exists_eq_left, IAutomaton.reach_iff hw]
      constructor
      · rintro ⟨w, h⟩; exact ⟨q0, w, hq0, h⟩
      · rintro ⟨q0', w, h, h'⟩
        rw [show g.a.q0 = some q0 from hq0] at h
        cases h
        exact ⟨w, h'⟩
  -- backward search
  have hsrc : ∀ f, f ∈ (if ord 0 g.a.finals = [] then (reverseGraph g.toI).vertices else ord 0 g.a.finals) ↔ Source g f := by
    intro f
    have hp := ho 0 g.a.finals
    by_cases he : g.a.finals = []
    · rw [he, List.perm_nil] at hp
      rw [he, hp, if_pos rfl]
      simp only [Source, he, or_true, and_true]; rfl
    · have : ord 0 g.a.finals ≠ [] := fun h => he (by rw [h] at hp; exact hp.symm.eq_nil)
      rw [if_neg this, hp.mem_iff]
      simp only [Source, he, or_false]
      simp [finals]
  obtain ⟨k2, r2, m2⟩ := findReachable_returns (g := reverseGraph g.toI) (sources := ord 0 g.a.finals) (U := g.a.vertices) (by
    intro s hs v hr
    rw [hsrc] at hs
    rw [IAutomaton.rev_reach_iff hw] at hr
    obtain ⟨w, hr⟩ := hr
    cases hr with
    | nil => exact hs.1
    | cons h _ => rw [trans_iff hw.out] at h; exact delta_mem_vertices h)
  have m2' : ∀ q, q ∈ k2 ↔ ∃ w f, LPath g.a.Trans q w f ∧ Source g f := by
    intro q
    rw [m2]
    constructor
    · rintro ⟨f, hf, hr⟩
      rw [hsrc] at hf
      rw [IAutomaton.rev_reach_iff hw] at hr
      obtain ⟨w, hr⟩ := hr
      exact ⟨w, f, hr, hf⟩
    · rintro ⟨w, f, hr, hf⟩
      exact ⟨f, (hsrc f).mpr hf, (IAutomaton.rev_reach_iff hw _ _).mpr ⟨w, hr⟩⟩
  generalize hrem : g.a.vertices.filter (· ∉ k1.filter (· ∈ k2)) = rem at *
  have hp := ho 1 rem
  have hvn : g.a.vertices.Nodup := hw.out.outer
  have hrm : ∀ q, q ∈ rem ↔ q ∈ g.a.vertices ∧ ¬ (FromInitial g q ∧ ∃ w f, LPath g.a.Trans q w f ∧ Source g f) := by
    intro q
    rw [← hrem, List.mem_filter]
    simp only [List.mem_filter, decide_eq_true_eq, m1, m2']
  obtain ⟨g', h1, h2, h3, h4, h5, h6⟩ := IAutomaton.foldlM_removeVertex hw (ord 1 rem) (hp.nodup_iff.mpr (by
    rw [← hrem]; exact hvn.filter _)) (fun q hq => ((hrm q).mp (hp.mem_iff.mp hq)).1)
  have hvert : ∀ q, q ∈ g'.a.vertices ↔ q ∈ g.a.vertices ∧ FromInitial g q ∧ ∃ w f, LPath g.a.Trans q w f ∧ Source g f := by
    intro q
    rw [h3, List.mem_filter]
    simp only [decide_eq_true_eq, hp.mem_iff, hrm]
    exact ⟨fun ⟨a, b⟩ => ⟨a, not_not.mp (fun h => b ⟨a, h⟩)⟩, fun ⟨a, b⟩ => ⟨a, fun h => h.2 b⟩⟩
  refine ⟨g', ?_, h2, h4, h5, hvert, ?_⟩
  · obtain ⟨N1, hN1⟩ := r1
    obtain ⟨N2, hN2⟩ := r2
    refine ⟨max N1 N2, fun fuel hf => ?_⟩
    unfold pruneIncidenceAutomaton
    rw [hN1 fuel (by omega)]
    simp only
    rw [hN2 fuel (by omega)]
    simp only [hrem, h1]
  · intro q a r
    rw [h6]
    have hq : ∀ q, q ∈ g.a.vertices → (q ∉ ord 1 rem ↔ q ∈ g'.a.vertices) := by
      intro q hq
      rw [h3, List.mem_filter]; simp [hq]
    constructor
    · intro h
      split at h
      · cases h
      · rename_i hc
        rw [not_or] at hc
        refine ⟨h, (hq q (delta_mem_vertices h)).mp hc.1, (hq r (hw.target_mem h)).mp (fun hr => hc.2 ⟨r, hr, h⟩)⟩
    · rintro ⟨h, hq1, hr1⟩
      rw [if_neg]
      · exact h
      · rintro (hc | ⟨r', hr', hc⟩)
        · exact (hq q (delta_mem_vertices h)).mpr hq1 hc
        · rw [h] at hc; cases hc
          exact (hq r (hw.target_mem h)).mpr hr1 hr'

end Prune
end PyBGL
