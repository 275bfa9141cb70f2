import Verif.Proofs.ThompsonLang

/-!
# The automata of expressions in which the symbol `eps` occurs
-/

namespace PyBGL
variable {A : Type} [DecidableEq A]

namespace Erased
variable {eps : A} {L L₁ L₂ : List A → Prop}

theorem cat (w : List A) : Erased eps (fun w => ∃ u v, w = u ++ v ∧ L₁ u ∧ L₂ v) w ↔ ∃ u v, w = u ++ v ∧ Erased eps L₁ u ∧ Erased eps L₂ v := by
  constructor
  · rintro ⟨_, ⟨u, v, rfl, hu, hv⟩, rfl⟩
    exact ⟨_, _, List.filter_append .., ⟨u, hu, rfl⟩, ⟨v, hv, rfl⟩⟩
  · rintro ⟨_, _, rfl, ⟨u, hu, rfl⟩, ⟨v, hv, rfl⟩⟩
    exact ⟨u ++ v, ⟨u, v, rfl, hu, hv⟩, (List.filter_append ..).symm⟩

theorem alt (w : List A) : Erased eps (fun w => L₁ w ∨ L₂ w) w ↔ Erased eps L₁ w ∨ Erased eps L₂ w := by
  constructor
  · rintro ⟨v, h | h, rfl⟩
    · exact .inl ⟨v, h, rfl⟩
    · exact .inr ⟨v, h, rfl⟩
  · rintro (⟨v, h, rfl⟩ | ⟨v, h, rfl⟩)
    · exact ⟨v, .inl h, rfl⟩
    · exact ⟨v, .inr h, rfl⟩

theorem opt (w : List A) : Erased eps (fun w => w = [] ∨ L w) w ↔ w = [] ∨ Erased eps L w := by
  rw [alt (L₁ := fun w => w = [])]
  simp [Erased]

theorem pow (k : Nat) (w : List A) : Erased eps (Pow L k) w ↔ Pow (Erased eps L) k w := by
  induction k generalizing w with
  | zero => simp [Erased, Pow.zero_iff]
  | succ k ih =>
    have h1 : Pow L (k + 1) = fun w => ∃ u v, w = u ++ v ∧ Pow L k u ∧ L v := funext fun w => propext Pow.snoc_iff
    rw [h1, cat, Pow.snoc_iff]
    simp only [ih]

theorem iter (p : Nat → Prop) (w : List A) : Erased eps (fun w => ∃ k, p k ∧ Pow L k w) w ↔ ∃ k, p k ∧ Pow (Erased eps L) k w := by
  simp only [← pow]
  constructor
  · rintro ⟨v, ⟨k, hk, h⟩, rfl⟩; exact ⟨k, hk, v, h, rfl⟩
  · rintro ⟨k, hk, v, h, rfl⟩; exact ⟨v, ⟨k, hk, h⟩, rfl⟩

theorem congr {L' : List A → Prop} (h : ∀ w, L w ↔ L' w) (w : List A) : Erased eps L w ↔ Erased eps L' w := by
  simp only [Erased, h]

end Erased

namespace Nfa
open Thompson

theorem Fr.congr {eps : A} {x : Frag A} {L L' : List A → Prop} (h : Fr eps x L) (hL : ∀ w, L w ↔ L' w) : Fr eps x L' :=
  ⟨h.single, h.eps_eq, fun w => (h.lang w).trans (hL w)⟩

theorem fr_chars_eps (eps : A) (cs : List A) :
    Fr eps (bracket eps cs) (Erased eps (fun w => ∃ a ∈ cs, w = [a])) ∧ CS (bracket eps cs) ∧ CE (bracket eps cs) ∧ (bracket eps cs).2.1 = 0 := by
  obtain ⟨h1, h2, h3⟩ := bracket_spec eps cs
  have hend : ∀ {v}, WPath (bracket eps cs).1.T eps 1 v 1 → v = [] := fun hv =>
    (WPath.of_noOut (fun a x h => by have := ((h3 _ _ _).1 h).1; omega) hv).2
  refine ⟨⟨h1, h2, fun w => ?_⟩, ⟨?_, by show (0:Nat) ≠ 1; omega⟩, ⟨?_, by show (0:Nat) ≠ 1; omega⟩, rfl⟩
  · show WPath (bracket eps cs).1.T eps 0 w 1 ↔ _
    constructor
    · intro h
      rcases h.cases with ⟨_, h⟩ | ⟨s, hs, hw⟩ | ⟨a, s, v, rfl, ha, hs, hv⟩
      · cases h
      · obtain ⟨_, hac, rfl⟩ := (h3 _ _ _).1 hs
        exact ⟨[eps], ⟨eps, hac, rfl⟩, by simp [hend hw]⟩
      · obtain ⟨_, hac, rfl⟩ := (h3 _ _ _).1 hs
        exact ⟨[a], ⟨a, hac, rfl⟩, by simp [hend hv, ha]⟩
    · rintro ⟨_, ⟨a, ha, rfl⟩, rfl⟩
      by_cases e : a = eps
      · subst e
        simpa using WPath.epsStep ((h3 _ _ _).2 ⟨rfl, ha, rfl⟩)
      · simpa [e] using WPath.symStep e ((h3 _ _ _).2 ⟨rfl, ha, rfl⟩)
  · intro p a h
    have := ((h3 _ _ _).1 h).2.2
    exact absurd this (by show (0:Nat) ≠ 1; omega)
  · intro a p h
    have := ((h3 _ _ _).1 h).1
    exact absurd this (by show (1:Nat) ≠ 0; omega)

theorem evalEps_spec {eps : A} (e : Regex A) (hv : e.Ordered) (hs : e.Safe) (rest : List (Tok A)) (st : List (Frag A)) :
    ∃ x, (e.toPostfix ++ rest).foldlM (onPushOutput eps) st = rest.foldlM (onPushOutput eps) (x :: st) ∧
      Fr eps x (Erased eps e.Lang) ∧ (e.CleanStart → CS x) ∧ (e.CleanEnd → CE x) ∧ (e.StartsAtZero → x.2.1 = 0) ∧
      (e.Skippable → OptOK eps x) := by
  induction e generalizing rest st with
  | sym a =>
    obtain ⟨h1, h2, h3, h4⟩ := fr_chars_eps eps [a]
    refine ⟨bracket eps [a], rfl, h1.congr (fun w => ?_), fun _ => h2, fun _ => h3, fun _ => h4, fun _ => .of_cs_ce h2 h3⟩
    simp [Erased, Regex.Lang]
  | chars cs =>
    obtain ⟨h1, h2, h3, h4⟩ := fr_chars_eps eps cs
    exact ⟨bracket eps cs, rfl, h1, fun _ => h2, fun _ => h3, fun _ => h4, fun _ => .of_cs_ce h2 h3⟩
  | cat e₁ e₂ ih₁ ih₂ =>
    obtain ⟨x1, a1, a2, a3, a4, a5, a6⟩ := ih₁ hv.1 hs.1 (e₂.toPostfix ++ (.cat :: rest)) st
    obtain ⟨x2, b1, b2, b3, b4, b5, b6⟩ := ih₂ hv.2 hs.2 (.cat :: rest) (x1 :: st)
    obtain ⟨x, c1, c2, c3, c4, c5⟩ := fr_cat a2 b2
    refine ⟨x, ?_, c2.congr (fun w => (Erased.cat w).symm), fun h => c3 (a3 h), fun h => c4 (b4 h), fun h => c5.trans (a5 h),
      fun h => .of_cs_ce (c3 (a3 h.1)) (c4 (b4 h.2))⟩
    rw [show (e₁.cat e₂).toPostfix ++ rest = e₁.toPostfix ++ (e₂.toPostfix ++ (.cat :: rest)) by simp [Regex.toPostfix], a1, b1,
      List.foldlM_cons]
    simp only [onPushOutput, c1]
    rfl
  | alt e₁ e₂ ih₁ ih₂ =>
    obtain ⟨x1, a1, a2, a3, a4, a5, a6⟩ := ih₁ hv.1 hs.1 (e₂.toPostfix ++ (.alt :: rest)) st
    obtain ⟨x2, b1, b2, b3, b4, b5, b6⟩ := ih₂ hv.2 hs.2 (.alt :: rest) (x1 :: st)
    obtain ⟨x, c1, c2, c3, c4⟩ := fr_alt a2 b2
    refine ⟨x, ?_, c2.congr (fun w => (Erased.alt w).symm), fun _ => c3, fun _ => c4, fun h => h.elim, fun _ => .of_cs_ce c3 c4⟩
    rw [show (e₁.alt e₂).toPostfix ++ rest = e₁.toPostfix ++ (e₂.toPostfix ++ (.alt :: rest)) by simp [Regex.toPostfix], a1, b1,
      List.foldlM_cons]
    simp only [onPushOutput, c1]
    rfl
  | opt e ih =>
    obtain ⟨x, a1, a2, a3, a4, a5, a6⟩ := ih hv hs.1 (.opt :: rest) st
    obtain ⟨c1, c2, c3, c4, c5⟩ := fr_opt a2 (a6 hs.2)
    refine ⟨zeroOrOne x, ?_, c1.congr (fun w => (Erased.opt w).symm), fun h => c2 (a3 h), fun h => c3 (a4 h), fun h => c5.trans (a5 h), fun _ => c4⟩
    rw [show e.opt.toPostfix ++ rest = e.toPostfix ++ (.opt :: rest) by simp [Regex.toPostfix], a1, List.foldlM_cons]
    rfl
  | star e ih =>
    obtain ⟨x, a1, a2, a3, a4, a5, a6⟩ := ih hv hs (.star :: rest) st
    obtain ⟨c1, c2⟩ := fr_star a2
    refine ⟨zeroOrMore x, ?_, c1.congr (fun w => by simpa [Regex.Lang] using (Erased.iter (eps := eps) (L := e.Lang) (fun _ => True) w).symm), fun h => h.elim, fun h => h.elim, fun h => h.elim, fun _ => c2⟩
    rw [show e.star.toPostfix ++ rest = e.toPostfix ++ (.star :: rest) by simp [Regex.toPostfix], a1, List.foldlM_cons]
    rfl
  | plus e ih =>
    obtain ⟨x, a1, a2, a3, a4, a5, a6⟩ := ih hv hs (.plus :: rest) st
    obtain ⟨c1, c2⟩ := fr_plus a2
    refine ⟨oneOrMore x, ?_, c1.congr (fun w => (Erased.iter (1 ≤ ·) w).symm), fun h => h.elim, fun h => h.elim, fun h => h.elim, fun _ => c2⟩
    rw [show e.plus.toPostfix ++ rest = e.toPostfix ++ (.plus :: rest) by simp [Regex.toPostfix], a1, List.foldlM_cons]
    rfl
  | rep m n e ih =>
    cases n with
    | none =>
      obtain ⟨x, a1, a2, a3, a4, a5, a6⟩ := ih hv hs (.rep m none :: rest) st
      obtain ⟨y, c1, c2, c3, c4⟩ := fr_range_none a2 m
      refine ⟨y, ?_, c2.congr (fun w => (Erased.iter (m ≤ ·) w).symm), fun h => (c4 h.1).1 (a3 h.2), fun h => h.elim, fun h => (c4 h.1).2.trans (a5 h.2), fun h => c3 h⟩
      rw [show (Regex.rep m none e).toPostfix ++ rest = e.toPostfix ++ (.rep m none :: rest) by simp [Regex.toPostfix], a1,
        List.foldlM_cons]
      simp only [onPushOutput, c1]
      rfl
    | some n =>
      obtain ⟨x, a1, a2, a3, a4, a5, a6⟩ := ih hv.2 hs.1 (.rep m (some n) :: rest) st
      obtain ⟨y, c1, c2, c3, c4, c5, c6, c7, c8⟩ := fr_range_some a2 hv.1 (fun h h' => a5 (hs.2.1 h h'))
        (fun h h' => a6 (hs.2.2 h h'))
      refine ⟨y, ?_, c2.congr (fun w => by
        simpa only [Regex.Lang, and_assoc] using (Erased.iter (eps := eps) (L := e.Lang) (fun k => m ≤ k ∧ k ≤ n) w).symm), ?_, fun h => c3 (a4 h.2) h.1, fun h => c8.trans (a5 h), ?_⟩
      · rw [show (Regex.rep m (some n) e).toPostfix ++ rest = e.toPostfix ++ (.rep m (some n) :: rest) by
          simp [Regex.toPostfix], a1, List.foldlM_cons]
        simp only [onPushOutput, c1]
        rfl
      · rintro ⟨hn, h | ⟨hm, hn'⟩⟩
        · exact c4 (a3 h) hn
        · exact c5 hm hn'
      · rintro (h | ⟨hm, hn, h⟩ | ⟨h, h'⟩)
        · exact c6 h
        · exact c7 hm hn (a6 h)
        · by_cases hm : m = 0
          · exact c6 hm
          · have hn : 1 ≤ n := by have := hv.1; omega
            exact .of_cs_ce (c4 (a3 h) hn) (c3 (a4 h') hn)

theorem compileEps_spec {eps : A} (e : Regex A) (hv : e.Ordered) (hs : e.Safe) :
    ∃ x, compile eps e.toPostfix = .ok x ∧ Fr eps x (Erased eps e.Lang) := by
  obtain ⟨x, h1, h2, _⟩ := evalEps_spec e hv hs [] []
  refine ⟨x, ?_, h2⟩
  rw [List.append_nil] at h1
  unfold compile
  cases h : e.toPostfix with
  | nil => exact absurd h (toPostfix_ne_nil e)
  | cons t ts =>
    rw [h] at h1
    simp only [h1]
    rfl

end Nfa
end PyBGL
