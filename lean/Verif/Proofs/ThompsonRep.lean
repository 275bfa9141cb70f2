import Verif.Proofs.Thompson

/-!
# Languages of concatenations and repetitions
-/

namespace PyBGL
variable {A : Type} [DecidableEq A]

/-- Forward reasoning on paths. -/
theorem WPath.forward {Q : Type} {T : Q → A → Q → Prop} {eps : A} {q : Q} (R : Q → List A → Prop) (h0 : R q [])
    (heps : ∀ x y w, R x w → T x eps y → R y w) (hsym : ∀ x a y w, R x w → a ≠ eps → T x a y → R y (w ++ [a]))
    {r : Q} {w : List A} (h : WPath T eps q w r) : R r w := by
  obtain ⟨u, hu, rfl⟩ := h
  induction u using List.reverseRecOn generalizing r with
  | nil => rw [LPath.nil_iff] at hu; subst hu; exact h0
  | append_singleton u a ih =>
    rw [LPath.snoc_iff] at hu
    obtain ⟨s, hs, hT⟩ := hu
    rw [List.filter_append]
    by_cases ha : a = eps
    · subst ha; simpa using heps _ _ _ (ih hs) hT
    · simpa [ha] using hsym _ _ _ _ (ih hs) ha hT

namespace Nfa
open Thompson

theorem concat_paths {g1 g2 : Nfa A} {q1 f1 q2 f2 : Nat} {eps : A} (k1 : Good g1)
    (c1 : ∀ q a r, g1.T q a r → q ∈ g1.vertices ∧ r ∈ g1.vertices) (hq1 : q1 ∈ g1.vertices) (hf1 : f1 ∈ g1.vertices)
    (hfin1 : ∀ x, g1.isFinal x = true → x = f1) (h2 : g2.Single q2 f2) (he : g1.eps = eps) :
    ∃ g f', concatenation (g1, q1, f1) (g2, q2, f2) = .ok (g, q1, f') ∧ g.Single q1 f' ∧ g.eps = eps ∧
      (∀ w, WPath g.T eps q1 w f' ↔ ∃ u v, w = u ++ v ∧ WPath g1.T eps q1 u f1 ∧ WPath g2.T eps q2 v f2) ∧
      (∀ p ∈ g1.vertices, p ∈ g.vertices ∧ ∀ x w, WPath g.T eps x w p ↔ WPath g1.T eps x w p) ∧
      (∀ p w, WPath g.T eps f' w p → p ∉ g1.vertices ∧ (p = f' → WPath g2.T eps f2 w f2)) ∧
      ((∀ x a, ¬ g1.T x a q1) → ∀ x a, ¬ g.T x a q1) ∧ ((∀ a x, ¬ g2.T f2 a x) → ∀ a x, ¬ g.T f' a x) ∧
      f' ∉ g1.vertices := by
  obtain ⟨g, ρ, hc, hs, hge, hfr, hinj, hT, hV⟩ := concatenation_spec k1.wf k1.lt c1 hq1 hf1 hfin1 h2
  rw [he] at hT hge
  have c2 : ∀ x a y, TImage ρ g2.T x a y → (∃ z ∈ g2.vertices, x = ρ z) ∧ ∃ z ∈ g2.vertices, y = ρ z := by
    rintro x a y ⟨x', y', h, rfl, rfl⟩
    have := h2.T_closed _ _ _ h
    exact ⟨⟨x', this.1, rfl⟩, ⟨y', this.2, rfl⟩⟩
  have hd : ∀ x, x ∈ g1.vertices → ¬ ∃ z ∈ g2.vertices, x = ρ z := by
    rintro x hx ⟨z, hz, rfl⟩; exact hfr z hz hx
  have him : ∀ x y w, x ∈ g2.vertices → y ∈ g2.vertices → (WPath (TImage ρ g2.T) eps (ρ x) w (ρ y) ↔ WPath g2.T eps x w y) :=
    fun x y w hx hy => WPath.image_iff (V := (· ∈ g2.vertices)) h2.T_closed (fun x y => hinj x y) hx hy
  refine ⟨g, ρ f2, hc, hs, hge, ?_, ?_, ?_, ?_, ?_, hfr f2 h2.f_mem⟩
  · intro w
    rw [hT, cat_core c1 c2 hd hq1 hf1 ⟨q2, h2.q0_mem, rfl⟩ ⟨f2, h2.f_mem, rfl⟩]
    simp only [him q2 f2 _ h2.q0_mem h2.f_mem]
  · intro p hp
    refine ⟨(hV p).2 (.inl hp), fun x w => ?_⟩
    rw [hT]; exact cat_left c1 c2 hd ⟨q2, h2.q0_mem, rfl⟩ hp w
  · intro p w h
    rw [hT] at h
    obtain ⟨hp, hp'⟩ := cat_right c1 c2 hd hf1 ⟨f2, h2.f_mem, rfl⟩ h
    refine ⟨fun hv => hd p hv hp, ?_⟩
    rintro rfl
    exact (him f2 f2 w h2.f_mem h2.f_mem).1 hp'
  · intro hno x a h
    rw [hT] at h
    rcases h with h | h | ⟨_, _, h⟩
    · exact hno _ _ h
    · exact hd _ hq1 (c2 _ _ _ h).2
    · exact hd _ hq1 ⟨q2, h2.q0_mem, h⟩
  · intro hno a x h
    rw [hT] at h
    rcases h with h | ⟨x', y', h, e, _⟩ | ⟨h, _, _⟩
    · exact hfr f2 h2.f_mem (c1 _ _ _ h).1
    · have := hinj _ _ h2.f_mem (h2.T_closed _ _ _ h).1 e
      subst this; exact hno _ _ h
    · exact hfr f2 h2.f_mem (h ▸ hf1)

/-- The state of the loops of `repetition` and `repetition_range`. -/
structure RP (eps : A) (g0 : Nfa A) (q0 f0 j : Nat) (g : Nfa A) (q f : Nat) : Prop where
  single : g.Single q f
  eps_eq : g.eps = eps
  lang : ∀ w, WPath g.T eps q w f ↔ Pow (fun w => WPath g0.T eps q0 w f0) j w
  loop : ∀ w, WPath g.T eps f w f → WPath g0.T eps f0 w f0
  noIn : (∀ x a, ¬ g0.T x a q0) → ∀ x a, ¬ g.T x a q
  noOut : (∀ a x, ¬ g0.T f0 a x) → ∀ a x, ¬ g.T f a x
  ne : 1 < j ∨ j = 1 ∧ q0 ≠ f0 → q ≠ f

theorem RP.zero (eps : A) (g0 : Nfa A) (q0 f0 : Nat) : RP eps g0 q0 f0 0 ((Nfa.init eps [] 1).setFinal 0) 0 0 := by
  obtain ⟨h1, h2, h3, h4, h5, h6⟩ := good_init eps [] 1
  have hno : ∀ x a y, ¬ ((Nfa.init eps [] 1).setFinal 0).T x a y := h5
  have h0 : 0 ∈ ((Nfa.init eps [] 1).setFinal 0).vertices := (h4 0).2 (by omega)
  refine ⟨Single.mk' (h1.setFinal 0 true).wf (h1.setFinal 0 true).lt (fun x a y h => absurd h (hno _ _ _)) ?_ ?_ h0 h0, rfl,
    ?_, ?_, fun _ x a => hno _ _ _, fun _ x a => hno _ _ _, by omega⟩
  · intro x
    have : ((Nfa.init eps [] 1).setFinal 0).initials = [0] := initials_init eps 1
    rw [this]; simp
  · intro x
    rw [isFinal_setFinal, h6]
    by_cases hx : 0 = x
    · simp [hx]
    · simp [hx, Ne.symm hx]
  · intro w
    rw [Pow.zero_iff]
    constructor
    · intro h; exact (WPath.of_noOut (fun a x => hno _ a x) h).2
    · rintro rfl; exact .nil _
  · intro w h
    rw [(WPath.of_noOut (fun a x => hno _ a x) h).2]; exact .nil _

theorem RP.one {eps : A} {g : Nfa A} {q f : Nat} (h : g.Single q f) (he : g.eps = eps) : RP eps g q f 1 g q f :=
  ⟨h, he, fun w => (Pow.one_iff (L := fun w => WPath g.T eps q w f)).symm, fun _ h => h, fun h => h, fun h => h, fun h => h.elim (by omega) (·.2)⟩

theorem RP.step {eps : A} {g0 : Nfa A} {q0 f0 j : Nat} {g : Nfa A} {q f : Nat} (h0 : g0.Single q0 f0)
    (h : RP eps g0 q0 f0 j g q f) {g1 : Nfa A} (hT : g1.T = g.T) (hV : g1.vertices = g.vertices)
    (k1 : Good g1) (he : g1.eps = eps) (hfin : ∀ x, g1.isFinal x = true → x = f) :
    ∃ g' f', concatenation (g1, q, f) (g0, q0, f0) = .ok (g', q, f') ∧ RP eps g0 q0 f0 (j + 1) g' q f' ∧
      (∀ p ∈ g.vertices, p ∈ g'.vertices ∧ ∀ x w, WPath g'.T eps x w p ↔ WPath g.T eps x w p) ∧
      (∀ p w, WPath g'.T eps f' w p → p ∉ g.vertices) ∧ f' ∉ g.vertices ∧
      ((∀ x a, ¬ g.T x a q) → ∀ x a, ¬ g'.T x a q) := by
  have c1 : ∀ x a y, g1.T x a y → x ∈ g1.vertices ∧ y ∈ g1.vertices := by
    rw [hT, hV]; exact h.single.T_closed
  obtain ⟨g', f', a1, a2, a3, a4, a5, a6, a7, a8, a9⟩ := concat_paths k1 c1 (by rw [hV]; exact h.single.q0_mem)
    (by rw [hV]; exact h.single.f_mem) hfin h0 he
  rw [hT] at a4 a5 a7
  rw [hV] at a5 a6 a9
  refine ⟨g', f', a1, ⟨a2, a3, ?_, fun w hw => (a6 _ _ hw).2 rfl, fun hn => a7 (h.noIn hn), a8, fun _ e => a9 (e ▸ h.single.q0_mem)⟩,
    a5, fun p w hw => (a6 p w hw).1, a9, a7⟩
  intro w
  rw [a4, Pow.snoc_iff]
  simp only [h.lang]

theorem repetitionLoop_spec {eps : A} {g0 : Nfa A} {q0 f0 : Nat} (h0 : g0.Single q0 f0) (k : Nat) {j : Nat} {g : Nfa A}
    {q f : Nat} (h : RP eps g0 q0 f0 j g q f) :
    ∃ g' f', repetitionLoop (g0, q0, f0) k (g, q, f) = .ok (g', q, f') ∧ RP eps g0 q0 f0 (j + k) g' q f' := by
  induction k generalizing j g f with
  | zero => exact ⟨g, f, rfl, h⟩
  | succ k ih =>
    obtain ⟨g', f', a1, a2, _⟩ := h.step h0 (g1 := g.setFinal f false) rfl rfl
      ((Good.mk h.single.wf h.single.lt).setFinal f false) h.eps_eq (by
        intro x hx
        rw [isFinal_setFinal] at hx
        by_cases e : f = x
        · exact e.symm
        · rw [if_neg e] at hx; exact (h.single.fin x).1 hx)
    obtain ⟨g'', f'', b1, b2⟩ := ih a2
    refine ⟨g'', f'', ?_, by rw [show j + (k + 1) = j + 1 + k by omega]; exact b2⟩
    rw [repetitionLoop, a1]; exact b1

theorem repetition_spec {eps : A} {g0 : Nfa A} {q0 f0 : Nat} (h0 : g0.Single q0 f0) (he : g0.eps = eps) (m : Nat) :
    ∃ g q f, repetition eps (g0, q0, f0) m = .ok (g, q, f) ∧ RP eps g0 q0 f0 m g q f ∧ (m = 0 → q = 0) ∧ (0 < m → q = q0) := by
  unfold repetition
  by_cases hm : m = 0
  · subst hm
    exact ⟨_, 0, 0, rfl, RP.zero eps g0 q0 f0, fun _ => rfl, by omega⟩
  · rw [if_neg hm]
    by_cases hm1 : m > 1
    · rw [if_pos hm1]
      obtain ⟨g', f', h1, h2⟩ := repetitionLoop_spec h0 (m - 1) (RP.one h0 he)
      exact ⟨g', q0, f', h1, by rw [show 1 + (m - 1) = m by omega] at h2; exact h2, by omega, fun _ => rfl⟩
    · rw [if_neg hm1]
      obtain rfl : m = 1 := by omega
      exact ⟨g0, q0, f0, rfl, RP.one h0 he, by omega, fun _ => rfl⟩

/-- The state of the loop of `repetition_range`. -/
structure RangeInv (eps : A) (g0 : Nfa A) (q0 f0 m k : Nat) (g : Nfa A) (q f : Nat) (fs : List Nat) : Prop where
  rp : RP eps g0 q0 f0 (m + k) g q f
  mem : f ∈ fs
  sound : ∀ p ∈ fs, p ∈ g.vertices ∧ ∃ j, m ≤ j ∧ j ≤ m + k ∧
    ∀ w, WPath g.T eps q w p ↔ Pow (fun w => WPath g0.T eps q0 w f0) j w
  full : ∀ j, m ≤ j → j ≤ m + k → ∃ p ∈ fs, ∀ w, WPath g.T eps q w p ↔ Pow (fun w => WPath g0.T eps q0 w f0) j w
  back : ∀ p ∈ fs, p ≠ f → ∀ w, ¬ WPath g.T eps f w p
  start : (m = 0 ∧ 0 < k ∨ 0 < m) → (m = 0 → q ∈ fs ∧ q ≠ f)
  noIn0 : m = 0 → ∀ x a, ¬ g.T x a q

theorem rangeLoop_spec {eps : A} {g0 : Nfa A} {q0 f0 : Nat} (h0 : g0.Single q0 f0) (k : Nat) {m i : Nat} {g : Nfa A}
    {q f : Nat} {fs : List Nat} (h : RangeInv eps g0 q0 f0 m i g q f fs) (hs : m = 0 → q ∈ fs) :
    ∃ g' f' fs', rangeLoop (g0, q0, f0) k (g, q, f) fs = .ok ((g', q, f'), fs') ∧
      RangeInv eps g0 q0 f0 m (i + k) g' q f' fs' := by
  induction k generalizing i g f fs with
  | zero => exact ⟨g, f, fs, rfl, h⟩
  | succ k ih =>
    obtain ⟨g', f', a1, a2, a3, a4, a5, a6⟩ := h.rp.step h0 (g1 := g) rfl rfl ⟨h.rp.single.wf, h.rp.single.lt⟩ h.rp.eps_eq
      (fun x hx => (h.rp.single.fin x).1 hx)
    have hfs : ∀ p, p ∈ setAdd fs f' ↔ p ∈ fs ∨ p = f' := fun p => mem_setAdd _ _ _
    have hinv : RangeInv eps g0 q0 f0 m (i + 1) g' q f' (setAdd fs f') := by
      refine ⟨a2, (hfs f').2 (.inr rfl), ?_, ?_, ?_, ?_, fun hm => a6 (h.noIn0 hm)⟩
      · intro p hp
        rcases (hfs p).1 hp with hp | rfl
        · obtain ⟨hv, j, hj1, hj2, hw⟩ := h.sound p hp
          refine ⟨(a3 p hv).1, j, hj1, by omega, fun w => ?_⟩
          rw [(a3 p hv).2]; exact hw w
        · exact ⟨a2.single.f_mem, m + i + 1, by omega, by omega, a2.lang⟩
      · intro j hj1 hj2
        by_cases hj : j ≤ m + i
        · obtain ⟨p, hp, hw⟩ := h.full j hj1 hj
          refine ⟨p, (hfs p).2 (.inl hp), fun w => ?_⟩
          rw [(a3 p (h.sound p hp).1).2]; exact hw w
        · obtain rfl : j = m + i + 1 := by omega
          exact ⟨f', (hfs _).2 (.inr rfl), a2.lang⟩
      · intro p hp hne w hw
        rcases (hfs p).1 hp with hp | rfl
        · exact a4 p w hw (h.sound p hp).1
        · exact hne rfl
      · intro _ hm
        exact ⟨(hfs q).2 (.inl (hs hm)), fun e => a5 (e ▸ h.rp.single.q0_mem)⟩
    obtain ⟨g'', f'', fs'', b1, b2⟩ := ih hinv (fun hm => (hfs q).2 (.inl (hs hm)))
    refine ⟨g'', f'', fs'', ?_, by rw [show i + (k + 1) = i + 1 + k by omega]; exact b2⟩
    rw [rangeLoop, a1]; exact b1

theorem rangeFinals_spec {q f : Nat} (fs : List Nat) {g : Nfa A} (h : g.Single q f) (hfs : ∀ p ∈ fs, p ∈ g.vertices) :
    (rangeFinals g f fs).Single q f ∧ (rangeFinals g f fs).eps = g.eps ∧
      ∀ x a y, (rangeFinals g f fs).T x a y ↔ g.T x a y ∨ (x ∈ fs ∧ x ≠ f ∧ a = g.eps ∧ y = f) := by
  induction fs generalizing g with
  | nil => exact ⟨h, rfl, fun x a y => by simp [rangeFinals]⟩
  | cons p fs ih =>
    by_cases hp : p ≠ f
    · have hpv := hfs p (by simp)
      obtain ⟨h1, h2, h3⟩ := ih (g := (g.addEdge p f g.eps).2) (single_addEdge h hpv h.f_mem _)
        (fun x hx => by rw [mem_vertices_addEdge]; exact .inl (hfs x (by simp [hx])))
      have e : rangeFinals g f (p :: fs) = rangeFinals (g.addEdge p f g.eps).2 f fs := by
        unfold rangeFinals; rw [List.foldl_cons, if_pos hp]
      rw [e]
      refine ⟨h1, h2, fun x a y => ?_⟩
      rw [h3, T_addEdge, eps_addEdge, List.mem_cons]
      constructor
      · rintro ((h | ⟨rfl, rfl, rfl⟩) | ⟨h, h'⟩)
        · exact .inl h
        · exact .inr ⟨.inl rfl, hp, rfl, rfl⟩
        · exact .inr ⟨.inr h, h'⟩
      · rintro (h | ⟨rfl | h, h'⟩)
        · exact .inl (.inl h)
        · exact .inl (.inr ⟨rfl, h'.2.1, h'.2.2⟩)
        · exact .inr ⟨h, h'⟩
    · obtain ⟨h1, h2, h3⟩ := ih h (fun x hx => hfs x (by simp [hx]))
      have e : rangeFinals g f (p :: fs) = rangeFinals g f fs := by
        unfold rangeFinals; rw [List.foldl_cons, if_neg hp]
      rw [e]
      refine ⟨h1, h2, fun x a y => ?_⟩
      rw [h3, List.mem_cons]
      have : p = f := by simpa using hp
      constructor
      · rintro (h | ⟨h, h'⟩)
        · exact .inl h
        · exact .inr ⟨.inr h, h'⟩
      · rintro (h | ⟨rfl | h, h'⟩)
        · exact .inl h
        · exact absurd this h'.1
        · exact .inr ⟨h, h'⟩

/-- The language once the intermediate states have been linked to the last one. -/
theorem range_lang {eps : A} {g0 : Nfa A} {q0 f0 m k : Nat} {g : Nfa A} {q f : Nat} {fs : List Nat}
    (h : RangeInv eps g0 q0 f0 m k g q f fs)
    (hloop : m = 0 → 1 ≤ m + k → ∀ w, WPath g0.T eps f0 w f0 → w = [] ∨ WPath g0.T eps q0 w f0) (w : List A) :
    WPath (rangeFinals g f fs).T eps q w f ↔
      ∃ j, m ≤ j ∧ j ≤ m + k ∧ Pow (fun w => WPath g0.T eps q0 w f0) j w := by
  obtain ⟨_, _, hT⟩ := rangeFinals_spec fs h.rp.single (fun p hp => (h.sound p hp).1)
  rw [h.rp.eps_eq] at hT
  constructor
  · intro hw
    have := WPath.forward (fun x w => WPath g.T eps q w x ∨ ∃ j u v, m ≤ j ∧ j ≤ m + k ∧ w = u ++ v ∧
      Pow (fun w => WPath g0.T eps q0 w f0) j u ∧ WPath g.T eps f v x) (.inl (.nil _)) ?_ ?_ hw
    · rcases this with h1 | ⟨j, u, v, hj1, hj2, rfl, hu, hv⟩
      · exact ⟨m + k, by omega, by omega, (h.rp.lang w).1 h1⟩
      · have hl := h.rp.loop v hv
        cases j with
        | zero =>
          rw [Pow.zero_iff] at hu; subst hu
          by_cases hk : 1 ≤ m + k
          · rcases hloop (by omega) hk v hl with rfl | h1
            · exact ⟨0, hj1, hj2, Pow.zero_iff.2 rfl⟩
            · exact ⟨1, by omega, hk, Pow.one_iff.2 h1⟩
          · have := (h.rp.lang v).1
            obtain ⟨rfl, rfl⟩ : m = 0 ∧ k = 0 := by omega
            have h2 := (h.rp.lang v).1 (by
              have hz : WPath g.T eps q [] f := (h.rp.lang []).2 (Pow.zero_iff.2 rfl)
              exact hz.append hv)
            exact ⟨0, by omega, by omega, h2⟩
        | succ j =>
          rw [Pow.snoc_iff] at hu
          obtain ⟨u1, u2, rfl, hu1, hu2⟩ := hu
          refine ⟨j + 1, hj1, hj2, Pow.snoc_iff.2 ⟨u1, u2 ++ v, by simp, hu1, hu2.append hl⟩⟩
    · intro x y w hR hxy
      rcases (hT _ _ _).1 hxy with hxy | ⟨hx, hxf, _, rfl⟩
      · rcases hR with h1 | ⟨j, u, v, hj1, hj2, rfl, hu, hv⟩
        · exact .inl (by simpa using h1.append (WPath.epsStep hxy))
        · exact .inr ⟨j, u, v, hj1, hj2, rfl, hu, by simpa using hv.append (WPath.epsStep hxy)⟩
      · rcases hR with h1 | ⟨j, u, v, hj1, hj2, rfl, hu, hv⟩
        · obtain ⟨_, j, hj1, hj2, hj⟩ := h.sound x hx
          exact .inr ⟨j, w, [], hj1, hj2, by simp, (hj w).1 h1, .nil _⟩
        · exact absurd hv (h.back x hx hxf v)
    · intro x a y w hR hne hxy
      rcases (hT _ _ _).1 hxy with hxy | ⟨_, _, e, _⟩
      · rcases hR with h1 | ⟨j, u, v, hj1, hj2, rfl, hu, hv⟩
        · exact .inl (h1.append (WPath.symStep hne hxy))
        · exact .inr ⟨j, u, v ++ [a], hj1, hj2, by simp, hu, hv.append (WPath.symStep hne hxy)⟩
      · exact absurd e hne
  · rintro ⟨j, hj1, hj2, hj⟩
    obtain ⟨p, hp, hw⟩ := h.full j hj1 hj2
    have h1 : WPath (rangeFinals g f fs).T eps q w p := ((hw w).2 hj).mono (fun x a y h => (hT _ _ _).2 (.inl h))
    by_cases e : p = f
    · exact e ▸ h1
    · simpa using h1.append (WPath.epsStep ((hT p eps f).2 (.inr ⟨hp, e, rfl, rfl⟩)))

end Nfa
end PyBGL
