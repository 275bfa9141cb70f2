import Verif.Proofs.ThompsonEnds
import Verif.Proofs.ThompsonSize

/-!
# Ranges from zero when the initial state is not the vertex 0

`repetition_range` keeps the initial state of the given automaton, whereas `repetition(…, 0)` builds a new automaton
with the only vertex 0: the initial state is then the image of another vertex in the first copy.
-/

namespace PyBGL
namespace Nfa
open Thompson
variable {A : Type} [DecidableEq A]

/-- The words read in the loop of `repetition_range` after `k` further copies. -/
def ShiftPow (P L : List A → Prop) (k : Nat) (w : List A) : Prop := ∃ u v, w = u ++ v ∧ P u ∧ Pow L k v

theorem ShiftPow.zero_iff {P L : List A → Prop} {w : List A} : ShiftPow P L 0 w ↔ P w := by
  constructor
  · rintro ⟨u, v, rfl, hu, hv⟩
    rw [Pow.zero_iff] at hv; subst hv; simpa using hu
  · intro h; exact ⟨w, [], by simp, h, Pow.zero_iff.2 rfl⟩

theorem ShiftPow.snoc_iff {P L : List A → Prop} {k : Nat} {w : List A} :
    ShiftPow P L (k + 1) w ↔ ∃ u v, w = u ++ v ∧ ShiftPow P L k u ∧ L v := by
  constructor
  · rintro ⟨u, v, rfl, hu, hv⟩
    rw [Pow.snoc_iff] at hv
    obtain ⟨v1, v2, rfl, h1, h2⟩ := hv
    exact ⟨u ++ v1, v2, by simp, ⟨u, v1, rfl, hu, h1⟩, h2⟩
  · rintro ⟨_, v2, rfl, ⟨u, v1, rfl, hu, h1⟩, h2⟩
    exact ⟨u, v1 ++ v2, by simp, hu, Pow.snoc_iff.2 ⟨v1, v2, rfl, h1, h2⟩⟩

/-- The state of the loop of `repetition_range`, `q` being the initial state, after the first copy. -/
structure ShiftInv (eps : A) (g0 : Nfa A) (p0 q0 f0 k : Nat) (g : Nfa A) (q f : Nat) (fs : List Nat) : Prop where
  single : g.Single q f
  eps_eq : g.eps = eps
  mem : f ∈ fs
  lang : ∀ w, WPath g.T eps q w f ↔ ShiftPow (fun w => WPath g0.T eps p0 w f0) (fun w => WPath g0.T eps q0 w f0) k w
  loop : ∀ w, WPath g.T eps f w f → WPath g0.T eps f0 w f0
  sound : ∀ p ∈ fs, p ∈ g.vertices ∧ ((∀ w, ¬ WPath g.T eps q w p) ∨ ∃ j ≤ k,
    ∀ w, WPath g.T eps q w p ↔ ShiftPow (fun w => WPath g0.T eps p0 w f0) (fun w => WPath g0.T eps q0 w f0) j w)
  full : ∀ j ≤ k, ∃ p ∈ fs,
    ∀ w, WPath g.T eps q w p ↔ ShiftPow (fun w => WPath g0.T eps p0 w f0) (fun w => WPath g0.T eps q0 w f0) j w
  back : ∀ p ∈ fs, p ≠ f → ∀ w, ¬ WPath g.T eps f w p

theorem ShiftInv.rangeLoop {eps : A} {g0 : Nfa A} {p0 q0 f0 : Nat} (h0 : g0.Single q0 f0) (k : Nat) {i : Nat} {g : Nfa A}
    {q f : Nat} {fs : List Nat} (h : ShiftInv eps g0 p0 q0 f0 i g q f fs) :
    ∃ g' f' fs', rangeLoop (g0, q0, f0) k (g, q, f) fs = .ok ((g', q, f'), fs') ∧ ShiftInv eps g0 p0 q0 f0 (i + k) g' q f' fs' := by
  induction k generalizing i g f fs with
  | zero => exact ⟨g, f, fs, rfl, h⟩
  | succ k ih =>
    obtain ⟨g', f', a1, a2, a3, a4, a5, a6, -, -, a9⟩ := concat_paths ⟨h.single.wf, h.single.lt⟩ h.single.T_closed h.single.q0_mem
      h.single.f_mem (fun x hx => (h.single.fin x).1 hx) h0 h.eps_eq
    have hfs : ∀ p, p ∈ setAdd fs f' ↔ p ∈ fs ∨ p = f' := fun p => mem_setAdd _ _ _
    have hl : ∀ w, WPath g'.T eps q w f' ↔
        ShiftPow (fun w => WPath g0.T eps p0 w f0) (fun w => WPath g0.T eps q0 w f0) (i + 1) w := by
      intro w; rw [a4, ShiftPow.snoc_iff]; simp only [h.lang]
    have hinv : ShiftInv eps g0 p0 q0 f0 (i + 1) g' q f' (setAdd fs f') := by
      refine ⟨a2, a3, (hfs f').2 (.inr rfl), hl, fun w hw => (a6 _ _ hw).2 rfl, ?_, ?_, ?_⟩
      · intro p hp
        rcases (hfs p).1 hp with hp | rfl
        · obtain ⟨hv, hj⟩ := h.sound p hp
          refine ⟨(a5 p hv).1, ?_⟩
          simp only [(a5 p hv).2]
          exact hj.imp id fun ⟨j, hj, hw⟩ => ⟨j, by omega, hw⟩
        · exact ⟨a2.f_mem, .inr ⟨i + 1, le_refl _, hl⟩⟩
      · intro j hj
        by_cases hj' : j ≤ i
        · obtain ⟨p, hp, hw⟩ := h.full j hj'
          refine ⟨p, (hfs p).2 (.inl hp), fun w => ?_⟩
          rw [(a5 p (h.sound p hp).1).2]; exact hw w
        · obtain rfl : j = i + 1 := by omega
          exact ⟨f', (hfs _).2 (.inr rfl), hl⟩
      · intro p hp hne w hw
        rcases (hfs p).1 hp with hp | rfl
        · exact (a6 p w hw).1 (h.sound p hp).1
        · exact hne rfl
    obtain ⟨g'', f'', fs'', b1, b2⟩ := ih hinv
    refine ⟨g'', f'', fs'', ?_, by rw [show i + (k + 1) = i + 1 + k by omega]; exact b2⟩
    rw [Thompson.rangeLoop, a1]; exact b1

/-- The language once the intermediate states have been linked to the last one. -/
theorem ShiftInv.lang_finals {eps : A} {g0 : Nfa A} {p0 q0 f0 k : Nat} {g : Nfa A} {q f : Nat} {fs : List Nat}
    (h : ShiftInv eps g0 p0 q0 f0 k g q f fs) (w : List A) :
    WPath (rangeFinals g f fs).T eps q w f ↔
      ∃ j ≤ k, ShiftPow (fun w => WPath g0.T eps p0 w f0) (fun w => WPath g0.T eps q0 w f0) j w := by
  obtain ⟨_, _, hT⟩ := rangeFinals_spec fs h.single (fun p hp => (h.sound p hp).1)
  rw [h.eps_eq] at hT
  constructor
  · intro hw
    have := WPath.forward (fun x w => WPath g.T eps q w x ∨ ∃ j u v, j ≤ k ∧ w = u ++ v ∧
      ShiftPow (fun w => WPath g0.T eps p0 w f0) (fun w => WPath g0.T eps q0 w f0) j u ∧ WPath g.T eps f v x) (.inl (.nil _)) ?_ ?_ hw
    · rcases this with h1 | ⟨j, u, v, hj, rfl, hu, hv⟩
      · exact ⟨k, le_refl _, (h.lang w).1 h1⟩
      · refine ⟨j, hj, ?_⟩
        have hl := h.loop v hv
        cases j with
        | zero =>
          rw [ShiftPow.zero_iff] at hu ⊢
          exact hu.append hl
        | succ j =>
          rw [ShiftPow.snoc_iff] at hu ⊢
          obtain ⟨u1, u2, rfl, hu1, hu2⟩ := hu
          exact ⟨u1, u2 ++ v, by simp, hu1, hu2.append hl⟩
    · intro x y w hR hxy
      rcases (hT _ _ _).1 hxy with hxy | ⟨hx, hxf, _, rfl⟩
      · rcases hR with h1 | ⟨j, u, v, hj, rfl, hu, hv⟩
        · exact .inl (by simpa using h1.append (WPath.epsStep hxy))
        · exact .inr ⟨j, u, v, hj, rfl, hu, by simpa using hv.append (WPath.epsStep hxy)⟩
      · rcases hR with h1 | ⟨j, u, v, hj, rfl, hu, hv⟩
        · rcases (h.sound x hx).2 with hno | ⟨j, hj, hw⟩
          · exact absurd h1 (hno w)
          · exact .inr ⟨j, w, [], hj, by simp, (hw w).1 h1, .nil _⟩
        · exact absurd hv (h.back x hx hxf v)
    · intro x a y w hR hne hxy
      rcases (hT _ _ _).1 hxy with hxy | ⟨_, _, e, _⟩
      · rcases hR with h1 | ⟨j, u, v, hj, rfl, hu, hv⟩
        · exact .inl (h1.append (WPath.symStep hne hxy))
        · exact .inr ⟨j, u, v ++ [a], hj, by simp, hu, hv.append (WPath.symStep hne hxy)⟩
      · exact absurd e hne
  · rintro ⟨j, hj, hj'⟩
    obtain ⟨p, hp, hw⟩ := h.full j hj
    have h1 : WPath (rangeFinals g f fs).T eps q w p := ((hw w).2 hj').mono (fun x a y h => (hT _ _ _).2 (.inl h))
    by_cases e : p = f
    · exact e ▸ h1
    · simpa using h1.append (WPath.epsStep ((hT p eps f).2 (.inr ⟨hp, e, rfl, rfl⟩)))

/-- The first copy of the automaton, added to the one-vertex automaton. -/
theorem ShiftInv.first {eps : A} {g0 : Nfa A} {p0 f0 N : Nat} (h0 : g0.Single (p0 + 1) f0) (hd : Dense N g0) :
    ∃ g f, concatenation ((Nfa.init eps [] 1).setFinal 0, p0 + 1, 0) (g0, p0 + 1, f0) = .ok (g, p0 + 1, f) ∧
      ShiftInv eps g0 p0 (p0 + 1) f0 0 g (p0 + 1) f (setAdd [0] f) := by
  have r := RP.zero eps g0 (p0 + 1) f0
  obtain ⟨-, -, -, -, h5, -⟩ := good_init eps [] 1
  have hno : ∀ x a y, ¬ ((Nfa.init eps [] 1).setFinal 0).T x a y := h5
  obtain ⟨g, ρ, a1, a2, a3, a4, a5, a6, a7, gi, m, hi, hm⟩ := concatenation_spec' (q1 := p0 + 1) r.single.wf r.single.lt r.single.T_closed
    r.single.f_mem (fun x hx => (r.single.fin x).1 hx) h0
  have hmem : ∀ y, y ∈ g0.vertices ↔ y < N := fun y => by rw [hd.1]; simp
  have hρ : ∀ y ∈ g0.vertices, ρ y = 1 + y := by
    intro y hy
    have := (insertAutomaton_dense ((dense_init eps [] 1).setFinal 0 true) hd (gi, m) hi).2 y
    rw [if_pos ((hmem y).1 hy), hm y hy] at this
    exact Option.some.inj this
  have hp : p0 ∈ g0.vertices := (hmem _).2 (by have := (hmem _).1 h0.q0_mem; omega)
  have hpρ : p0 + 1 = ρ p0 := by rw [hρ p0 hp]; omega
  rw [r.eps_eq] at a3 a6
  have hs := a2 (.inr ⟨p0, hp, hpρ⟩)
  have c2 : ∀ x a y, TImage ρ g0.T x a y → (∃ z ∈ g0.vertices, x = ρ z) ∧ ∃ z ∈ g0.vertices, y = ρ z := by
    rintro x a y ⟨x', y', h, rfl, rfl⟩
    have := h0.T_closed _ _ _ h
    exact ⟨⟨x', this.1, rfl⟩, ⟨y', this.2, rfl⟩⟩
  have hdj : ∀ x, x ∈ ((Nfa.init eps [] 1).setFinal 0).vertices → ¬ ∃ z ∈ g0.vertices, x = ρ z := by
    rintro x hx ⟨z, hz, rfl⟩; exact a4 z hz hx
  have him : ∀ x y w, x ∈ g0.vertices → y ∈ g0.vertices → (WPath g.T eps (ρ x) w (ρ y) ↔ WPath g0.T eps x w y) := by
    intro x y w hx hy
    rw [← WPath.image_iff (V := (· ∈ g0.vertices)) h0.T_closed (fun x y => a5 x y) hx hy, a6]
    constructor
    · intro h; exact (cat_right r.single.T_closed c2 hdj r.single.f_mem ⟨x, hx, rfl⟩ h).2
    · intro h; exact h.mono (fun x a y h => .inr (.inl h))
  have hz : ∀ x w, x ∈ g0.vertices → ¬ WPath g.T eps (ρ x) w 0 := by
    intro x w hx h
    rw [a6] at h
    exact hdj 0 r.single.f_mem (cat_right r.single.T_closed c2 hdj r.single.f_mem ⟨x, hx, rfl⟩ h).1
  have hl : ∀ w, WPath g.T eps (p0 + 1) w (ρ f0) ↔
      ShiftPow (fun w => WPath g0.T eps p0 w f0) (fun w => WPath g0.T eps (p0 + 1) w f0) 0 w := by
    intro w; rw [ShiftPow.zero_iff, hpρ]; exact him p0 f0 w hp h0.f_mem
  have hfs : ∀ p, p ∈ setAdd [0] (ρ f0) ↔ p ∈ [0] ∨ p = ρ f0 := fun p => mem_setAdd _ _ _
  refine ⟨g, ρ f0, a1, hs, a3, (hfs _).2 (.inr rfl), hl, fun w => (him f0 f0 w h0.f_mem h0.f_mem).1, ?_, ?_, ?_⟩
  · intro p hp'
    rcases (hfs p).1 hp' with hp' | rfl
    · obtain rfl : p = 0 := by simpa using hp'
      refine ⟨(a7 0).2 (.inl r.single.f_mem), .inl fun w => ?_⟩
      rw [hpρ]; exact hz p0 w hp
    · exact ⟨hs.f_mem, .inr ⟨0, le_refl _, hl⟩⟩
  · intro j hj
    obtain rfl : j = 0 := by omega
    exact ⟨ρ f0, (hfs _).2 (.inr rfl), hl⟩
  · intro p hp' hne w
    rcases (hfs p).1 hp' with hp' | rfl
    · obtain rfl : p = 0 := by simpa using hp'
      exact hz f0 w h0.f_mem
    · exact absurd rfl hne

/-- `repetition_range(…, 0, n)`, `2 ≤ n`, for an automaton whose initial state is not the vertex 0. -/
theorem shift_range {eps : A} {g0 : Nfa A} {p0 f0 N n : Nat} (h0 : g0.Single (p0 + 1) f0) (hd : Dense N g0) (hn : 2 ≤ n) :
    ∃ g f, repetitionRange eps (g0, p0 + 1, f0) 0 (some n) = .ok (g, p0 + 1, f) ∧ g.Single (p0 + 1) f ∧ g.eps = eps ∧
      ∀ w, WPath g.T eps (p0 + 1) w f ↔
        ∃ j ≤ n - 1, ShiftPow (fun w => WPath g0.T eps p0 w f0) (fun w => WPath g0.T eps (p0 + 1) w f0) j w := by
  obtain ⟨g1, f1, a1, a2⟩ := ShiftInv.first (eps := eps) h0 hd
  obtain ⟨g, f, fs, b1, b2⟩ := a2.rangeLoop h0 (n - 1)
  rw [Nat.zero_add] at b2
  obtain ⟨c1, c2, -⟩ := rangeFinals_spec fs b2.single (fun p hp => (b2.sound p hp).1)
  refine ⟨rangeFinals g f fs, f, ?_, c1, c2.trans b2.eps_eq, b2.lang_finals⟩
  obtain ⟨k, rfl⟩ : ∃ k, n = k + 1 := ⟨n - 1, by omega⟩
  simp only [repetitionRange]
  rw [if_neg (by omega), if_neg (by omega)]
  simp only [repetition, if_true, bind, Except.bind, Nat.sub_zero]
  rw [Thompson.rangeLoop, a1]
  simp only [Nat.add_sub_cancel] at b1
  simp only [bind, Except.bind, b1]

/-- In an alternation, the vertex before the initial state is the final state of the second automaton. -/
theorem shift_alt {eps : A} {x1 x2 : Frag A} {P R : Ends A} {n1 n2 : Nat} (h1 : FrE eps x1 P) (h2 : FrE eps x2 R)
    (s1 : Sized n1 x1) (s2 : Sized n2 x2) :
    ∃ g q f, alternation x1 x2 = .ok (g, q + 1, f) ∧ Dense (n1 + n2 + 2) g ∧ ∀ w, WPath g.T eps q w f ↔ R true true w := by
  obtain ⟨x, -, -⟩ := fr_alt h1.fr h2.fr
  obtain ⟨g1, q1, f1⟩ := x1
  obtain ⟨g2, q2, f2⟩ := x2
  obtain ⟨g, q, f, ρ, a1, a2, a3, hfr, hinj, hq, hf, hqf, hT, gi, m, hi, hql, hm⟩ := alternation_spec' h1.single h2.single
  have hins := insertAutomaton_dense s1.1 s2.1 _ hi
  have hf2 : f2 + 1 = n2 := s2.2.2
  have hρ : ρ f2 = n1 + f2 := by
    have := hins.2 f2
    rw [if_pos (by omega), hm f2 h2.single.f_mem] at this
    exact Option.some.inj this
  have hq' : q = ρ f2 + 1 := by
    rw [hql, hins.1.2, hρ]; omega
  have hfm := h2.single.f_mem
  have t1 := h1.single.T_closed
  have t2 := h2.single.T_closed
  have m1 := h1.single.f_mem
  rw [show g1.eps = eps from h1.eps_eq] at hT
  subst hq'
  refine ⟨g, ρ f2, f, a1, (alternation_sized s1 s2 _ a1).1, fun w => ?_⟩
  have him := WPath.image_iff (eps := eps) (ρ := ρ) (V := (· ∈ g2.vertices)) t2 (fun x y => hinj x y) (w := w) hfm hfm
  refine Iff.trans ?_ (him.trans (h2.paths true true w))
  have hkey : ∀ x a y, g.T x a y → (∃ z ∈ g2.vertices, x = ρ z) → TImage ρ g2.T x a y ∨ (a = eps ∧ x = ρ f2 ∧ y = f) := by
    rintro x a y h ⟨z, hz, rfl⟩
    rw [hT] at h
    rcases h with h | h | ⟨e, ⟨e1, e2⟩ | ⟨e1, e2⟩ | ⟨e1, e2⟩ | ⟨e1, e2⟩⟩
    · exact absurd (t1 _ _ _ h).1 (hfr z hz)
    · exact .inl h
    · exact absurd ⟨z, hz, e1.symm⟩ hq.2
    · exact absurd ⟨z, hz, e1.symm⟩ hq.2
    · exact absurd (e1 ▸ m1) (hfr z hz)
    · exact .inr ⟨e, e1, e2⟩
  have hout : ∀ a y, ¬ g.T f a y := by
    intro a y h
    rw [hT] at h
    rcases h with h | ⟨x', y', h, e, -⟩ | ⟨e, ⟨e1, e2⟩ | ⟨e1, e2⟩ | ⟨e1, e2⟩ | ⟨e1, e2⟩⟩
    · exact hf.1 (t1 _ _ _ h).1
    · exact hf.2 ⟨x', (t2 _ _ _ h).1, e⟩
    · exact hqf e1.symm
    · exact hqf e1.symm
    · exact hf.1 (e1 ▸ m1)
    · exact hf.2 ⟨f2, hfm, e1⟩
  constructor
  · intro h
    have := WPath.forward (fun x w => ((∃ z ∈ g2.vertices, x = ρ z) ∧ WPath (TImage ρ g2.T) eps (ρ f2) w x) ∨
      (x = f ∧ WPath (TImage ρ g2.T) eps (ρ f2) w (ρ f2))) (.inl ⟨⟨f2, hfm, rfl⟩, .nil _⟩) ?_ ?_ h
    · rcases this with ⟨⟨z, hz, e⟩, -⟩ | ⟨-, h⟩
      · exact absurd ⟨z, hz, e⟩ hf.2
      · exact h
    · rintro x y w (⟨hx, hp⟩ | ⟨rfl, -⟩) hxy
      · rcases hkey _ _ _ hxy hx with h | ⟨-, rfl, rfl⟩
        · refine .inl ⟨?_, by simpa using hp.append (WPath.epsStep h)⟩
          obtain ⟨x', y', h, -, rfl⟩ := h
          exact ⟨y', (t2 _ _ _ h).2, rfl⟩
        · exact .inr ⟨rfl, hp⟩
      · exact absurd hxy (hout _ _)
    · rintro x a y w (⟨hx, hp⟩ | ⟨rfl, -⟩) hne hxy
      · rcases hkey _ _ _ hxy hx with h | ⟨e, -⟩
        · refine .inl ⟨?_, hp.append (WPath.symStep hne h)⟩
          obtain ⟨x', y', h, -, rfl⟩ := h
          exact ⟨y', (t2 _ _ _ h).2, rfl⟩
        · exact absurd e hne
      · exact absurd hxy (hout _ _)
  · intro h
    have h' : WPath g.T eps (ρ f2) w (ρ f2) := h.mono (fun x a y h => by rw [hT]; exact .inr (.inl h))
    have : g.T (ρ f2) eps f := by rw [hT]; exact .inr (.inr ⟨rfl, .inr (.inr (.inr ⟨rfl, rfl⟩))⟩)
    simpa using h'.append (WPath.epsStep this)

/-- In a star or a plus, the vertex before the initial state is the final state of the repeated automaton. -/
theorem shift_iter {eps : A} {T T' : Nat → A → Nat → Prop} {V : Nat → Prop} {q0 f0 nq nf : Nat} (hV : ∀ x a y, T x a y → V x ∧ V y)
    (hq0 : V q0) (hf0 : V f0) (hnq : ¬ V nq) (hnf : ¬ V nf) (l1 : ∀ x a y, TPlus eps T q0 f0 nq nf x a y → T' x a y)
    (l2 : ∀ x a y, T' x a y → TStar eps T q0 f0 nq nf x a y) (w : List A) :
    WPath T' eps f0 w nf ↔ ∃ u v, w = u ++ v ∧ WPath T eps f0 u f0 ∧ ∃ k, Pow (fun w => WPath T eps q0 w f0) k v := by
  constructor
  · intro h
    have := WPath.forward (fun x w => (V x ∧ WPath T eps f0 w x) ∨
      (V x ∧ ∃ u v t k, w = u ++ v ++ t ∧ WPath T eps f0 u f0 ∧ Pow (fun w => WPath T eps q0 w f0) k v ∧ WPath T eps q0 t x) ∨
      ((x = nq ∨ x = nf) ∧ ∃ u v k, w = u ++ v ∧ WPath T eps f0 u f0 ∧ Pow (fun w => WPath T eps q0 w f0) k v)) (.inl ⟨hf0, .nil _⟩) ?_ ?_ h
    · rcases this with ⟨h, -⟩ | ⟨h, -⟩ | ⟨-, u, v, k, rfl, hu, hv⟩
      · exact absurd h hnf
      · exact absurd h hnf
      · exact ⟨u, v, rfl, hu, k, hv⟩
    · rintro x y w hR hxy
      rcases l2 _ _ _ hxy with hxy | ⟨-, hxy⟩
      · have hv := hV _ _ _ hxy
        rcases hR with ⟨-, h⟩ | ⟨-, u, v, t, k, rfl, h1, h2, h3⟩ | ⟨rfl | rfl, -⟩
        · exact .inl ⟨hv.2, by simpa using h.append (WPath.epsStep hxy)⟩
        · exact .inr (.inl ⟨hv.2, u, v, t, k, rfl, h1, h2, by simpa using h3.append (WPath.epsStep hxy)⟩)
        · exact absurd hv.1 hnq
        · exact absurd hv.1 hnf
      · have hout : (x = nq ∨ x = nf) → ∃ u v k, w = u ++ v ∧ WPath T eps f0 u f0 ∧ Pow (fun w => WPath T eps q0 w f0) k v := by
          intro hx
          rcases hR with ⟨hv, -⟩ | ⟨hv, -⟩ | ⟨-, h⟩
          · rcases hx with rfl | rfl
            · exact absurd hv hnq
            · exact absurd hv hnf
          · rcases hx with rfl | rfl
            · exact absurd hv hnq
            · exact absurd hv hnf
          · exact h
        rcases hxy with ⟨rfl, rfl⟩ | ⟨rfl, rfl⟩ | ⟨rfl, rfl⟩ | ⟨rfl, rfl⟩
        · obtain ⟨u, v, k, rfl, hu, hv⟩ := hout (.inl rfl)
          exact .inr (.inl ⟨hq0, u, v, [], k, by simp, hu, hv, .nil _⟩)
        · refine .inr (.inr ⟨.inr rfl, ?_⟩)
          rcases hR with ⟨-, h⟩ | ⟨-, u, v, t, k, rfl, h1, h2, h3⟩ | ⟨rfl | rfl, -⟩
          · exact ⟨w, [], 0, by simp, h, Pow.zero_iff.2 rfl⟩
          · exact ⟨u, v ++ t, k + 1, by simp, h1, Pow.snoc_iff.2 ⟨v, t, rfl, h2, h3⟩⟩
          · exact absurd hf0 hnq
          · exact absurd hf0 hnf
        · exact .inr (.inr ⟨.inr rfl, hout (.inl rfl)⟩)
        · exact .inr (.inr ⟨.inl rfl, hout (.inr rfl)⟩)
    · rintro x a y w hR hne hxy
      rcases l2 _ _ _ hxy with hxy | ⟨e, -⟩
      · have hv := hV _ _ _ hxy
        rcases hR with ⟨-, h⟩ | ⟨-, u, v, t, k, rfl, h1, h2, h3⟩ | ⟨rfl | rfl, -⟩
        · exact .inl ⟨hv.2, h.append (WPath.symStep hne hxy)⟩
        · exact .inr (.inl ⟨hv.2, u, v, t ++ [a], k, by simp, h1, h2, h3.append (WPath.symStep hne hxy)⟩)
        · exact absurd hv.1 hnq
        · exact absurd hv.1 hnf
      · exact absurd e hne
  · rintro ⟨u, v, rfl, hu, k, hv⟩
    have hm : ∀ {x w y}, WPath T eps x w y → WPath T' eps x w y := fun h => h.mono (fun x a y h => l1 _ _ _ (.inl h))
    have e1 : T' f0 eps nf := l1 _ _ _ (.inr ⟨rfl, .inr (.inl ⟨rfl, rfl⟩)⟩)
    have e2 : T' nf eps nq := l1 _ _ _ (.inr ⟨rfl, .inr (.inr ⟨rfl, rfl⟩)⟩)
    have e3 : T' nq eps q0 := l1 _ _ _ (.inr ⟨rfl, .inl ⟨rfl, rfl⟩⟩)
    refine ((hm hu).snocEps e1).append ?_
    induction k generalizing v with
    | zero => rw [Pow.zero_iff] at hv; subst hv; exact .nil _
    | succ k ih =>
      obtain ⟨v1, v2, rfl, h1, h2⟩ := Pow.snoc_iff.1 hv
      exact (ih v1 h1).append ((((hm h2).snocEps e1).consEps e3).consEps e2)

theorem shift_star {eps : A} {x : Frag A} {P : Ends A} {n : Nat} (h : FrE eps x P) (hs : Sized n x) :
    ∃ g q f, zeroOrMore x = (g, q + 1, f) ∧ Dense (n + 2) g ∧
      ∀ w, WPath g.T eps q w f ↔ ∃ u v, w = u ++ v ∧ P true true u ∧ ∃ k, Pow (P false true) k v := by
  obtain ⟨g, q, f⟩ := x
  have s : g.Single q f := h.single
  obtain ⟨g', e, b2, b3, b4⟩ := zeroOrMore_spec s
  rw [show g.eps = eps from h.eps_eq] at b3 b4
  have hl : g.lastVertexId = f + 1 := by
    have h1 : g.lastVertexId = n := hs.1.2
    have h2 : f + 1 = n := hs.2.2
    omega
  refine ⟨g', f, g.lastVertexId + 1, by rw [e, hl], by have := (zeroOrMore_sized hs).1; rw [e] at this; exact this, fun w => ?_⟩
  have := shift_iter (eps := eps) (T := g.T) (T' := g'.T) (V := (· ∈ g.vertices)) (q0 := q) (f0 := f) (nq := g.lastVertexId) (nf := g.lastVertexId + 1)
    s.T_closed s.q0_mem s.f_mem (fun h => absurd (s.lt _ h) (by omega)) (fun h => absurd (s.lt _ h) (by omega))
    (by rw [b4]; rintro x a y (h | ⟨h, h1 | h1 | h1⟩)
        · exact .inl h
        · exact .inr ⟨h, .inl h1⟩
        · exact .inr ⟨h, .inr (.inl h1)⟩
        · exact .inr ⟨h, .inr (.inr (.inr h1))⟩) (by rw [b4]; exact fun x a y h => h) w
  rw [this]
  have p1 := h.paths true true
  have p2 := h.paths false true
  simp only [corner] at p1 p2
  simp only [p1, Pow.congr p2]

theorem shift_plus {eps : A} {x : Frag A} {P : Ends A} {n : Nat} (h : FrE eps x P) (hs : Sized n x) :
    ∃ g q f, oneOrMore x = (g, q + 1, f) ∧ Dense (n + 2) g ∧
      ∀ w, WPath g.T eps q w f ↔ ∃ u v, w = u ++ v ∧ P true true u ∧ ∃ k, Pow (P false true) k v := by
  obtain ⟨g, q, f⟩ := x
  have s : g.Single q f := h.single
  obtain ⟨g', e, b2, b3, b4⟩ := oneOrMore_spec s
  rw [show g.eps = eps from h.eps_eq] at b3 b4
  have hl : g.lastVertexId = f + 1 := by
    have h1 : g.lastVertexId = n := hs.1.2
    have h2 : f + 1 = n := hs.2.2
    omega
  refine ⟨g', f, g.lastVertexId + 1, by rw [e, hl], by have := (oneOrMore_sized hs).1; rw [e] at this; exact this, fun w => ?_⟩
  have := shift_iter (eps := eps) (T := g.T) (T' := g'.T) (V := (· ∈ g.vertices)) (q0 := q) (f0 := f) (nq := g.lastVertexId) (nf := g.lastVertexId + 1)
    s.T_closed s.q0_mem s.f_mem (fun h => absurd (s.lt _ h) (by omega)) (fun h => absurd (s.lt _ h) (by omega))
    (by rw [b4]; exact fun x a y h => h)
    (by rw [b4]; rintro x a y (h | ⟨h, h1 | h1 | h1⟩)
        · exact .inl h
        · exact .inr ⟨h, .inl h1⟩
        · exact .inr ⟨h, .inr (.inl h1)⟩
        · exact .inr ⟨h, .inr (.inr (.inr h1))⟩) w
  rw [this]
  have p1 := h.paths true true
  have p2 := h.paths false true
  simp only [corner] at p1 p2
  simp only [p1, Pow.congr p2]

end Nfa
end PyBGL
