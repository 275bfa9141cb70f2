import Verif.Proofs.ThompsonRep

/-!
# Evaluating a postfix regular expression
-/

namespace PyBGL
variable {A : Type} [DecidableEq A]
namespace Nfa
open Thompson

/-- No transition enters the initial state, which is not final. -/
def CS (x : Frag A) : Prop := (∀ p a, ¬ x.1.T p a x.2.1) ∧ x.2.1 ≠ x.2.2

/-- No transition leaves the final state, which is not initial. -/
def CE (x : Frag A) : Prop := (∀ a p, ¬ x.1.T x.2.2 a p) ∧ x.2.1 ≠ x.2.2

/-- An ε-transition from the initial to the final state only adds the empty word. -/
def OptOK (eps : A) (x : Frag A) : Prop :=
  ∀ w, WPath (TOpt eps x.1.T x.2.1 x.2.2) eps x.2.1 w x.2.2 → w = [] ∨ WPath x.1.T eps x.2.1 w x.2.2

/-- The fragment recognises `L`. -/
structure Fr (eps : A) (x : Frag A) (L : List A → Prop) : Prop where
  single : x.1.Single x.2.1 x.2.2
  eps_eq : x.1.eps = eps
  lang : ∀ w, WPath x.1.T eps x.2.1 w x.2.2 ↔ L w

theorem OptOK.of_cs_ce {eps : A} {x : Frag A} (h1 : CS x) (h2 : CE x) : OptOK eps x :=
  fun w h => (opt_core h1.1 h2.1 h1.2 w).1 h

theorem OptOK.loop {eps : A} {x : Frag A} (h : OptOK eps x) {w : List A} (hw : WPath x.1.T eps x.2.2 w x.2.2) :
    w = [] ∨ WPath x.1.T eps x.2.1 w x.2.2 :=
  h w ((hw.mono (fun _ _ _ h => .inl h)).consEps (.inr ⟨rfl, rfl, rfl⟩))

theorem Fr.optLang {eps : A} {x : Frag A} {L : List A → Prop} (hx : Fr eps x L) (h : OptOK eps x) (w : List A) :
    WPath (TOpt eps x.1.T x.2.1 x.2.2) eps x.2.1 w x.2.2 ↔ w = [] ∨ L w := by
  constructor
  · intro hw
    rcases h w hw with h | h
    · exact .inl h
    · exact .inr ((hx.lang w).1 h)
  · rintro (rfl | h)
    · exact WPath.epsStep (.inr ⟨rfl, rfl, rfl⟩)
    · exact ((hx.lang w).2 h).mono (fun _ _ _ h => .inl h)

theorem fr_chars {eps : A} {cs : List A} (hc : eps ∉ cs) :
    Fr eps (bracket eps cs) (fun w => ∃ a ∈ cs, w = [a]) ∧ CS (bracket eps cs) ∧ CE (bracket eps cs) ∧
      (bracket eps cs).2.1 = 0 := by
  obtain ⟨h1, h2, h3⟩ := bracket_spec eps cs
  refine ⟨⟨h1, h2, bracket_lang hc⟩, ⟨?_, by show (0:Nat) ≠ 1; omega⟩, ⟨?_, by show (0:Nat) ≠ 1; omega⟩, rfl⟩
  · intro p a h
    have := ((h3 _ _ _).1 h).2.2
    exact absurd this (by show (0:Nat) ≠ 1; omega)
  · intro a p h
    have := ((h3 _ _ _).1 h).1
    exact absurd this (by show (1:Nat) ≠ 0; omega)

theorem fr_cat {eps : A} {x1 x2 : Frag A} {L1 L2 : List A → Prop} (h1 : Fr eps x1 L1) (h2 : Fr eps x2 L2) :
    ∃ x, concatenation x1 x2 = .ok x ∧ Fr eps x (fun w => ∃ u v, w = u ++ v ∧ L1 u ∧ L2 v) ∧
      (CS x1 → CS x) ∧ (CE x2 → CE x) ∧ x.2.1 = x1.2.1 := by
  obtain ⟨g1, q1, f1⟩ := x1
  obtain ⟨g2, q2, f2⟩ := x2
  have s1 : g1.Single q1 f1 := h1.single
  obtain ⟨g, f', a1, a2, a3, a4, a5, a6, a7, a8, a9⟩ := concat_paths ⟨s1.wf, s1.lt⟩ s1.T_closed s1.q0_mem s1.f_mem
    (fun x hx => (s1.fin x).1 hx) h2.single h1.eps_eq
  have hne : q1 ≠ f' := fun e => a9 (e ▸ s1.q0_mem)
  refine ⟨_, a1, ⟨a2, a3, ?_⟩, fun h => ⟨a7 h.1, hne⟩, fun h => ⟨a8 h.1, hne⟩, rfl⟩
  intro w
  refine (a4 w).trans ?_
  have e1 := h1.lang
  have e2 := h2.lang
  simp only at e1 e2
  simp only [e1, e2]

theorem fr_alt {eps : A} {x1 x2 : Frag A} {L1 L2 : List A → Prop} (h1 : Fr eps x1 L1) (h2 : Fr eps x2 L2) :
    ∃ x, alternation x1 x2 = .ok x ∧ Fr eps x (fun w => L1 w ∨ L2 w) ∧ CS x ∧ CE x := by
  obtain ⟨g1, q1, f1⟩ := x1
  obtain ⟨g2, q2, f2⟩ := x2
  have s1 : g1.Single q1 f1 := h1.single
  have s2 : g2.Single q2 f2 := h2.single
  obtain ⟨g, q, f, ρ, a1, a2, a3, hfr, hinj, hq, hf, hqf, hT⟩ := alternation_spec s1 s2
  rw [show g1.eps = eps from h1.eps_eq] at hT a3
  have c2 : ∀ x a y, TImage ρ g2.T x a y → (∃ z ∈ g2.vertices, x = ρ z) ∧ ∃ z ∈ g2.vertices, y = ρ z := by
    rintro x a y ⟨x', y', h, rfl, rfl⟩
    have := s2.T_closed _ _ _ h
    exact ⟨⟨x', this.1, rfl⟩, ⟨y', this.2, rfl⟩⟩
  have hd : ∀ x, x ∈ g1.vertices → ¬ ∃ z ∈ g2.vertices, x = ρ z := by
    rintro x hx ⟨z, hz, rfl⟩; exact hfr z hz hx
  have him : ∀ w, (WPath (TImage ρ g2.T) eps (ρ q2) w (ρ f2) ↔ WPath g2.T eps q2 w f2) :=
    fun w => WPath.image_iff (V := (· ∈ g2.vertices)) s2.T_closed (fun x y => hinj x y) s2.q0_mem s2.f_mem
  refine ⟨_, a1, ⟨a2, a3, ?_⟩, ⟨?_, hqf⟩, ⟨?_, hqf⟩⟩
  · intro w
    show WPath g.T eps q w f ↔ _
    rw [hT, alt_core s1.T_closed c2 hd s1.q0_mem s1.f_mem ⟨q2, s2.q0_mem, rfl⟩ ⟨f2, s2.f_mem, rfl⟩ hq hf hqf, him]
    have e1 := h1.lang w
    have e2 := h2.lang w
    simp only at e1 e2
    rw [e1, e2]
  · intro p a h
    change g.T p a q at h
    rw [hT] at h
    rcases h with h | h | ⟨_, ⟨_, e⟩ | ⟨_, e⟩ | ⟨_, e⟩ | ⟨_, e⟩⟩
    · exact hq.1 (s1.T_closed _ _ _ h).2
    · exact hq.2 (c2 _ _ _ h).2
    · exact hq.1 (e ▸ s1.q0_mem)
    · exact hq.2 ⟨q2, s2.q0_mem, e⟩
    · exact hqf e
    · exact hqf e
  · intro a p h
    change g.T f a p at h
    rw [hT] at h
    rcases h with h | h | ⟨_, ⟨e, _⟩ | ⟨e, _⟩ | ⟨e, _⟩ | ⟨e, _⟩⟩
    · exact hf.1 (s1.T_closed _ _ _ h).1
    · exact hf.2 (c2 _ _ _ h).1
    · exact hqf e.symm
    · exact hqf e.symm
    · exact hf.1 (e ▸ s1.f_mem)
    · exact hf.2 ⟨f2, s2.f_mem, e⟩

theorem fr_opt {eps : A} {x : Frag A} {L : List A → Prop} (h : Fr eps x L) (ho : OptOK eps x) :
    Fr eps (zeroOrOne x) (fun w => w = [] ∨ L w) ∧ (CS x → CS (zeroOrOne x)) ∧ (CE x → CE (zeroOrOne x)) ∧
      OptOK eps (zeroOrOne x) ∧ (zeroOrOne x).2.1 = x.2.1 := by
  have hl := h.optLang ho
  obtain ⟨g, q, f⟩ := x
  obtain ⟨g', e, b2, b3, b4⟩ := zeroOrOne_spec h.single
  simp only at e b2 b3 b4 hl
  rw [show g.eps = eps from h.eps_eq] at b3 b4
  rw [e]
  refine ⟨⟨b2, b3, ?_⟩, ?_, ?_, ?_, rfl⟩
  · intro w
    show WPath g'.T eps q w f ↔ _
    rw [b4]; exact hl w
  · intro hc
    refine ⟨?_, hc.2⟩
    intro p a hT
    change g'.T p a q at hT
    rw [b4] at hT
    rcases hT with hT | ⟨_, _, e⟩
    · exact hc.1 _ _ hT
    · exact hc.2 e
  · intro hc
    refine ⟨?_, hc.2⟩
    intro a p hT
    change g'.T f a p at hT
    rw [b4] at hT
    rcases hT with hT | ⟨e, _, _⟩
    · exact hc.1 _ _ hT
    · exact hc.2 e.symm
  · intro w hw
    right
    show WPath g'.T eps q w f
    refine hw.mono ?_
    rintro x a y (hT | ⟨e1, e2, e3⟩)
    · exact hT
    · rw [b4]; exact .inr ⟨e1, e2, e3⟩

theorem fr_star {eps : A} {x : Frag A} {L : List A → Prop} (h : Fr eps x L) :
    Fr eps (zeroOrMore x) (fun w => ∃ k, Pow L k w) ∧ OptOK eps (zeroOrMore x) := by
  obtain ⟨g, q, f⟩ := x
  have s : g.Single q f := h.single
  obtain ⟨g', e, b2, b3, b4⟩ := zeroOrMore_spec s
  rw [show g.eps = eps from h.eps_eq] at b3 b4
  rw [e]
  refine ⟨⟨b2, b3, ?_⟩, ?_⟩
  · intro w
    show WPath g'.T eps _ w _ ↔ _
    rw [b4, star_core s.T_closed s.q0_mem s.f_mem (fun h => absurd (s.lt _ h) (by omega))
      (fun h => absurd (s.lt _ h) (by omega))]
    simp only [Pow.congr h.lang]
  · intro w hw
    right
    refine hw.mono ?_
    rintro x a y (hT | ⟨e1, e2, e3⟩)
    · exact hT
    · show g'.T x a y
      rw [b4]; exact .inr ⟨e2, .inr (.inr (.inl ⟨e1, e3⟩))⟩

theorem fr_plus {eps : A} {x : Frag A} {L : List A → Prop} (h : Fr eps x L) :
    Fr eps (oneOrMore x) (fun w => ∃ k, 1 ≤ k ∧ Pow L k w) ∧ OptOK eps (oneOrMore x) := by
  obtain ⟨g, q, f⟩ := x
  have s : g.Single q f := h.single
  obtain ⟨g', e, b2, b3, b4⟩ := oneOrMore_spec s
  rw [show g.eps = eps from h.eps_eq] at b3 b4
  rw [e]
  have hq : g.lastVertexId ∉ g.vertices := fun h => absurd (s.lt _ h) (by omega)
  have hf : g.lastVertexId + 1 ∉ g.vertices := fun h => absurd (s.lt _ h) (by omega)
  have hp : ∀ w, WPath g'.T eps g.lastVertexId w (g.lastVertexId + 1) ↔
      ∃ k, 1 ≤ k ∧ Pow (fun w => WPath g.T eps q w f) k w := by
    intro w
    rw [b4]; exact plus_core s.T_closed s.q0_mem s.f_mem hq hf (by omega) w
  refine ⟨⟨b2, b3, ?_⟩, ?_⟩
  · intro w
    refine (hp w).trans ?_
    simp only [Pow.congr h.lang]
  · intro w hw
    have : WPath (TStar eps g.T q f g.lastVertexId (g.lastVertexId + 1)) eps g.lastVertexId w (g.lastVertexId + 1) := by
      refine hw.mono ?_
      rintro x a y (hT | ⟨e1, e2, e3⟩)
      · change g'.T x a y at hT
        rw [b4] at hT
        rcases hT with hT | ⟨ha, h1 | h1 | h1⟩
        · exact .inl hT
        · exact .inr ⟨ha, .inl h1⟩
        · exact .inr ⟨ha, .inr (.inl h1)⟩
        · exact .inr ⟨ha, .inr (.inr (.inr h1))⟩
      · exact .inr ⟨e2, .inr (.inr (.inl ⟨e1, e3⟩))⟩
    rw [star_core s.T_closed s.q0_mem s.f_mem hq hf] at this
    obtain ⟨k, hk⟩ := this
    cases k with
    | zero => left; exact Pow.zero_iff.1 hk
    | succ k => right; exact (hp w).2 ⟨k + 1, by omega, hk⟩

theorem fr_rep {eps : A} {x : Frag A} {L : List A → Prop} (h : Fr eps x L) (m : Nat) :
    ∃ y, repetition eps x m = .ok y ∧ Fr eps y (Pow L m) ∧ (0 < m → (CS x → CS y) ∧ (CE x → CE y) ∧ y.2.1 = x.2.1) := by
  obtain ⟨g, q, f⟩ := x
  obtain ⟨g', q', f', a1, a2, a3, a4⟩ := repetition_spec h.single h.eps_eq m
  refine ⟨_, a1, ⟨a2.single, a2.eps_eq, fun w => ?_⟩, fun hm => ⟨fun hc => ⟨a2.noIn hc.1, a2.ne ?_⟩,
    fun hc => ⟨a2.noOut hc.1, a2.ne ?_⟩, a4 hm⟩⟩
  · rw [← Pow.congr h.lang]; exact a2.lang w
  · rcases Nat.lt_or_ge 1 m with hm | hm
    · exact .inl hm
    · exact .inr ⟨by omega, hc.2⟩
  · rcases Nat.lt_or_ge 1 m with hm | hm
    · exact .inl hm
    · exact .inr ⟨by omega, hc.2⟩

/-- Unbounded repetitions. -/
theorem fr_range_none {eps : A} {x : Frag A} {L : List A → Prop} (h : Fr eps x L) (m : Nat) :
    ∃ y, repetitionRange eps x m none = .ok y ∧ Fr eps y (fun w => ∃ k, m ≤ k ∧ Pow L k w) ∧
      (m ≤ 1 → OptOK eps y) ∧ (2 ≤ m → (CS x → CS y) ∧ y.2.1 = x.2.1) := by
  unfold repetitionRange
  simp only
  by_cases hm0 : m = 0
  · subst hm0
    rw [if_pos rfl]
    obtain ⟨h1, h2⟩ := fr_star h
    exact ⟨_, rfl, ⟨h1.single, h1.eps_eq, fun w => by simpa using h1.lang w⟩, fun _ => h2, by omega⟩
  rw [if_neg hm0]
  by_cases hm1 : m = 1
  · subst hm1
    rw [if_pos rfl]
    obtain ⟨h1, h2⟩ := fr_plus h
    exact ⟨_, rfl, h1, fun _ => h2, by omega⟩
  rw [if_neg hm1]
  obtain ⟨y, e, hy, hy'⟩ := fr_rep h (m - 1)
  obtain ⟨b1, b2, b3⟩ := hy' (by omega)
  obtain ⟨z, e', hz, c1, _, c2⟩ := fr_cat hy (fr_plus h).1
  refine ⟨z, by rw [e]; exact e', ⟨hz.single, hz.eps_eq, fun w => ?_⟩, by omega, fun _ => ⟨fun hc => c1 (b1 hc), c2.trans b3⟩⟩
  rw [hz.lang]
  constructor
  · rintro ⟨u, v, rfl, hu, k, hk, hv⟩
    exact ⟨m - 1 + k, by omega, hu.add hv⟩
  · rintro ⟨k, hk, hw⟩
    rw [show k = (m - 1) + (k - (m - 1)) by omega, Pow.add_iff] at hw
    obtain ⟨u, v, rfl, hu, hv⟩ := hw
    exact ⟨u, v, rfl, hu, _, by omega, hv⟩

/-- Bounded repetitions. -/
theorem fr_range_some {eps : A} {x : Frag A} {L : List A → Prop} (h : Fr eps x L) {m n : Nat} (hmn : m ≤ n)
    (hz : m = 0 → n ≠ 1 → x.2.1 = 0) (ho : m = 0 → 1 ≤ n → OptOK eps x) :
    ∃ y, repetitionRange eps x m (some n) = .ok y ∧ Fr eps y (fun w => ∃ k, m ≤ k ∧ k ≤ n ∧ Pow L k w) ∧
      (CE x → 1 ≤ n → CE y) ∧ (CS x → 1 ≤ n → CS y) ∧ (m = 0 → 2 ≤ n → CS y) ∧ (m = 0 → OptOK eps y) ∧
      (m = 1 → n = 1 → OptOK eps x → OptOK eps y) ∧ y.2.1 = x.2.1 := by
  unfold repetitionRange
  simp only
  rw [if_neg (by omega)]
  by_cases h01 : m = 0 ∧ n = 1
  · rw [if_pos h01]
    obtain ⟨rfl, rfl⟩ := h01
    obtain ⟨h1, h2, h3, h4, h5⟩ := fr_opt h (ho rfl (by omega))
    refine ⟨_, rfl, ⟨h1.single, h1.eps_eq, fun w => ?_⟩, fun hc _ => h3 hc, fun hc _ => h2 hc, by omega, fun _ => h4, by omega, h5⟩
    rw [h1.lang]
    constructor
    · rintro (rfl | hw)
      · exact ⟨0, by omega, by omega, Pow.zero_iff.2 rfl⟩
      · exact ⟨1, by omega, by omega, Pow.one_iff.2 hw⟩
    · rintro ⟨k, _, hk, hw⟩
      match k, hk with
      | 0, _ => exact .inl (Pow.zero_iff.1 hw)
      | 1, _ => exact .inr (Pow.one_iff.1 hw)
  rw [if_neg h01]
  obtain ⟨g0, q0, f0⟩ := x
  obtain ⟨g, q, f, a1, a2, a3, a4⟩ := repetition_spec h.single h.eps_eq m
  have hq : q = q0 := by
    by_cases hm : m = 0
    · rw [a3 hm]; exact (hz hm (fun e => h01 ⟨hm, e⟩)).symm
    · exact a4 (by omega)
  subst hq
  have hf0 : m = 0 → q = f := by
    rintro rfl
    unfold repetition at a1
    rw [if_pos rfl] at a1
    cases a1; rfl
  have hinv : RangeInv eps g0 q f0 m 0 g q f [f] := by
    refine ⟨a2, by simp, ?_, ?_, ?_, by omega, ?_⟩
    · intro p hp
      obtain rfl : p = f := by simpa using hp
      exact ⟨a2.single.f_mem, m, by omega, by omega, a2.lang⟩
    · intro j h1 h2
      obtain rfl : j = m := by omega
      exact ⟨f, by simp, a2.lang⟩
    · intro p hp hne
      exact absurd (by simpa using hp) hne
    · rintro rfl
      unfold repetition at a1
      rw [if_pos rfl] at a1
      cases a1
      exact fun x a => (good_init eps [] 1).2.2.2.2.1 x a _
  obtain ⟨g', f', fs, b1, b2⟩ := rangeLoop_spec h.single (n - m) hinv (fun hm => by simp [hf0 hm])
  have hlang := range_lang b2 (fun hm _ w hw => (ho hm (by omega)).loop hw)
  obtain ⟨c1, c2, c3⟩ := rangeFinals_spec fs b2.rp.single (fun p hp => (b2.sound p hp).1)
  rw [Nat.zero_add] at b2 hlang
  rw [show m + (n - m) = n by omega] at hlang
  have hne : ∀ hx : q ≠ f0, 1 ≤ n → q ≠ f' := by
    intro hx hn
    apply b2.rp.ne
    rw [show m + (n - m) = n by omega]
    rcases Nat.lt_or_ge 1 n with h1 | h1
    · exact .inl h1
    · exact .inr ⟨by omega, hx⟩
  have hcs : (∀ x a, ¬ g'.T x a q) → q ≠ f' → CS (rangeFinals g' f' fs, q, f') := by
    intro hno hne
    refine ⟨fun p a hT => ?_, hne⟩
    rcases (c3 _ _ _).1 hT with hT | ⟨_, _, _, e⟩
    · exact hno _ _ hT
    · exact hne e
  refine ⟨(rangeFinals g' f' fs, q, f'), ?_, ⟨c1, c2.trans b2.rp.eps_eq, fun w => ?_⟩, ?_, ?_, ?_, ?_, ?_, rfl⟩
  · rw [a1]
    show (rangeLoop (g0, q, f0) (n - m) (g, q, f) [f] >>= _) = _
    rw [b1]; rfl
  · refine (hlang w).trans ?_
    simp only [Pow.congr h.lang]
  · intro hc hn
    refine ⟨fun a p hT => ?_, hne hc.2 hn⟩
    rcases (c3 _ _ _).1 hT with hT | ⟨_, e, _⟩
    · exact b2.rp.noOut hc.1 _ _ hT
    · exact e rfl
  · intro hc hn
    exact hcs (b2.rp.noIn hc.1) (hne hc.2 hn)
  · intro hm hn
    subst hm
    have hs := b2.start (.inl ⟨rfl, by omega⟩) rfl
    exact hcs (b2.noIn0 rfl) hs.2
  · intro hm w hw
    subst hm
    right
    by_cases hn : n = 0
    · subst hn
      have : f' = f ∧ g' = g := by
        simp only [Nat.sub_self, rangeLoop] at b1
        cases b1; exact ⟨rfl, rfl⟩
      obtain ⟨rfl, rfl⟩ := this
      obtain rfl := hf0 rfl
      refine WPath.residual (fun x w => WPath (rangeFinals g' q fs).T eps x w q) (.nil _) ?_ ?_ hw
      · rintro x y w (hT | ⟨rfl, _, rfl⟩) hy
        · exact hy.consEps hT
        · exact hy
      · rintro x a y w hne (hT | ⟨_, e, _⟩) hy
        · exact hy.consSym hne hT
        · exact absurd e hne
    · have hs := b2.start (.inl ⟨rfl, by omega⟩) rfl
      refine hw.mono ?_
      rintro x a y (hT | ⟨rfl, rfl, rfl⟩)
      · exact hT
      · exact (c3 _ _ _).2 (.inr ⟨hs.1, hs.2, b2.rp.eps_eq.symm, rfl⟩)
  · rintro rfl rfl ho1 w hw
    have : f' = f ∧ g' = g ∧ fs = [f] := by
      simp only [Nat.sub_self, rangeLoop] at b1
      cases b1; exact ⟨rfl, rfl, rfl⟩
    obtain ⟨rfl, rfl, rfl⟩ := this
    have e : g' = g0 ∧ f' = f0 := by
      unfold repetition at a1
      simp at a1
      exact ⟨a1.1.symm, a1.2.symm⟩
    obtain ⟨rfl, rfl⟩ := e
    have : rangeFinals g' f' [f'] = g' := by simp [rangeFinals]
    rw [this] at hw ⊢
    exact ho1 w hw

/-! ## Evaluation of a postfix expression -/

theorem eval_spec {eps : A} (e : Regex A) (hv : e.Valid eps) (hs : e.Safe) (rest : List (Tok A)) (st : List (Frag A)) :
    ∃ x, (e.toPostfix ++ rest).foldlM (onPushOutput eps) st = rest.foldlM (onPushOutput eps) (x :: st) ∧
      Fr eps x e.Lang ∧ (e.CleanStart → CS x) ∧ (e.CleanEnd → CE x) ∧ (e.StartsAtZero → x.2.1 = 0) ∧
      (e.Skippable → OptOK eps x) := by
  induction e generalizing rest st with
  | sym a =>
    obtain ⟨h1, h2, h3, h4⟩ := fr_chars (eps := eps) (cs := [a]) (by simpa using Ne.symm hv)
    refine ⟨bracket eps [a], rfl, ⟨h1.single, h1.eps_eq, fun w => ?_⟩, fun _ => h2, fun _ => h3, fun _ => h4,
      fun _ => .of_cs_ce h2 h3⟩
    rw [h1.lang]; simp [Regex.Lang]
  | chars cs =>
    obtain ⟨h1, h2, h3, h4⟩ := fr_chars (eps := eps) (cs := cs) hv
    exact ⟨bracket eps cs, rfl, h1, fun _ => h2, fun _ => h3, fun _ => h4, fun _ => .of_cs_ce h2 h3⟩
  | cat e₁ e₂ ih₁ ih₂ =>
    obtain ⟨x1, a1, a2, a3, a4, a5, a6⟩ := ih₁ hv.1 hs.1 (e₂.toPostfix ++ (.cat :: rest)) st
    obtain ⟨x2, b1, b2, b3, b4, b5, b6⟩ := ih₂ hv.2 hs.2 (.cat :: rest) (x1 :: st)
    obtain ⟨x, c1, c2, c3, c4, c5⟩ := fr_cat a2 b2
    refine ⟨x, ?_, c2, fun h => c3 (a3 h), fun h => c4 (b4 h), fun h => c5.trans (a5 h),
      fun h => .of_cs_ce (c3 (a3 h.1)) (c4 (b4 h.2))⟩
    rw [show (e₁.cat e₂).toPostfix ++ rest = e₁.toPostfix ++ (e₂.toPostfix ++ (.cat :: rest)) by simp [Regex.toPostfix], a1, b1,
      List.foldlM_cons]
    simp only [onPushOutput, c1]
    rfl
  | alt e₁ e₂ ih₁ ih₂ =>
    obtain ⟨x1, a1, a2, a3, a4, a5, a6⟩ := ih₁ hv.1 hs.1 (e₂.toPostfix ++ (.alt :: rest)) st
    obtain ⟨x2, b1, b2, b3, b4, b5, b6⟩ := ih₂ hv.2 hs.2 (.alt :: rest) (x1 :: st)
    obtain ⟨x, c1, c2, c3, c4⟩ := fr_alt a2 b2
    refine ⟨x, ?_, c2, fun _ => c3, fun _ => c4, fun h => h.elim, fun _ => .of_cs_ce c3 c4⟩
    rw [show (e₁.alt e₂).toPostfix ++ rest = e₁.toPostfix ++ (e₂.toPostfix ++ (.alt :: rest)) by simp [Regex.toPostfix], a1, b1,
      List.foldlM_cons]
    simp only [onPushOutput, c1]
    rfl
  | opt e ih =>
    obtain ⟨x, a1, a2, a3, a4, a5, a6⟩ := ih hv hs.1 (.opt :: rest) st
    obtain ⟨c1, c2, c3, c4, c5⟩ := fr_opt a2 (a6 hs.2)
    refine ⟨zeroOrOne x, ?_, c1, fun h => c2 (a3 h), fun h => c3 (a4 h), fun h => c5.trans (a5 h), fun _ => c4⟩
    rw [show e.opt.toPostfix ++ rest = e.toPostfix ++ (.opt :: rest) by simp [Regex.toPostfix], a1, List.foldlM_cons]
    rfl
  | star e ih =>
    obtain ⟨x, a1, a2, a3, a4, a5, a6⟩ := ih hv hs (.star :: rest) st
    obtain ⟨c1, c2⟩ := fr_star a2
    refine ⟨zeroOrMore x, ?_, c1, fun h => h.elim, fun h => h.elim, fun h => h.elim, fun _ => c2⟩
    rw [show e.star.toPostfix ++ rest = e.toPostfix ++ (.star :: rest) by simp [Regex.toPostfix], a1, List.foldlM_cons]
    rfl
  | plus e ih =>
    obtain ⟨x, a1, a2, a3, a4, a5, a6⟩ := ih hv hs (.plus :: rest) st
    obtain ⟨c1, c2⟩ := fr_plus a2
    refine ⟨oneOrMore x, ?_, c1, fun h => h.elim, fun h => h.elim, fun h => h.elim, fun _ => c2⟩
    rw [show e.plus.toPostfix ++ rest = e.toPostfix ++ (.plus :: rest) by simp [Regex.toPostfix], a1, List.foldlM_cons]
    rfl
  | rep m n e ih =>
    cases n with
    | none =>
      obtain ⟨x, a1, a2, a3, a4, a5, a6⟩ := ih hv hs (.rep m none :: rest) st
      obtain ⟨y, c1, c2, c3, c4⟩ := fr_range_none a2 m
      refine ⟨y, ?_, c2, fun h => (c4 h.1).1 (a3 h.2), fun h => h.elim, fun h => (c4 h.1).2.trans (a5 h.2), fun h => c3 h⟩
      rw [show (Regex.rep m none e).toPostfix ++ rest = e.toPostfix ++ (.rep m none :: rest) by simp [Regex.toPostfix], a1,
        List.foldlM_cons]
      simp only [onPushOutput, c1]
      rfl
    | some n =>
      obtain ⟨x, a1, a2, a3, a4, a5, a6⟩ := ih hv.2 hs.1 (.rep m (some n) :: rest) st
      obtain ⟨y, c1, c2, c3, c4, c5, c6, c7, c8⟩ := fr_range_some a2 hv.1 (fun h h' => a5 (hs.2.1 h h'))
        (fun h h' => a6 (hs.2.2 h h'))
      refine ⟨y, ?_, c2, ?_, fun h => c3 (a4 h.2) h.1, fun h => c8.trans (a5 h), ?_⟩
      · rw [show (Regex.rep m (some n) e).toPostfix ++ rest = e.toPostfix ++ (.rep m (some n) :: rest) by
          simp [Regex.toPostfix], a1, List.foldlM_cons]
        simp only [onPushOutput, c1]
        rfl
      · rintro ⟨hn, h | ⟨hm, hn'⟩⟩
        · exact c4 (a3 h) hn
        · exact c5 hm hn'
      · rintro (h | ⟨hm, hn, h⟩ | ⟨h, h'⟩)
        · exact c6 h
        · exact c7 hm hn (a6 h)
        · by_cases hm : m = 0
          · exact c6 hm
          · have hn : 1 ≤ n := by have := hv.1; omega
            exact .of_cs_ce (c4 (a3 h) hn) (c3 (a4 h') hn)

theorem toPostfix_ne_nil (e : Regex A) : e.toPostfix ≠ [] := by cases e <;> simp [Regex.toPostfix]

theorem compile_spec {eps : A} (e : Regex A) (hv : e.Valid eps) (hs : e.Safe) :
    ∃ x, compile eps e.toPostfix = .ok x ∧ Fr eps x e.Lang := by
  obtain ⟨x, h1, h2, _⟩ := eval_spec e hv hs [] []
  refine ⟨x, ?_, h2⟩
  rw [List.append_nil] at h1
  unfold compile
  cases h : e.toPostfix with
  | nil => exact absurd h (toPostfix_ne_nil e)
  | cons t ts =>
    rw [h] at h1
    simp only [h1]
    rfl

theorem Fr.toLang {eps : A} {x : Frag A} {L : List A → Prop} (h : Fr eps x L) (w : List A) : x.1.Lang w ↔ L w := by
  rw [h.single.lang_iff, h.eps_eq, h.lang]

theorem Fr.accepts {eps : A} {x : Frag A} {L : List A → Prop} (h : Fr eps x L) {w : List A} (hw : eps ∉ w) :
    x.1.accepts w = true ↔ L w := by
  rw [Nfa.accepts_iff_T _ (by rw [h.eps_eq]; exact hw), ← Nfa.lang_iff h.single.wf, h.toLang]

theorem Fr.self {g : Nfa A} {q f : Nat} (h : g.Single q f) : Fr g.eps (g, q, f) g.Lang :=
  ⟨h, rfl, fun w => (h.lang_iff w).symm⟩

end Nfa
end PyBGL
