import Verif.Proofs.ThompsonLang
import Verif.Spec.RegexPaths

/-!
# The words read between the ends of the automata built by Thompson's constructions
-/

namespace PyBGL
variable {A : Type} [DecidableEq A]

section
variable {Q : Type} {eps : A} {T : Q → A → Q → Prop}

theorem WPath.snocEps {q s r : Q} {w : List A} (h : WPath T eps q w s) (h' : T s eps r) : WPath T eps q w r := by
  simpa using h.append (WPath.epsStep h')

/-- Paths once an ε-transition is added from `q0` to `f`. -/
theorem opt_paths {q0 f x y : Q} (w : List A) :
    WPath (TOpt eps T q0 f) eps x w y ↔ WPath T eps x w y ∨ ∃ (u : List A) (ws : List (List A)) (v : List A), WPath T eps x u q0 ∧ (∀ t ∈ ws, WPath T eps f t q0) ∧
      WPath T eps f v y ∧ w = u ++ ws.flatten ++ v := by
  constructor
  · intro h
    refine WPath.residual (fun x w => WPath T eps x w y ∨ ∃ (u : List A) (ws : List (List A)) (v : List A), WPath T eps x u q0 ∧ (∀ t ∈ ws, WPath T eps f t q0) ∧
      WPath T eps f v y ∧ w = u ++ ws.flatten ++ v) (.inl (.nil _)) ?_ ?_ h
    · rintro x s w (hT | ⟨rfl, _, rfl⟩) ha
      · rcases ha with ha | ⟨u, ws, v, h1, h2, h3, rfl⟩
        · exact .inl (ha.consEps hT)
        · exact .inr ⟨u, ws, v, h1.consEps hT, h2, h3, rfl⟩
      · rcases ha with ha | ⟨u, ws, v, h1, h2, h3, rfl⟩
        · exact .inr ⟨[], [], w, .nil _, by simp, ha, rfl⟩
        · refine .inr ⟨[], u :: ws, v, .nil _, ?_, h3, by simp⟩
          intro t ht
          rcases List.mem_cons.1 ht with rfl | ht
          · exact h1
          · exact h2 t ht
    · rintro x a s w hne (hT | ⟨_, e, _⟩) ha
      · rcases ha with ha | ⟨u, ws, v, h1, h2, h3, rfl⟩
        · exact .inl (ha.consSym hne hT)
        · exact .inr ⟨a :: u, ws, v, h1.consSym hne hT, h2, h3, by simp⟩
      · exact absurd e hne
  · have hm : ∀ {x w y}, WPath T eps x w y → WPath (TOpt eps T q0 f) eps x w y :=
      fun h => h.mono (fun _ _ _ h => .inl h)
    have he : TOpt eps T q0 f q0 eps f := .inr ⟨rfl, rfl, rfl⟩
    rintro (h | ⟨u, ws, v, h1, h2, h3, rfl⟩)
    · exact hm h
    · have : ∀ ws : List (List A), (∀ t ∈ ws, WPath T eps f t q0) → WPath (TOpt eps T q0 f) eps q0 (ws.flatten ++ v) y := by
        intro ws
        induction ws with
        | nil => intro _; exact (hm h3).consEps he
        | cons t ws ih =>
          intro hw
          have := ((hm (hw t (by simp))).append (ih (fun t ht => hw t (by simp [ht])))).consEps he
          simpa using this
      rw [List.append_assoc]
      exact (hm h1).append (this ws h2)

/-- If the only transition entering `b` is an ε-transition from `a`. -/
theorem paths_to {a b : Q} (h1 : T a eps b) (h2 : ∀ x c, T x c b → x = a ∧ c = eps) (x : Q) (w : List A) :
    WPath T eps x w b ↔ (x = b ∧ w = []) ∨ WPath T eps x w a := by
  constructor
  · intro h
    have := WPath.forward (fun y w => (y = b → (x = b ∧ w = []) ∨ WPath T eps x w a) ∧ WPath T eps x w y)
      ⟨fun e => .inl ⟨e, rfl⟩, .nil _⟩ ?_ ?_ h
    · exact this.1 rfl
    · rintro y z w ⟨_, hR⟩ hT
      refine ⟨?_, hR.snocEps hT⟩
      rintro rfl
      obtain ⟨rfl, _⟩ := h2 _ _ hT
      exact .inr hR
    · rintro y c z w ⟨_, hR⟩ hne hT
      refine ⟨?_, hR.append (WPath.symStep hne hT)⟩
      rintro rfl
      exact absurd (h2 _ _ hT).2 hne
  · rintro (⟨rfl, rfl⟩ | h)
    · exact .nil _
    · exact h.snocEps h1

/-- If the only transition leaving `a` is an ε-transition to `b`. -/
theorem paths_from {a b : Q} (h1 : T a eps b) (h2 : ∀ c y, T a c y → y = b ∧ c = eps) (y : Q) (w : List A) :
    WPath T eps a w y ↔ (a = y ∧ w = []) ∨ WPath T eps b w y := by
  constructor
  · intro h
    have := WPath.residual (fun x w => (x = a → (a = y ∧ w = []) ∨ WPath T eps b w y) ∧ WPath T eps x w y)
      ⟨fun e => .inl ⟨e.symm, rfl⟩, .nil _⟩ ?_ ?_ h
    · exact this.1 rfl
    · rintro x z w hT ⟨_, hR⟩
      refine ⟨?_, hR.consEps hT⟩
      rintro rfl
      obtain ⟨rfl, _⟩ := h2 _ _ hT
      exact .inr hR
    · rintro x c z w hne hT ⟨_, hR⟩
      refine ⟨?_, hR.consSym hne hT⟩
      rintro rfl
      exact absurd (h2 _ _ hT).2 hne
  · rintro (⟨rfl, rfl⟩ | h)
    · exact .nil _
    · exact h.consEps h1

end

namespace Nfa
open Thompson

/-- The initial (`false`) or final (`true`) state of a fragment. -/
def corner (x : Frag A) : Bool → Nat
  | false => x.2.1
  | true => x.2.2

/-- The words read between the ends of a fragment. -/
structure FrE (eps : A) (x : Frag A) (P : Ends A) : Prop where
  single : x.1.Single x.2.1 x.2.2
  eps_eq : x.1.eps = eps
  paths : ∀ a b w, WPath x.1.T eps (corner x a) w (corner x b) ↔ P a b w

theorem FrE.fr {eps : A} {x : Frag A} {P : Ends A} (h : FrE eps x P) : Fr eps x (P false true) :=
  ⟨h.single, h.eps_eq, h.paths false true⟩

theorem Fr.plain {eps : A} {x : Frag A} {L : List A → Prop} (h : Fr eps x L) (h1 : CS x) (h2 : CE x) : FrE eps x (.plain L) := by
  refine ⟨h.single, h.eps_eq, fun a b w => ?_⟩
  match a, b with
  | false, true => exact h.lang w
  | false, false =>
    constructor
    · intro hp; exact (WPath.of_noIn h1.1 hp).2
    · rintro rfl; exact .nil _
  | true, true =>
    constructor
    · intro hp; exact (WPath.of_noOut h2.1 hp).2
    · rintro rfl; exact .nil _
  | true, false =>
    constructor
    · intro hp; exact h1.2 (WPath.of_noOut h2.1 hp).1.symm
    · exact False.elim

/-- Concatenation; the first automaton may have no final state. -/
theorem fre_cat' {eps : A} {g1 : Nfa A} {q1 f1 : Nat} {x2 : Frag A} {P R : Ends A} (k1 : Good g1)
    (c1 : ∀ q a r, g1.T q a r → q ∈ g1.vertices ∧ r ∈ g1.vertices) (hq1 : q1 ∈ g1.vertices) (hf1 : f1 ∈ g1.vertices)
    (hfin1 : ∀ x, g1.isFinal x = true → x = f1) (he : g1.eps = eps)
    (hP1 : ∀ w, WPath g1.T eps q1 w f1 ↔ P false true w) (hP2 : ∀ w, WPath g1.T eps q1 w q1 ↔ P false false w)
    (h2 : FrE eps x2 R) :
    ∃ g f', concatenation (g1, q1, f1) x2 = .ok (g, q1, f') ∧ FrE eps (g, q1, f') (.cat P R) ∧
      (∀ p ∈ g1.vertices, p ∈ g.vertices) := by
  obtain ⟨g2, q2, f2⟩ := x2
  have s2 : g2.Single q2 f2 := h2.single
  obtain ⟨g, ρ, hc, hs, hge, hfr, hinj, hT, hV⟩ := concatenation_spec k1.wf k1.lt c1 hq1 hf1 hfin1 s2
  rw [he] at hT hge
  have c2 : ∀ x a y, TImage ρ g2.T x a y → (∃ z ∈ g2.vertices, x = ρ z) ∧ ∃ z ∈ g2.vertices, y = ρ z := by
    rintro x a y ⟨x', y', h, rfl, rfl⟩
    have := s2.T_closed _ _ _ h
    exact ⟨⟨x', this.1, rfl⟩, ⟨y', this.2, rfl⟩⟩
  have hd : ∀ x, x ∈ g1.vertices → ¬ ∃ z ∈ g2.vertices, x = ρ z := by
    rintro x hx ⟨z, hz, rfl⟩; exact hfr z hz hx
  have him : ∀ x y w, x ∈ g2.vertices → y ∈ g2.vertices → (WPath (TImage ρ g2.T) eps (ρ x) w (ρ y) ↔ WPath g2.T eps x w y) :=
    fun x y w hx hy => WPath.image_iff (V := (· ∈ g2.vertices)) s2.T_closed (fun x y => hinj x y) hx hy
  refine ⟨g, ρ f2, hc, ⟨hs, hge, fun a b w => ?_⟩, fun p hp => (hV p).2 (.inl hp)⟩
  · match a, b with
    | false, true =>
      show WPath g.T eps q1 w (ρ f2) ↔ _
      rw [hT, cat_core c1 c2 hd hq1 hf1 ⟨q2, s2.q0_mem, rfl⟩ ⟨f2, s2.f_mem, rfl⟩]
      have e := h2.paths false true
      simp only [corner] at e
      simp only [him q2 f2 _ s2.q0_mem s2.f_mem, hP1, e, Ends.cat]
    | false, false =>
      show WPath g.T eps q1 w q1 ↔ _
      rw [hT, cat_left c1 c2 hd ⟨q2, s2.q0_mem, rfl⟩ hq1]
      exact hP2 w
    | true, true =>
      show WPath g.T eps (ρ f2) w (ρ f2) ↔ R true true w
      rw [hT, ← h2.paths true true]
      constructor
      · intro h
        exact (him f2 f2 w s2.f_mem s2.f_mem).1 (cat_right c1 c2 hd hf1 ⟨f2, s2.f_mem, rfl⟩ h).2
      · intro h
        exact ((him f2 f2 w s2.f_mem s2.f_mem).2 h).mono (fun _ _ _ h => .inr (.inl h))
    | true, false =>
      show WPath g.T eps (ρ f2) w q1 ↔ False
      rw [hT]
      refine ⟨fun h => ?_, False.elim⟩
      exact hd q1 hq1 (cat_right c1 c2 hd hf1 ⟨f2, s2.f_mem, rfl⟩ h).1

theorem fre_cat {eps : A} {x1 x2 : Frag A} {P R : Ends A} (h1 : FrE eps x1 P) (h2 : FrE eps x2 R) :
    ∃ x, concatenation x1 x2 = .ok x ∧ FrE eps x (.cat P R) ∧ x.2.1 = x1.2.1 := by
  obtain ⟨g1, q1, f1⟩ := x1
  have s1 : g1.Single q1 f1 := h1.single
  obtain ⟨g, f', a1, a2, _⟩ := fre_cat' ⟨s1.wf, s1.lt⟩ s1.T_closed s1.q0_mem s1.f_mem (fun x hx => (s1.fin x).1 hx) h1.eps_eq
    (h1.paths false true) (h1.paths false false) h2
  exact ⟨_, a1, a2, rfl⟩

theorem fre_opt {eps : A} {x : Frag A} {P : Ends A} (h : FrE eps x P) :
    FrE eps (zeroOrOne x) (.opt P) ∧ (zeroOrOne x).2.1 = x.2.1 := by
  obtain ⟨g, q, f⟩ := x
  obtain ⟨g', e, b2, b3, b4⟩ := zeroOrOne_spec h.single
  simp only at e b2 b3 b4
  rw [show g.eps = eps from h.eps_eq] at b3 b4
  rw [e]
  refine ⟨⟨b2, b3, fun a b w => ?_⟩, rfl⟩
  show WPath g'.T eps (corner (g', q, f) a) w (corner (g', q, f) b) ↔ _
  rw [b4, opt_paths]
  have hc : ∀ a, corner (g', q, f) a = corner (g, q, f) a := fun a => by cases a <;> rfl
  have h1 := h.paths
  have hq : q = corner (g, q, f) false := rfl
  have hf : f = corner (g, q, f) true := rfl
  rw [hc, hc]
  unfold Ends.opt
  constructor
  · rintro (h | ⟨u, ws, v, k1, k2, k3, rfl⟩)
    · exact .inl ((h1 _ _ _).1 h)
    · exact .inr ⟨u, ws, v, (h1 a false u).1 k1, fun x hx => (h1 true false x).1 (k2 x hx), (h1 true b v).1 k3, rfl⟩
  · rintro (h | ⟨u, ws, v, k1, k2, k3, rfl⟩)
    · exact .inl ((h1 _ _ _).2 h)
    · exact .inr ⟨u, ws, v, (h1 a false u).2 k1, fun x hx => (h1 true false x).2 (k2 x hx), (h1 true b v).2 k3, rfl⟩

theorem fre_star {eps : A} {x : Frag A} {P : Ends A} (h : FrE eps x P) : FrE eps (zeroOrMore x) (.star P) := by
  have hl := (fr_star h.fr).1
  obtain ⟨g, q, f⟩ := x
  have s : g.Single q f := h.single
  obtain ⟨g', e, b2, b3, b4⟩ := zeroOrMore_spec s
  rw [show g.eps = eps from h.eps_eq] at b3 b4
  rw [e] at hl ⊢
  have e1 : g'.T g.lastVertexId eps (g.lastVertexId + 1) := by rw [b4]; exact .inr ⟨rfl, .inr (.inr (.inl ⟨rfl, rfl⟩))⟩
  have e2 : g'.T (g.lastVertexId + 1) eps g.lastVertexId := by rw [b4]; exact .inr ⟨rfl, .inr (.inr (.inr ⟨rfl, rfl⟩))⟩
  refine ⟨b2, b3, fun a b w => Iff.trans ?_ (hl.lang w)⟩
  match a, b with
  | false, true => exact Iff.rfl
  | false, false => exact ⟨fun h => h.snocEps e1, fun h => h.snocEps e2⟩
  | true, true => exact ⟨fun h => h.consEps e1, fun h => h.consEps e2⟩
  | true, false => exact ⟨fun h => (h.snocEps e1).consEps e1, fun h => (h.snocEps e2).consEps e2⟩

theorem fre_plus {eps : A} {x : Frag A} {P : Ends A} (h : FrE eps x P) : FrE eps (oneOrMore x) (.plus P) := by
  have hl := (fr_plus h.fr).1
  obtain ⟨g, q, f⟩ := x
  have s : g.Single q f := h.single
  obtain ⟨g', e, b2, b3, b4⟩ := oneOrMore_spec s
  rw [show g.eps = eps from h.eps_eq] at b3 b4
  rw [e] at hl ⊢
  have hq : g.lastVertexId ∉ g.vertices := fun h => absurd (s.lt _ h) (by omega)
  have hf : g.lastVertexId + 1 ∉ g.vertices := fun h => absurd (s.lt _ h) (by omega)
  have e2 : g'.T (g.lastVertexId + 1) eps g.lastVertexId := by rw [b4]; exact .inr ⟨rfl, .inr (.inr ⟨rfl, rfl⟩)⟩
  have hto := paths_to (T := g'.T) e2 (by
    intro x c hT
    rw [b4] at hT
    rcases hT with hT | ⟨ha, ⟨_, e⟩ | ⟨_, e⟩ | ⟨e, _⟩⟩
    · exact absurd (s.T_closed _ _ _ hT).2 hq
    · exact absurd (e ▸ s.q0_mem) hq
    · omega
    · exact ⟨e, ha⟩)
  have hfrom := paths_from (T := g'.T) e2 (by
    intro c y hT
    rw [b4] at hT
    rcases hT with hT | ⟨ha, ⟨e, _⟩ | ⟨e, _⟩ | ⟨_, e⟩⟩
    · exact absurd (s.T_closed _ _ _ hT).1 hf
    · omega
    · exact absurd (e ▸ s.f_mem) hf
    · exact ⟨e, ha⟩)
  have hk : ∀ w, (∃ k, Pow (P false true) k w) ↔ w = [] ∨ ∃ k, 1 ≤ k ∧ Pow (P false true) k w := by
    intro w
    constructor
    · rintro ⟨k, hk⟩
      cases k with
      | zero => exact .inl (Pow.zero_iff.1 hk)
      | succ k => exact .inr ⟨k + 1, by omega, hk⟩
    · rintro (rfl | ⟨k, _, hk⟩)
      · exact ⟨0, Pow.zero_iff.2 rfl⟩
      · exact ⟨k, hk⟩
  have hm : ∀ w, WPath g'.T eps g.lastVertexId w (g.lastVertexId + 1) ↔ ∃ k, 1 ≤ k ∧ Pow (P false true) k w := hl.lang
  have hff : ∀ w, WPath g'.T eps (g.lastVertexId + 1) w (g.lastVertexId + 1) ↔ ∃ k, Pow (P false true) k w := by
    intro w; rw [hfrom, hm, hk]; simp
  refine ⟨b2, b3, fun a b w => ?_⟩
  match a, b with
  | false, true => exact hm w
  | false, false =>
    show WPath g'.T eps g.lastVertexId w g.lastVertexId ↔ ∃ k, Pow (P false true) k w
    rw [hto, hm, hk]; simp
  | true, true => exact hff w
  | true, false =>
    show WPath g'.T eps (g.lastVertexId + 1) w g.lastVertexId ↔ ∃ k, Pow (P false true) k w
    rw [hto, hff]
    exact ⟨fun h => h.elim (fun h => by omega) id, .inr⟩

theorem fre_one (eps : A) : FrE eps ((Nfa.init eps [] 1).setFinal 0, 0, 0) .one := by
  have h := RP.zero eps ((Nfa.init eps [] 1).setFinal 0) 0 0
  refine ⟨h.single, h.eps_eq, fun a b w => ?_⟩
  have : WPath ((Nfa.init eps [] 1).setFinal 0).T eps 0 w 0 ↔ w = [] := by rw [h.lang, Pow.zero_iff]
  cases a <;> cases b <;> exact this

theorem fre_repLoop {eps : A} {x0 : Frag A} {P : Ends A} (h0 : FrE eps x0 P) (k : Nat) {j : Nat} {g : Nfa A} {q f : Nat}
    (h : FrE eps (g, q, f) (Ends.rep P (j + 1))) :
    ∃ g' f', repetitionLoop x0 k (g, q, f) = .ok (g', q, f') ∧ FrE eps (g', q, f') (Ends.rep P (j + k + 1)) := by
  induction k generalizing j g f with
  | zero => exact ⟨g, f, rfl, h⟩
  | succ k ih =>
    have s : g.Single q f := h.single
    obtain ⟨g', f', a1, a2, _⟩ := fre_cat' (g1 := g.setFinal f false) (q1 := q) (f1 := f) ((Good.mk s.wf s.lt).setFinal f false) s.T_closed s.q0_mem s.f_mem (by
        intro x hx
        rw [isFinal_setFinal] at hx
        by_cases e : f = x
        · exact e.symm
        · rw [if_neg e] at hx; exact (s.fin x).1 hx) h.eps_eq (h.paths false true) (h.paths false false) h0
    obtain ⟨g'', f'', b1, b2⟩ := ih (j := j + 1) a2
    refine ⟨g'', f'', ?_, by rw [show j + (k + 1) + 1 = j + 1 + k + 1 by omega]; exact b2⟩
    rw [repetitionLoop, a1]; exact b1

theorem fre_rep {eps : A} {x : Frag A} {P : Ends A} (h : FrE eps x P) (m : Nat) :
    ∃ y, repetition eps x m = .ok y ∧ FrE eps y (.rep P m) ∧ (m = 0 → y.2.1 = 0) ∧ (0 < m → y.2.1 = x.2.1) := by
  unfold repetition
  by_cases hm : m = 0
  · subst hm
    exact ⟨_, rfl, fre_one eps, fun _ => rfl, by omega⟩
  · rw [if_neg hm]
    by_cases hm1 : m > 1
    · rw [if_pos hm1]
      obtain ⟨g, q, f⟩ := x
      obtain ⟨g', f', h1, h2⟩ := fre_repLoop h (m - 1) (j := 0) h
      exact ⟨_, h1, by rw [show 0 + (m - 1) + 1 = m by omega] at h2; exact h2, by omega, fun _ => rfl⟩
    · rw [if_neg hm1]
      obtain rfl : m = 1 := by omega
      exact ⟨x, rfl, h, by omega, fun _ => rfl⟩

theorem fre_range_none {eps : A} {x : Frag A} {P : Ends A} (h : FrE eps x P) (m : Nat) :
    ∃ y, repetitionRange eps x m none = .ok y ∧
      FrE eps y (if m = 0 then .star P else if m = 1 then .plus P else .cat (.rep P (m - 1)) (.plus P)) ∧
      (2 ≤ m → y.2.1 = x.2.1) := by
  unfold repetitionRange
  simp only
  by_cases hm0 : m = 0
  · rw [if_pos hm0, if_pos hm0]
    exact ⟨_, rfl, fre_star h, by omega⟩
  rw [if_neg hm0, if_neg hm0]
  by_cases hm1 : m = 1
  · rw [if_pos hm1, if_pos hm1]
    exact ⟨_, rfl, fre_plus h, by omega⟩
  rw [if_neg hm1, if_neg hm1]
  obtain ⟨y, e, hy, _, hy'⟩ := fre_rep h (m - 1)
  obtain ⟨z, e', hz, c⟩ := fre_cat hy (fre_plus h)
  exact ⟨z, by rw [e]; exact e', hz, fun _ => c.trans (hy' (by omega))⟩

theorem rep_ends {P : Ends A} (j : Nat) :
    (∀ w, Ends.rep P j false true w ↔ Pow (P false true) j w) ∧
    (∀ w, Ends.rep P j false false w ↔ if j = 0 then w = [] else P false false w) ∧
    (1 ≤ j → ∀ w, Ends.rep P j true true w ↔ P true true w) ∧ (2 ≤ j → ∀ w, ¬ Ends.rep P j true false w) := by
  induction j with
  | zero => exact ⟨fun w => (Pow.zero_iff (L := P false true)).symm, fun w => by simp [Ends.rep, Ends.one], by omega, by omega⟩
  | succ j ih =>
    cases j with
    | zero => exact ⟨fun w => (Pow.one_iff (L := P false true)).symm, fun w => by simp [Ends.rep], fun _ w => Iff.rfl, by omega⟩
    | succ j =>
      refine ⟨fun w => ?_, fun w => ?_, fun _ w => Iff.rfl, fun _ w h => h⟩
      · rw [Pow.snoc_iff]
        simp only [Ends.rep, Ends.cat, ih.1]
      · rw [if_neg (by omega)]
        refine Iff.trans ?_ ((ih.2.1 w).trans (by rw [if_neg (by omega)]))
        exact Iff.rfl

/-- The loop of `repetition_range`. -/
theorem fre_rangeLoop {eps : A} {x0 : Frag A} {P : Ends A} (h0 : FrE eps x0 P) (k : Nat) {R : Ends A} {g : Nfa A} {q f : Nat} {fs : List Nat}
    (h : FrE eps (g, q, f) R) :
    ∃ g' f' fs' R', rangeLoop x0 k (g, q, f) fs = .ok ((g', q, f'), fs') ∧ FrE eps (g', q, f') R' ∧
      (∀ w, R' false false w ↔ R false false w) ∧ (0 < k → (∀ w, R' true true w ↔ P true true w) ∧ ∀ w, ¬ R' true false w) := by
  induction k generalizing g f fs R with
  | zero => exact ⟨g, f, fs, R, rfl, h, fun _ => Iff.rfl, by omega⟩
  | succ k ih =>
    obtain ⟨⟨g', q', f'⟩, a1, a2, a3⟩ := fre_cat h h0
    simp only at a3
    subst a3
    obtain ⟨g'', f'', fs'', R', b1, b2, b3, b4⟩ := ih (fs := setAdd fs f') a2
    refine ⟨g'', f'', fs'', R', ?_, b2, b3, fun _ => ?_⟩
    · rw [rangeLoop, a1]; exact b1
    · by_cases hk : 0 < k
      · exact b4 hk
      · obtain rfl : k = 0 := by omega
        have : (g'', f'') = (g', f') := by
          simp only [rangeLoop] at b1
          cases b1; rfl
        cases this
        exact ⟨fun w => ((b2.paths true true w).symm.trans (a2.paths true true w)),
          fun w h => (a2.paths true false w).1 ((b2.paths true false w).2 h)⟩

/-- Bounded repetitions. -/
theorem fre_range_some {eps : A} {x : Frag A} {P : Ends A} (h : FrE eps x P) {m n : Nat} (hmn : m ≤ n)
    (hz : m = 0 → n ≠ 1 → x.2.1 = 0) :
    ∃ y, repetitionRange eps x m (some n) = .ok y ∧
      FrE eps y (if m = 0 ∧ n = 1 then .opt P else if m = n then .rep P m else .range P m n) ∧ y.2.1 = x.2.1 := by
  unfold repetitionRange
  simp only
  rw [if_neg (by omega)]
  by_cases h01 : m = 0 ∧ n = 1
  · rw [if_pos h01, if_pos h01]
    exact ⟨_, rfl, (fre_opt h).1, (fre_opt h).2⟩
  rw [if_neg h01, if_neg h01]
  obtain ⟨g0, q0, f0⟩ := x
  obtain ⟨⟨g, q, f⟩, a1, a2, a3, a4⟩ := fre_rep h m
  obtain ⟨gr, qr, fr, a1', a2', a3', _⟩ := repetition_spec h.single h.eps_eq m
  rw [a1] at a1'
  obtain ⟨rfl, rfl, rfl⟩ : g = gr ∧ q = qr ∧ f = fr := by cases a1'; exact ⟨rfl, rfl, rfl⟩
  have hq : q = q0 := by
    by_cases hm : m = 0
    · exact (a3 hm).trans (hz hm (fun e => h01 ⟨hm, e⟩)).symm
    · exact a4 (by omega)
  subst hq
  by_cases hmn' : m = n
  · subst hmn'
    rw [if_pos rfl]
    refine ⟨(g, q, f), ?_, a2, rfl⟩
    rw [a1]
    simp [rangeLoop, rangeFinals, bind, Except.bind]
  rw [if_neg hmn']
  have hf0 : m = 0 → q = f := by
    rintro rfl
    unfold repetition at a1
    rw [if_pos rfl] at a1
    cases a1; rfl
  have hinv : RangeInv eps g0 q f0 m 0 g q f [f] := by
    refine ⟨a2', by simp, ?_, ?_, ?_, by omega, ?_⟩
    · intro p hp
      obtain rfl : p = f := by simpa using hp
      exact ⟨a2'.single.f_mem, m, by omega, by omega, a2'.lang⟩
    · intro j h1 h2
      obtain rfl : j = m := by omega
      exact ⟨f, by simp, a2'.lang⟩
    · intro p hp hne
      exact absurd (by simpa using hp) hne
    · rintro rfl
      unfold repetition at a1
      rw [if_pos rfl] at a1
      cases a1
      exact fun x a => (good_init eps [] 1).2.2.2.2.1 x a _
  obtain ⟨g', f', fs, b1, b2⟩ := rangeLoop_spec h.single (n - m) hinv (fun hm => by simp [hf0 hm])
  obtain ⟨g'', f'', fs'', R', d1, d2, d3, d4⟩ := fre_rangeLoop (fs := [f]) h (n - m) a2
  rw [b1] at d1
  obtain ⟨rfl, rfl, rfl⟩ : g' = g'' ∧ f' = f'' ∧ fs = fs'' := by cases d1; exact ⟨rfl, rfl, rfl⟩
  obtain ⟨d4, d5⟩ := d4 (by omega)
  obtain ⟨c1, c2, hT⟩ := rangeFinals_spec fs b2.rp.single (fun p hp => (b2.sound p hp).1)
  rw [b2.rp.eps_eq] at hT
  rw [Nat.zero_add] at b2
  have hPow : ∀ j w, Pow (fun w => WPath g0.T eps q w f0) j w ↔ Pow (P false true) j w := fun j w => Pow.congr (h.paths false true) j w
  have hmono : ∀ {x w y}, WPath g'.T eps x w y → WPath (rangeFinals g' f' fs).T eps x w y :=
    fun h => h.mono (fun x a y h => (hT _ _ _).2 (.inl h))
  -- the paths from the final state
  have hfrom : ∀ w y, WPath (rangeFinals g' f' fs).T eps f' w y → WPath g'.T eps f' w y := by
    intro w y hw
    refine WPath.forward (fun x w => WPath g'.T eps f' w x) (.nil _) ?_ ?_ hw
    · intro x y w hR hxy
      rcases (hT _ _ _).1 hxy with hxy | ⟨hx, hxf, _, rfl⟩
      · exact hR.snocEps hxy
      · exact absurd hR (b2.back x hx hxf w)
    · intro x a y w hR hne hxy
      rcases (hT _ _ _).1 hxy with hxy | ⟨_, _, e, _⟩
      · exact hR.append (WPath.symStep hne hxy)
      · exact absurd e hne
  -- the paths from the initial state
  have hstart : ∀ w y, WPath (rangeFinals g' f' fs).T eps q w y → WPath g'.T eps q w y ∨
      ∃ j u v, m ≤ j ∧ j ≤ n ∧ w = u ++ v ∧ Pow (P false true) j u ∧ WPath g'.T eps f' v y := by
    intro w y hw
    refine WPath.forward (fun x w => WPath g'.T eps q w x ∨ ∃ j u v, m ≤ j ∧ j ≤ n ∧ w = u ++ v ∧
      Pow (P false true) j u ∧ WPath g'.T eps f' v x) (.inl (.nil _)) ?_ ?_ hw
    · intro x y w hR hxy
      rcases (hT _ _ _).1 hxy with hxy | ⟨hx, hxf, _, rfl⟩
      · rcases hR with h1 | ⟨j, u, v, hj1, hj2, rfl, hu, hv⟩
        · exact .inl (h1.snocEps hxy)
        · exact .inr ⟨j, u, v, hj1, hj2, rfl, hu, hv.snocEps hxy⟩
      · rcases hR with h1 | ⟨j, u, v, hj1, hj2, rfl, hu, hv⟩
        · obtain ⟨_, j, hj1, hj2, hj⟩ := b2.sound x hx
          exact .inr ⟨j, w, [], hj1, by omega, by simp, (hPow _ _).1 ((hj w).1 h1), .nil _⟩
        · exact absurd hv (b2.back x hx hxf v)
    · intro x a y w hR hne hxy
      rcases (hT _ _ _).1 hxy with hxy | ⟨_, _, e, _⟩
      · rcases hR with h1 | ⟨j, u, v, hj1, hj2, rfl, hu, hv⟩
        · exact .inl (h1.append (WPath.symStep hne hxy))
        · exact .inr ⟨j, u, v ++ [a], hj1, hj2, by simp, hu, hv.append (WPath.symStep hne hxy)⟩
      · exact absurd e hne
  refine ⟨(rangeFinals g' f' fs, q, f'), ?_, ⟨c1, c2.trans b2.rp.eps_eq, fun a b w => ?_⟩, rfl⟩
  · rw [a1]
    show (rangeLoop (g0, q, f0) (n - m) (g, q, f) [f] >>= _) = _
    rw [b1]; rfl
  match a, b with
  | false, true =>
    show WPath (rangeFinals g' f' fs).T eps q w f' ↔ (∃ k, m ≤ k ∧ k ≤ n ∧ Pow (P false true) k w) ∨ (m = 0 ∧ P true true w)
    constructor
    · intro hw
      rcases hstart w f' hw with h1 | ⟨j, u, v, hj1, hj2, rfl, hu, hv⟩
      · exact .inl ⟨m + (n - m), by omega, by omega, (hPow _ _).1 ((b2.rp.lang w).1 h1)⟩
      · have hl : P true true v := (d4 v).1 ((d2.paths true true v).1 hv)
        cases j with
        | zero =>
          rw [Pow.zero_iff] at hu; subst hu
          exact .inr ⟨by omega, hl⟩
        | succ j =>
          rw [Pow.snoc_iff] at hu
          obtain ⟨u1, u2, rfl, hu1, hu2⟩ := hu
          refine .inl ⟨j + 1, hj1, hj2, Pow.snoc_iff.2 ⟨u1, u2 ++ v, by simp, hu1, ?_⟩⟩
          exact (h.paths false true _).1 (((h.paths false true u2).2 hu2).append ((h.paths true true v).2 hl))
    · rintro (⟨j, hj1, hj2, hj⟩ | ⟨hm, hw⟩)
      · obtain ⟨p, hp, hw⟩ := b2.full j hj1 (by omega)
        have h1 := hmono ((hw w).2 ((hPow _ _).2 hj))
        by_cases e : p = f'
        · exact e ▸ h1
        · exact h1.snocEps ((hT p eps f').2 (.inr ⟨hp, e, rfl, rfl⟩))
      · obtain ⟨s1, s2⟩ := b2.start (.inl ⟨hm, by omega⟩) hm
        exact (hmono ((d2.paths true true w).2 ((d4 w).2 hw))).consEps ((hT q eps f').2 (.inr ⟨s1, s2, rfl, rfl⟩))
  | false, false =>
    show WPath (rangeFinals g' f' fs).T eps q w q ↔ if m = 0 then w = [] else P false false w
    rw [← (rep_ends (P := P) m).2.1 w, ← d3]
    constructor
    · intro hw
      rcases hstart w q hw with h1 | ⟨j, u, v, hj1, hj2, rfl, hu, hv⟩
      · exact (d2.paths false false w).1 h1
      · exact absurd ((d2.paths true false v).1 hv) (d5 v)
    · intro hw; exact hmono ((d2.paths false false w).2 hw)
  | true, true =>
    show WPath (rangeFinals g' f' fs).T eps f' w f' ↔ P true true w
    rw [← d4]
    exact ⟨fun hw => (d2.paths true true w).1 (hfrom w f' hw), fun hw => hmono ((d2.paths true true w).2 hw)⟩
  | true, false =>
    show WPath (rangeFinals g' f' fs).T eps f' w q ↔ False
    exact ⟨fun hw => d5 w ((d2.paths true false w).1 (hfrom w q hw)), False.elim⟩

/-! ## Evaluation of a postfix expression -/

theorem evalE_spec {eps : A} (e : Regex A) (hv : e.Valid eps) (hs : e.Regular) (rest : List (Tok A)) (st : List (Frag A)) :
    ∃ x, (e.toPostfix ++ rest).foldlM (onPushOutput eps) st = rest.foldlM (onPushOutput eps) (x :: st) ∧
      FrE eps x e.Ends ∧ (e.StartsAtZero → x.2.1 = 0) := by
  induction e generalizing rest st with
  | sym a =>
    obtain ⟨h1, h2, h3, h4⟩ := fr_chars (eps := eps) (cs := [a]) (by simpa using Ne.symm hv)
    have h1' : Fr eps (bracket eps [a]) (fun w => w = [a]) := ⟨h1.single, h1.eps_eq, fun w => by rw [h1.lang]; simp⟩
    exact ⟨bracket eps [a], rfl, h1'.plain h2 h3, fun _ => h4⟩
  | chars cs =>
    obtain ⟨h1, h2, h3, h4⟩ := fr_chars (eps := eps) (cs := cs) hv
    exact ⟨bracket eps cs, rfl, h1.plain h2 h3, fun _ => h4⟩
  | cat e₁ e₂ ih₁ ih₂ =>
    obtain ⟨x1, a1, a2, a5⟩ := ih₁ hv.1 hs.1 (e₂.toPostfix ++ (.cat :: rest)) st
    obtain ⟨x2, b1, b2, b5⟩ := ih₂ hv.2 hs.2 (.cat :: rest) (x1 :: st)
    obtain ⟨x, c1, c2, c5⟩ := fre_cat a2 b2
    refine ⟨x, ?_, c2, fun h => c5.trans (a5 h)⟩
    rw [show (e₁.cat e₂).toPostfix ++ rest = e₁.toPostfix ++ (e₂.toPostfix ++ (.cat :: rest)) by simp [Regex.toPostfix], a1, b1,
      List.foldlM_cons]
    simp only [onPushOutput, c1]
    rfl
  | alt e₁ e₂ ih₁ ih₂ =>
    obtain ⟨x1, a1, a2, a5⟩ := ih₁ hv.1 hs.1 (e₂.toPostfix ++ (.alt :: rest)) st
    obtain ⟨x2, b1, b2, b5⟩ := ih₂ hv.2 hs.2 (.alt :: rest) (x1 :: st)
    obtain ⟨x, c1, c2, c3, c4⟩ := fr_alt a2.fr b2.fr
    refine ⟨x, ?_, c2.plain c3 c4, fun h => h.elim⟩
    rw [show (e₁.alt e₂).toPostfix ++ rest = e₁.toPostfix ++ (e₂.toPostfix ++ (.alt :: rest)) by simp [Regex.toPostfix], a1, b1,
      List.foldlM_cons]
    simp only [onPushOutput, c1]
    rfl
  | opt e ih =>
    obtain ⟨x, a1, a2, a5⟩ := ih hv hs (.opt :: rest) st
    obtain ⟨c1, c5⟩ := fre_opt a2
    refine ⟨zeroOrOne x, ?_, c1, fun h => c5.trans (a5 h)⟩
    rw [show e.opt.toPostfix ++ rest = e.toPostfix ++ (.opt :: rest) by simp [Regex.toPostfix], a1, List.foldlM_cons]
    rfl
  | star e ih =>
    obtain ⟨x, a1, a2, a5⟩ := ih hv hs (.star :: rest) st
    refine ⟨zeroOrMore x, ?_, fre_star a2, fun h => h.elim⟩
    rw [show e.star.toPostfix ++ rest = e.toPostfix ++ (.star :: rest) by simp [Regex.toPostfix], a1, List.foldlM_cons]
    rfl
  | plus e ih =>
    obtain ⟨x, a1, a2, a5⟩ := ih hv hs (.plus :: rest) st
    refine ⟨oneOrMore x, ?_, fre_plus a2, fun h => h.elim⟩
    rw [show e.plus.toPostfix ++ rest = e.toPostfix ++ (.plus :: rest) by simp [Regex.toPostfix], a1, List.foldlM_cons]
    rfl
  | rep m n e ih =>
    cases n with
    | none =>
      obtain ⟨x, a1, a2, a5⟩ := ih hv hs (.rep m none :: rest) st
      obtain ⟨y, c1, c2, c4⟩ := fre_range_none a2 m
      refine ⟨y, ?_, c2, fun h => (c4 h.1).trans (a5 h.2)⟩
      rw [show (Regex.rep m none e).toPostfix ++ rest = e.toPostfix ++ (.rep m none :: rest) by simp [Regex.toPostfix], a1,
        List.foldlM_cons]
      simp only [onPushOutput, c1]
      rfl
    | some n =>
      obtain ⟨x, a1, a2, a5⟩ := ih hv.2 hs.1 (.rep m (some n) :: rest) st
      obtain ⟨y, c1, c2, c8⟩ := fre_range_some a2 hv.1 (fun h h' => a5 (hs.2 h h'))
      refine ⟨y, ?_, c2, fun h => c8.trans (a5 h)⟩
      rw [show (Regex.rep m (some n) e).toPostfix ++ rest = e.toPostfix ++ (.rep m (some n) :: rest) by
          simp [Regex.toPostfix], a1, List.foldlM_cons]
      simp only [onPushOutput, c1]
      rfl

theorem compileE_spec {eps : A} (e : Regex A) (hv : e.Valid eps) (hs : e.Regular) :
    ∃ x, compile eps e.toPostfix = .ok x ∧ FrE eps x e.Ends := by
  obtain ⟨x, h1, h2, _⟩ := evalE_spec e hv hs [] []
  refine ⟨x, ?_, h2⟩
  rw [List.append_nil] at h1
  unfold compile
  cases h : e.toPostfix with
  | nil => exact absurd h (toPostfix_ne_nil e)
  | cons t ts =>
    rw [h] at h1
    simp only [h1]
    rfl

end Nfa
end PyBGL
