import Verif.Spec.Regex
import Verif.Proofs.NfaWF

/-!
# Paths in the automata built by Thompson's constructions
-/

namespace PyBGL
variable {A : Type} [DecidableEq A]

/-! ## Powers -/

theorem Pow.zero_iff {L : List A → Prop} {w : List A} : Pow L 0 w ↔ w = [] := by
  constructor
  · rintro ⟨ws, h, _, rfl⟩; rw [List.length_eq_zero_iff] at h; subst h; rfl
  · rintro rfl; exact ⟨[], rfl, by simp, rfl⟩

theorem Pow.succ_iff {L : List A → Prop} {k : Nat} {w : List A} :
    Pow L (k + 1) w ↔ ∃ u v, w = u ++ v ∧ L u ∧ Pow L k v := by
  constructor
  · rintro ⟨ws, h, h1, rfl⟩
    cases ws with
    | nil => simp at h
    | cons u ws =>
      exact ⟨u, ws.flatten, by simp, h1 u (by simp), ws, by simpa using h, fun x hx => h1 x (by simp [hx]), rfl⟩
  · rintro ⟨u, v, rfl, hu, ws, h, h1, rfl⟩
    refine ⟨u :: ws, by simp [h], ?_, by simp⟩
    intro x hx
    rcases List.mem_cons.1 hx with rfl | hx
    · exact hu
    · exact h1 x hx

theorem Pow.add {L : List A → Prop} {j k : Nat} {u v : List A} (h1 : Pow L j u) (h2 : Pow L k v) :
    Pow L (j + k) (u ++ v) := by
  obtain ⟨us, hl, hu, rfl⟩ := h1
  obtain ⟨vs, hl', hv, rfl⟩ := h2
  refine ⟨us ++ vs, by simp [hl, hl'], ?_, by simp⟩
  intro x hx
  rcases List.mem_append.1 hx with h | h
  · exact hu x h
  · exact hv x h

theorem Pow.one_iff {L : List A → Prop} {w : List A} : Pow L 1 w ↔ L w := by
  rw [Pow.succ_iff]
  constructor
  · rintro ⟨u, v, rfl, hu, hv⟩; rw [Pow.zero_iff] at hv; subst hv; simpa using hu
  · intro h; exact ⟨w, [], by simp, h, Pow.zero_iff.2 rfl⟩

theorem Pow.add_iff {L : List A → Prop} {j k : Nat} {w : List A} :
    Pow L (j + k) w ↔ ∃ u v, w = u ++ v ∧ Pow L j u ∧ Pow L k v := by
  constructor
  · intro h
    induction j generalizing w with
    | zero => exact ⟨[], w, rfl, Pow.zero_iff.2 rfl, by simpa using h⟩
    | succ j ih =>
      rw [show j + 1 + k = (j + k) + 1 by omega, Pow.succ_iff] at h
      obtain ⟨u, v, rfl, hu, hv⟩ := h
      obtain ⟨x, y, rfl, hx, hy⟩ := ih hv
      exact ⟨u ++ x, y, by simp, Pow.succ_iff.2 ⟨u, x, rfl, hu, hx⟩, hy⟩
  · rintro ⟨u, v, rfl, h1, h2⟩; exact h1.add h2

theorem Pow.snoc_iff {L : List A → Prop} {k : Nat} {w : List A} :
    Pow L (k + 1) w ↔ ∃ u v, w = u ++ v ∧ Pow L k u ∧ L v := by
  rw [Pow.add_iff]; simp only [Pow.one_iff]

theorem Pow.congr {L L' : List A → Prop} (h : ∀ w, L w ↔ L' w) (k : Nat) (w : List A) : Pow L k w ↔ Pow L' k w := by
  simp only [Pow, h]

/-! ## Residual languages -/

section
variable {Q : Type} {eps : A}

/-- To bound the words leading to `f`, exhibit residual languages. -/
theorem WPath.residual {T : Q → A → Q → Prop} {f : Q} (Acc : Q → List A → Prop) (h0 : Acc f [])
    (heps : ∀ q s w, T q eps s → Acc s w → Acc q w)
    (hsym : ∀ q a s w, a ≠ eps → T q a s → Acc s w → Acc q (a :: w)) {q : Q} {w : List A}
    (h : WPath T eps q w f) : Acc q w := by
  have : ∀ q w r, WPath T eps q w r → r = f → Acc q w := by
    intro q w r h
    refine WPath.induct (P := fun q w r => r = f → Acc q w) ?_ ?_ ?_ h
    · rintro q rfl; exact h0
    · intro q s w r hT _ ih hr; exact heps q s w hT (ih hr)
    · intro q a s w r ha hT _ ih hr; exact hsym q a s w ha hT (ih hr)
  exact this q w f h rfl

theorem WPath.consEps {T : Q → A → Q → Prop} {q s r : Q} {w : List A} (h : T q eps s) (h' : WPath T eps s w r) :
    WPath T eps q w r := by simpa using (WPath.epsStep h).append h'

theorem WPath.consSym {T : Q → A → Q → Prop} {q s r : Q} {a : A} {w : List A} (ha : a ≠ eps) (h : T q a s)
    (h' : WPath T eps s w r) : WPath T eps q (a :: w) r := (WPath.symStep ha h).append h'

/-- Words accepted up to a suffix. -/
theorem WPath.step_prefix {T : Q → A → Q → Prop} {f : Q} {P : List A → Prop} {q s : Q} {a : A} {w : List A}
    (ha : a ≠ eps) (hT : T q a s) (h : ∃ u v, w = u ++ v ∧ WPath T eps s u f ∧ P v) :
    ∃ u v, a :: w = u ++ v ∧ WPath T eps q u f ∧ P v := by
  obtain ⟨u, v, rfl, h1, h2⟩ := h
  exact ⟨a :: u, v, rfl, h1.consSym ha hT, h2⟩

theorem WPath.step_prefix_eps {T : Q → A → Q → Prop} {f : Q} {P : List A → Prop} {q s : Q} {w : List A}
    (hT : T q eps s) (h : ∃ u v, w = u ++ v ∧ WPath T eps s u f ∧ P v) :
    ∃ u v, w = u ++ v ∧ WPath T eps q u f ∧ P v := by
  obtain ⟨u, v, rfl, h1, h2⟩ := h
  exact ⟨u, v, rfl, h1.consEps hT, h2⟩

/-- Paths stay in a set closed under transitions. -/
theorem WPath.stay {T : Q → A → Q → Prop} {V : Q → Prop} (hV : ∀ x a y, T x a y → V x → V y) {q r : Q} {w : List A}
    (h : WPath T eps q w r) (hq : V q) : V r := by
  obtain ⟨u, hu, rfl⟩ := h
  induction hu with
  | nil => exact hq
  | cons h _ ih => exact ih (hV _ _ _ h hq)

/-- Paths from a set closed under transitions only use the transitions between its elements. -/
theorem WPath.restrict {T T' : Q → A → Q → Prop} {V : Q → Prop} (hV : ∀ x a y, T x a y → V x → V y ∧ T' x a y)
    {q r : Q} {w : List A} (h : WPath T eps q w r) (hq : V q) : WPath T' eps q w r := by
  obtain ⟨u, hu, rfl⟩ := h
  refine ⟨u, ?_, rfl⟩
  induction hu with
  | nil => exact .nil _
  | cons h _ ih => exact .cons (hV _ _ _ h hq).2 (ih (hV _ _ _ h hq).1)

/-- Paths towards a set closed under predecessors only use the transitions between its elements. -/
theorem WPath.restrict' {T T' : Q → A → Q → Prop} {V : Q → Prop} (hV : ∀ x a y, T x a y → V y → V x ∧ T' x a y)
    {q r : Q} {w : List A} (h : WPath T eps q w r) (hr : V r) : WPath T' eps q w r := by
  obtain ⟨u, hu, rfl⟩ := h
  refine ⟨u, ?_, rfl⟩
  have : V q ∧ LPath T' q u r := by
    induction hu with
    | nil => exact ⟨hr, .nil _⟩
    | cons h _ ih =>
      have := hV _ _ _ h (ih hr).1
      exact ⟨this.1, .cons this.2 (ih hr).2⟩
  exact this.2

/-- A path to `r` without incoming transitions is empty. -/
theorem WPath.of_noIn {T : Q → A → Q → Prop} {r : Q} (hr : ∀ x a, ¬ T x a r) {q : Q} {w : List A}
    (h : WPath T eps q w r) : q = r ∧ w = [] := by
  obtain ⟨u, hu, rfl⟩ := h
  rcases List.eq_nil_or_concat u with rfl | ⟨u, a, rfl⟩
  · rw [LPath.nil_iff] at hu; exact ⟨hu, rfl⟩
  · rw [List.concat_eq_append, LPath.snoc_iff] at hu
    obtain ⟨s, _, h⟩ := hu
    exact absurd h (hr s a)

/-- A path from `q` without outgoing transitions is empty. -/
theorem WPath.of_noOut {T : Q → A → Q → Prop} {q : Q} (hq : ∀ a x, ¬ T q a x) {r : Q} {w : List A}
    (h : WPath T eps q w r) : q = r ∧ w = [] := by
  obtain ⟨u, hu, rfl⟩ := h
  cases hu with
  | nil => exact ⟨rfl, rfl⟩
  | cons h _ => exact absurd h (hq _ _)

/-- Image of a transition relation. -/
def TImage (ρ : Q → Q) (T : Q → A → Q → Prop) (q : Q) (a : A) (r : Q) : Prop :=
  ∃ x y, T x a y ∧ q = ρ x ∧ r = ρ y

theorem WPath.image_iff {ρ : Q → Q} {T : Q → A → Q → Prop} {V : Q → Prop} (hV : ∀ x a y, T x a y → V x ∧ V y)
    (hρ : ∀ x y, V x → V y → ρ x = ρ y → x = y) {q r : Q} {w : List A} (hq : V q) (hr : V r) :
    WPath (TImage ρ T) eps (ρ q) w (ρ r) ↔ WPath T eps q w r := by
  constructor
  · rintro ⟨u, hu, rfl⟩
    refine ⟨u, ?_, rfl⟩
    generalize hx : ρ q = x at hu
    generalize hy : ρ r = y at hu
    induction hu generalizing q with
    | nil x => rw [hρ q r hq hr (hx.trans hy.symm)]; exact .nil _
    | cons h _ ih =>
      obtain ⟨x', y', hT, e1, e2⟩ := h
      have := hρ q x' hq (hV _ _ _ hT).1 (hx.trans e1)
      subst this
      exact .cons hT (ih (hV _ _ _ hT).2 e2.symm hy)
  · rintro ⟨u, hu, rfl⟩
    refine ⟨u, ?_, rfl⟩
    clear hq hr
    induction hu with
    | nil => exact .nil _
    | cons h _ ih => exact .cons ⟨_, _, h, rfl, rfl⟩ ih

/-! ## The constructions -/

variable {T T1 T2 : Q → A → Q → Prop} {V V1 V2 : Q → Prop}

/-- Transitions of a concatenation. -/
def TCat (eps : A) (T1 T2 : Q → A → Q → Prop) (f1 q2 : Q) (x : Q) (a : A) (y : Q) : Prop :=
  T1 x a y ∨ T2 x a y ∨ (x = f1 ∧ a = eps ∧ y = q2)

theorem cat_core (h1 : ∀ x a y, T1 x a y → V1 x ∧ V1 y) (h2 : ∀ x a y, T2 x a y → V2 x ∧ V2 y)
    (hd : ∀ x, V1 x → ¬ V2 x) {q1 f1 q2 f2 : Q} (hq1 : V1 q1) (hf1 : V1 f1) (hq2 : V2 q2) (hf2 : V2 f2) (w : List A) :
    WPath (TCat eps T1 T2 f1 q2) eps q1 w f2 ↔
      ∃ u v, w = u ++ v ∧ WPath T1 eps q1 u f1 ∧ WPath T2 eps q2 v f2 := by
  constructor
  · intro h
    have := WPath.residual (fun x w => (V1 x ∧ ∃ u v, w = u ++ v ∧ WPath T1 eps x u f1 ∧ WPath T2 eps q2 v f2) ∨
      (V2 x ∧ WPath T2 eps x w f2)) (.inr ⟨hf2, .nil _⟩) ?_ ?_ h
    · rcases this with h | h
      · exact h.2
      · exact absurd h.1 (hd _ hq1)
    · rintro q s w (hT | hT | ⟨rfl, _, rfl⟩) ha
      · rcases ha with ha | ha
        · exact .inl ⟨(h1 _ _ _ hT).1, WPath.step_prefix_eps hT ha.2⟩
        · exact absurd ha.1 (hd _ (h1 _ _ _ hT).2)
      · rcases ha with ha | ha
        · exact absurd (h2 _ _ _ hT).2 (hd _ ha.1)
        · exact .inr ⟨(h2 _ _ _ hT).1, ha.2.consEps hT⟩
      · rcases ha with ha | ha
        · exact absurd hq2 (hd _ ha.1)
        · exact .inl ⟨hf1, [], w, rfl, .nil _, ha.2⟩
    · rintro q a s w hne (hT | hT | ⟨_, e, _⟩) ha
      · rcases ha with ha | ha
        · exact .inl ⟨(h1 _ _ _ hT).1, WPath.step_prefix hne hT ha.2⟩
        · exact absurd ha.1 (hd _ (h1 _ _ _ hT).2)
      · rcases ha with ha | ha
        · exact absurd (h2 _ _ _ hT).2 (hd _ ha.1)
        · exact .inr ⟨(h2 _ _ _ hT).1, ha.2.consSym hne hT⟩
      · exact absurd e hne
  · rintro ⟨u, v, rfl, hu, hv⟩
    have hu' : WPath (TCat eps T1 T2 f1 q2) eps q1 u f1 := hu.mono (fun _ _ _ h => .inl h)
    have hv' : WPath (TCat eps T1 T2 f1 q2) eps q2 v f2 := hv.mono (fun _ _ _ h => .inr (.inl h))
    exact hu'.append (WPath.consEps (.inr (.inr ⟨rfl, rfl, rfl⟩)) hv')

/-- In a concatenation, the paths towards the first part only use its transitions. -/
theorem cat_left (h1 : ∀ x a y, T1 x a y → V1 x ∧ V1 y) (h2 : ∀ x a y, T2 x a y → V2 x ∧ V2 y)
    (hd : ∀ x, V1 x → ¬ V2 x) {f1 q2 : Q} (hq2 : V2 q2) {x y : Q} (hy : V1 y) (w : List A) :
    WPath (TCat eps T1 T2 f1 q2) eps x w y ↔ WPath T1 eps x w y := by
  constructor
  · intro h
    refine WPath.restrict' (V := V1) ?_ h hy
    rintro x a y (hT | hT | ⟨_, _, rfl⟩) hv
    · exact ⟨(h1 _ _ _ hT).1, hT⟩
    · exact absurd (h2 _ _ _ hT).2 (hd _ hv)
    · exact absurd hq2 (hd _ hv)
  · exact WPath.mono (fun _ _ _ h => .inl h)

/-- In a concatenation, the paths from the second part only use its transitions. -/
theorem cat_right (h1 : ∀ x a y, T1 x a y → V1 x ∧ V1 y) (h2 : ∀ x a y, T2 x a y → V2 x ∧ V2 y)
    (hd : ∀ x, V1 x → ¬ V2 x) {f1 q2 : Q} (hf1 : V1 f1) {x y : Q} (hx : V2 x) {w : List A}
    (h : WPath (TCat eps T1 T2 f1 q2) eps x w y) : V2 y ∧ WPath T2 eps x w y := by
  have key : ∀ x a y, TCat eps T1 T2 f1 q2 x a y → V2 x → V2 y ∧ T2 x a y := by
    rintro x a y (hT | hT | ⟨rfl, _, _⟩) hv
    · exact absurd hv (hd _ (h1 _ _ _ hT).1)
    · exact ⟨(h2 _ _ _ hT).2, hT⟩
    · exact absurd hv (hd _ hf1)
  exact ⟨h.stay (fun x a y hT hv => (key x a y hT hv).1) hx, h.restrict key hx⟩

/-- Transitions of an alternation. -/
def TAlt (eps : A) (T1 T2 : Q → A → Q → Prop) (q1 f1 q2 f2 q f : Q) (x : Q) (a : A) (y : Q) : Prop :=
  T1 x a y ∨ T2 x a y ∨ (a = eps ∧ ((x = q ∧ y = q1) ∨ (x = q ∧ y = q2) ∨ (x = f1 ∧ y = f) ∨ (x = f2 ∧ y = f)))

theorem alt_core (h1 : ∀ x a y, T1 x a y → V1 x ∧ V1 y) (h2 : ∀ x a y, T2 x a y → V2 x ∧ V2 y)
    (hd : ∀ x, V1 x → ¬ V2 x) {q1 f1 q2 f2 q f : Q} (hq1 : V1 q1) (hf1 : V1 f1) (hq2 : V2 q2) (hf2 : V2 f2)
    (hq : ¬ V1 q ∧ ¬ V2 q) (hf : ¬ V1 f ∧ ¬ V2 f) (hqf : q ≠ f) (w : List A) :
    WPath (TAlt eps T1 T2 q1 f1 q2 f2 q f) eps q w f ↔ WPath T1 eps q1 w f1 ∨ WPath T2 eps q2 w f2 := by
  constructor
  · intro h
    have := WPath.residual (fun x w => (V1 x → WPath T1 eps x w f1) ∧ (V2 x → WPath T2 eps x w f2) ∧
      (x = q → WPath T1 eps q1 w f1 ∨ WPath T2 eps q2 w f2) ∧ (x = f → w = []))
      ⟨fun h => absurd h hf.1, fun h => absurd h hf.2, fun h => absurd h.symm hqf, fun _ => rfl⟩ ?_ ?_ h
    · exact this.2.2.1 rfl
    · rintro x s w (hT | hT | ⟨_, ⟨rfl, rfl⟩ | ⟨rfl, rfl⟩ | ⟨rfl, rfl⟩ | ⟨rfl, rfl⟩⟩) ⟨a1, a2, a3, a4⟩
      · have hx := (h1 _ _ _ hT).1
        exact ⟨fun _ => (a1 (h1 _ _ _ hT).2).consEps hT, fun h => absurd h (hd _ hx),
          fun e => absurd (e ▸ hx) hq.1, fun e => absurd (e ▸ hx) hf.1⟩
      · have hx := (h2 _ _ _ hT).1
        exact ⟨fun h => absurd hx (hd _ h), fun _ => (a2 (h2 _ _ _ hT).2).consEps hT,
          fun e => absurd (e ▸ hx) hq.2, fun e => absurd (e ▸ hx) hf.2⟩
      · exact ⟨fun h => absurd h hq.1, fun h => absurd h hq.2, fun _ => .inl (a1 hq1), fun e => absurd e hqf⟩
      · exact ⟨fun h => absurd h hq.1, fun h => absurd h hq.2, fun _ => .inr (a2 hq2), fun e => absurd e hqf⟩
      · have := a4 rfl; subst this
        exact ⟨fun _ => .nil _, fun h => absurd h (hd _ hf1), fun e => absurd (e ▸ hf1) hq.1,
          fun e => absurd (e ▸ hf1) hf.1⟩
      · have := a4 rfl; subst this
        exact ⟨fun h => absurd hf2 (hd _ h), fun _ => .nil _, fun e => absurd (e ▸ hf2) hq.2,
          fun e => absurd (e ▸ hf2) hf.2⟩
    · rintro x a s w hne (hT | hT | ⟨e, _⟩) ⟨a1, a2, a3, a4⟩
      · have hx := (h1 _ _ _ hT).1
        exact ⟨fun _ => (a1 (h1 _ _ _ hT).2).consSym hne hT, fun h => absurd h (hd _ hx),
          fun e => absurd (e ▸ hx) hq.1, fun e => absurd (e ▸ hx) hf.1⟩
      · have hx := (h2 _ _ _ hT).1
        exact ⟨fun h => absurd hx (hd _ h), fun _ => (a2 (h2 _ _ _ hT).2).consSym hne hT,
          fun e => absurd (e ▸ hx) hq.2, fun e => absurd (e ▸ hx) hf.2⟩
      · exact absurd e hne
  · have e : ∀ x y, ((x = q ∧ y = q1) ∨ (x = q ∧ y = q2) ∨ (x = f1 ∧ y = f) ∨ (x = f2 ∧ y = f)) →
        WPath (TAlt eps T1 T2 q1 f1 q2 f2 q f) eps x [] y := fun x y h => WPath.epsStep (.inr (.inr ⟨rfl, h⟩))
    rintro (h | h)
    · have h' : WPath (TAlt eps T1 T2 q1 f1 q2 f2 q f) eps q1 w f1 := h.mono (fun _ _ _ h => .inl h)
      simpa using (e q q1 (by simp)).append (h'.append (e f1 f (by simp)))
    · have h' : WPath (TAlt eps T1 T2 q1 f1 q2 f2 q f) eps q2 w f2 := h.mono (fun _ _ _ h => .inr (.inl h))
      simpa using (e q q2 (by simp)).append (h'.append (e f2 f (by simp)))

/-- Transitions of a star. -/
def TStar (eps : A) (T : Q → A → Q → Prop) (q0 f nq nf : Q) (x : Q) (a : A) (y : Q) : Prop :=
  T x a y ∨ (a = eps ∧ ((x = nq ∧ y = q0) ∨ (x = f ∧ y = nf) ∨ (x = nq ∧ y = nf) ∨ (x = nf ∧ y = nq)))

/-- Transitions of a plus. -/
def TPlus (eps : A) (T : Q → A → Q → Prop) (q0 f nq nf : Q) (x : Q) (a : A) (y : Q) : Prop :=
  T x a y ∨ (a = eps ∧ ((x = nq ∧ y = q0) ∨ (x = f ∧ y = nf) ∨ (x = nf ∧ y = nq)))

theorem star_core (hV : ∀ x a y, T x a y → V x ∧ V y) {q0 f nq nf : Q} (hq0 : V q0) (hf : V f) (hnq : ¬ V nq)
    (hnf : ¬ V nf) (w : List A) :
    WPath (TStar eps T q0 f nq nf) eps nq w nf ↔ ∃ k, Pow (fun w => WPath T eps q0 w f) k w := by
  constructor
  · intro h
    have := WPath.residual (fun x w =>
      (V x → ∃ u v, w = u ++ v ∧ WPath T eps x u f ∧ ∃ k, Pow (fun w => WPath T eps q0 w f) k v) ∧
      ((x = nq ∨ x = nf) → ∃ k, Pow (fun w => WPath T eps q0 w f) k w))
      ⟨fun h => absurd h hnf, fun _ => ⟨0, Pow.zero_iff.2 rfl⟩⟩ ?_ ?_ h
    · exact this.2 (.inl rfl)
    · rintro x s w (hT | ⟨_, ⟨rfl, rfl⟩ | ⟨rfl, rfl⟩ | ⟨rfl, rfl⟩ | ⟨rfl, rfl⟩⟩) ⟨a1, a2⟩
      · have hx := (hV _ _ _ hT).1
        refine ⟨fun _ => WPath.step_prefix_eps hT (a1 (hV _ _ _ hT).2), ?_⟩
        rintro (rfl | rfl)
        · exact absurd hx hnq
        · exact absurd hx hnf
      · refine ⟨fun h => absurd h hnq, fun _ => ?_⟩
        obtain ⟨u, v, rfl, h1, k, h2⟩ := a1 hq0
        exact ⟨k + 1, Pow.succ_iff.2 ⟨u, v, rfl, h1, h2⟩⟩
      · refine ⟨fun _ => ⟨[], w, rfl, .nil _, a2 (.inr rfl)⟩, ?_⟩
        rintro (rfl | rfl)
        · exact absurd hf hnq
        · exact absurd hf hnf
      · exact ⟨fun h => absurd h hnq, fun _ => a2 (.inr rfl)⟩
      · exact ⟨fun h => absurd h hnf, fun _ => a2 (.inl rfl)⟩
    · rintro x a s w hne (hT | ⟨e, _⟩) ⟨a1, a2⟩
      · have hx := (hV _ _ _ hT).1
        refine ⟨fun _ => WPath.step_prefix hne hT (a1 (hV _ _ _ hT).2), ?_⟩
        rintro (rfl | rfl)
        · exact absurd hx hnq
        · exact absurd hx hnf
      · exact absurd e hne
  · rintro ⟨k, h⟩
    have e : ∀ x y, ((x = nq ∧ y = q0) ∨ (x = f ∧ y = nf) ∨ (x = nq ∧ y = nf) ∨ (x = nf ∧ y = nq)) →
        WPath (TStar eps T q0 f nq nf) eps x [] y := fun x y h => WPath.epsStep (.inr ⟨rfl, h⟩)
    induction k generalizing w with
    | zero => rw [Pow.zero_iff] at h; subst h; exact e nq nf (by simp)
    | succ k ih =>
      rw [Pow.succ_iff] at h
      obtain ⟨u, v, rfl, h1, h2⟩ := h
      have h1' : WPath (TStar eps T q0 f nq nf) eps q0 u f := h1.mono (fun _ _ _ h => .inl h)
      have := (e nq q0 (by simp)).append (h1'.append ((e f nf (by simp)).append ((e nf nq (by simp)).append (ih v h2))))
      simpa using this

theorem plus_core (hV : ∀ x a y, T x a y → V x ∧ V y) {q0 f nq nf : Q} (hq0 : V q0) (hf : V f) (hnq : ¬ V nq)
    (hnf : ¬ V nf) (hne : nq ≠ nf) (w : List A) :
    WPath (TPlus eps T q0 f nq nf) eps nq w nf ↔ ∃ k, 1 ≤ k ∧ Pow (fun w => WPath T eps q0 w f) k w := by
  constructor
  · intro h
    have := WPath.residual (fun x w =>
      (V x → ∃ u v, w = u ++ v ∧ WPath T eps x u f ∧ ∃ k, Pow (fun w => WPath T eps q0 w f) k v) ∧
      (x = nq → ∃ k, 1 ≤ k ∧ Pow (fun w => WPath T eps q0 w f) k w) ∧
      (x = nf → ∃ k, Pow (fun w => WPath T eps q0 w f) k w))
      ⟨fun h => absurd h hnf, fun h => absurd h.symm hne, fun _ => ⟨0, Pow.zero_iff.2 rfl⟩⟩ ?_ ?_ h
    · exact this.2.1 rfl
    · rintro x s w (hT | ⟨_, ⟨rfl, rfl⟩ | ⟨rfl, rfl⟩ | ⟨rfl, rfl⟩⟩) ⟨a1, a2, a3⟩
      · have hx := (hV _ _ _ hT).1
        exact ⟨fun _ => WPath.step_prefix_eps hT (a1 (hV _ _ _ hT).2), fun e => absurd (e ▸ hx) hnq,
          fun e => absurd (e ▸ hx) hnf⟩
      · refine ⟨fun h => absurd h hnq, fun _ => ?_, fun e => absurd e hne⟩
        obtain ⟨u, v, rfl, h1, k, h2⟩ := a1 hq0
        exact ⟨k + 1, by omega, Pow.succ_iff.2 ⟨u, v, rfl, h1, h2⟩⟩
      · exact ⟨fun _ => ⟨[], w, rfl, .nil _, a3 rfl⟩, fun e => absurd (e ▸ hf) hnq, fun e => absurd (e ▸ hf) hnf⟩
      · refine ⟨fun h => absurd h hnf, fun e => absurd e.symm hne, fun _ => ?_⟩
        obtain ⟨k, _, h⟩ := a2 rfl
        exact ⟨k, h⟩
    · rintro x a s w hne (hT | ⟨e, _⟩) ⟨a1, a2, a3⟩
      · have hx := (hV _ _ _ hT).1
        exact ⟨fun _ => WPath.step_prefix hne hT (a1 (hV _ _ _ hT).2), fun e => absurd (e ▸ hx) hnq,
          fun e => absurd (e ▸ hx) hnf⟩
      · exact absurd e hne
  · rintro ⟨k, hk, h⟩
    have e : ∀ x y, ((x = nq ∧ y = q0) ∨ (x = f ∧ y = nf) ∨ (x = nf ∧ y = nq)) →
        WPath (TPlus eps T q0 f nq nf) eps x [] y := fun x y h => WPath.epsStep (.inr ⟨rfl, h⟩)
    obtain ⟨j, rfl⟩ : ∃ j, k = j + 1 := ⟨k - 1, by omega⟩
    clear hk
    induction j generalizing w with
    | zero =>
      rw [Pow.one_iff] at h
      have h1' : WPath (TPlus eps T q0 f nq nf) eps q0 w f := h.mono (fun _ _ _ h => .inl h)
      simpa using (e nq q0 (by simp)).append (h1'.append (e f nf (by simp)))
    | succ k ih =>
      rw [Pow.succ_iff] at h
      obtain ⟨u, v, rfl, h1, h2⟩ := h
      have h1' : WPath (TPlus eps T q0 f nq nf) eps q0 u f := h1.mono (fun _ _ _ h => .inl h)
      have := (e nq q0 (by simp)).append (h1'.append ((e f nf (by simp)).append ((e nf nq (by simp)).append (ih v h2))))
      simpa using this

/-- Adding an ε-transition from `q0` to `f`. -/
def TOpt (eps : A) (T : Q → A → Q → Prop) (q0 f : Q) (x : Q) (a : A) (y : Q) : Prop :=
  T x a y ∨ (x = q0 ∧ a = eps ∧ y = f)

theorem opt_core {q0 f : Q} (hin : ∀ x a, ¬ T x a q0) (hout : ∀ a x, ¬ T f a x) (hne : q0 ≠ f) (w : List A) :
    WPath (TOpt eps T q0 f) eps q0 w f ↔ w = [] ∨ WPath T eps q0 w f := by
  constructor
  · intro h
    have := WPath.residual (fun x w => (x = q0 → w = [] ∨ WPath T eps q0 w f) ∧ (x ≠ q0 → WPath T eps x w f))
      ⟨fun e => absurd e.symm hne, fun _ => .nil _⟩ ?_ ?_ h
    · exact this.1 rfl
    · rintro x s w (hT | ⟨rfl, _, rfl⟩) ⟨a1, a2⟩
      · have hs : s ≠ q0 := by rintro rfl; exact hin _ _ hT
        exact ⟨fun e => .inr (by subst e; exact (a2 hs).consEps hT), fun _ => (a2 hs).consEps hT⟩
      · refine ⟨fun _ => .inl (WPath.of_noOut hout (a2 (Ne.symm hne))).2, fun h => absurd rfl h⟩
    · rintro x a s w hne' (hT | ⟨_, e, _⟩) ⟨a1, a2⟩
      · have hs : s ≠ q0 := by rintro rfl; exact hin _ _ hT
        exact ⟨fun e => .inr (by subst e; exact (a2 hs).consSym hne' hT), fun _ => (a2 hs).consSym hne' hT⟩
      · exact absurd e hne'
  · rintro (rfl | h)
    · exact WPath.epsStep (.inr ⟨rfl, rfl, rfl⟩)
    · exact h.mono (fun _ _ _ h => .inl h)

end
end PyBGL
