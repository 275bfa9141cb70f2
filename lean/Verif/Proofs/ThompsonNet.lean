import Verif.Proofs.ThompsonEnds
import Verif.Proofs.ThompsonSize
import Verif.Spec.ThompsonNet

/-!
# The automaton of an expression is the one drawn in `Spec/ThompsonNet.lean`
-/

namespace PyBGL
variable {A : Type} [DecidableEq A]
open Thompson Net

namespace Nfa

/-- The fragment has the states and the arcs of `P`. -/
structure FrW (eps : A) (x : Frag A) (P : Net A) : Prop where
  wf : x.1.WF
  closed : ∀ q a r, x.1.T q a r → q ∈ x.1.vertices ∧ r ∈ x.1.vertices
  fin : ∀ q, x.1.isFinal q = true → q = x.2.2
  eps_eq : x.1.eps = eps
  dense : Dense P.size x.1
  start : x.2.1 = P.start
  last : x.2.2 + 1 = P.size
  arcs : ∀ q a r, x.1.T q a r ↔ P.arc q a r

/-- The fragment is the automaton `P`, if the start of `P` is one of its states. -/
structure FrN (eps : A) (x : Frag A) (P : Net A) : Prop extends FrW eps x P where
  single : P.start < P.size → x.1.Single x.2.1 x.2.2

theorem FrW.mem {eps : A} {x : Frag A} {P : Net A} (h : FrW eps x P) (q : Nat) : q ∈ x.1.vertices ↔ q < P.size := by
  rw [h.dense.1]; simp

theorem FrW.lt {eps : A} {x : Frag A} {P : Net A} (h : FrW eps x P) (q : Nat) (hq : q ∈ x.1.vertices) : q < x.1.lastVertexId := by
  rw [h.dense.2]; exact (h.mem q).1 hq

theorem FrN.of_single {eps : A} {x : Frag A} {P : Net A} (h : x.1.Single x.2.1 x.2.2) (he : x.1.eps = eps) (hd : Dense P.size x.1) (hs : x.2.1 = P.start)
    (hl : x.2.2 + 1 = P.size) (ha : ∀ q a r, x.1.T q a r ↔ P.arc q a r) : FrN eps x P :=
  ⟨⟨h.wf, h.T_closed, fun q hq => (h.fin q).1 hq, he, hd, hs, hl, ha⟩, fun _ => h⟩

theorem frn_cat {eps : A} {x1 x2 : Frag A} {P R : Net A} (h1 : FrW eps x1 P) (h2 : FrN eps x2 R) (hR : R.start < R.size) (hq : P.start < P.size + R.size) :
    ∃ x, concatenation x1 x2 = .ok x ∧ FrN eps x (cat eps P R) := by
  obtain ⟨g1, q1, f1⟩ := x1
  obtain ⟨g2, q2, f2⟩ := x2
  have e1 : q1 = P.start := h1.start
  have e2 : q2 = R.start := h2.start
  have l1 : f1 + 1 = P.size := h1.last
  have l2 : f2 + 1 = R.size := h2.last
  have m1 : ∀ q, q ∈ g1.vertices ↔ q < P.size := h1.mem
  have m2 : ∀ q, q ∈ g2.vertices ↔ q < R.size := h2.mem
  have s2 : g2.Single q2 f2 := h2.single hR
  obtain ⟨g, ρ, a1, a2, a3, a4, a5, a6, a7, gi, m, hi, hm⟩ := concatenation_spec' (q1 := q1) h1.wf h1.lt h1.closed
    (f1 := f1) ((m1 _).2 (by omega)) h1.fin s2
  have hρ : ∀ y, y < R.size → ρ y = P.size + y := by
    intro y hy
    have := (insertAutomaton_dense h1.dense h2.dense (gi, m) hi).2 y
    rw [if_pos hy, hm y ((m2 y).2 hy)] at this
    exact Option.some.inj this
  have hf : ρ f2 = P.size + f2 := hρ f2 (by omega)
  have hs : g.Single q1 (ρ f2) := by
    refine a2 ?_
    by_cases h : q1 < P.size
    · exact .inl ((m1 _).2 h)
    · exact .inr ⟨q1 - P.size, (m2 _).2 (by omega), by rw [hρ _ (by omega)]; omega⟩
  refine ⟨_, a1, .of_single hs (a3.trans h1.eps_eq) ?_ e1 ?_ ?_⟩
  · exact (concatenation_dense h1.dense (by show f1 < _; omega) h2.dense l2 _ a1).1
  · show ρ f2 + 1 = P.size + R.size; omega
  · intro q a r
    show g.T q a r ↔ _
    rw [a6, show g1.eps = eps from h1.eps_eq]
    simp only [TCat, cat, shifted]
    refine or_congr (h1.arcs q a r) (or_congr ?_ ?_)
    · constructor
      · rintro ⟨x, y, h, rfl, rfl⟩
        obtain ⟨hx, hy⟩ := h2.closed _ _ _ h
        exact ⟨x, y, hρ x ((m2 x).1 hx), hρ y ((m2 y).1 hy), (h2.arcs _ _ _).1 h⟩
      · rintro ⟨x, y, rfl, rfl, h⟩
        have h' := (h2.arcs _ _ _).2 h
        obtain ⟨hx, hy⟩ := h2.closed _ _ _ h'
        exact ⟨x, y, h', (hρ x ((m2 x).1 hx)).symm, (hρ y ((m2 y).1 hy)).symm⟩
    · rw [hρ q2 (by omega), e2]
      constructor
      · rintro ⟨rfl, rfl, rfl⟩; exact ⟨rfl, l1, rfl⟩
      · rintro ⟨rfl, h, rfl⟩; exact ⟨by omega, rfl, rfl⟩

theorem frn_alt {eps : A} {x1 x2 : Frag A} {P R : Net A} (h1 : FrN eps x1 P) (h2 : FrN eps x2 R) (hP : P.start < P.size) (hR : R.start < R.size) :
    ∃ x, alternation x1 x2 = .ok x ∧ FrN eps x (alt eps P R) := by
  obtain ⟨g1, q1, f1⟩ := x1
  obtain ⟨g2, q2, f2⟩ := x2
  have e1 : q1 = P.start := h1.start
  have e2 : q2 = R.start := h2.start
  have l1 : f1 + 1 = P.size := h1.last
  have l2 : f2 + 1 = R.size := h2.last
  have m1 : ∀ q, q ∈ g1.vertices ↔ q < P.size := h1.mem
  have m2 : ∀ q, q ∈ g2.vertices ↔ q < R.size := h2.mem
  have s1 : g1.Single q1 f1 := h1.single hP
  have s2 : g2.Single q2 f2 := h2.single hR
  obtain ⟨g, q, f, ρ, a1, a2, a3, hfr, hinj, hq, hf, hqf, hT, gi, m, hi, hql, hm⟩ := alternation_spec' s1 s2
  have hins := insertAutomaton_dense h1.dense h2.dense _ hi
  have hρ : ∀ y, y < R.size → ρ y = P.size + y := by
    intro y hy
    have := hins.2 y
    rw [if_pos hy, hm y ((m2 y).2 hy)] at this
    exact Option.some.inj this
  have hq' : q = P.size + R.size := hql.trans hins.1.2
  have hsz := alternation_sized (x1 := (g1, q1, f1)) (x2 := (g2, q2, f2)) ⟨h1.dense, by show q1 < _; omega, l1⟩ ⟨h2.dense, by show q2 < _; omega, l2⟩ _ a1
  have hf' : f + 1 = P.size + R.size + 2 := hsz.2.2
  have hf'' : f = P.size + R.size + 1 := by omega
  refine ⟨_, a1, .of_single a2 (a3.trans h1.eps_eq) hsz.1 hq' hsz.2.2 ?_⟩
  intro x a y
  show g.T x a y ↔ _
  rw [hT, show g1.eps = eps from h1.eps_eq]
  simp only [TAlt, alt, shifted]
  rw [hρ q2 (by omega), hρ f2 (by omega), hq', hf'', e1, e2]
  refine or_congr (h1.arcs x a y) (or_congr ?_ (and_congr_right fun _ => ?_))
  · constructor
    · rintro ⟨x, y, h, rfl, rfl⟩
      obtain ⟨hx, hy⟩ := h2.closed _ _ _ h
      exact ⟨x, y, hρ x ((m2 x).1 hx), hρ y ((m2 y).1 hy), (h2.arcs _ _ _).1 h⟩
    · rintro ⟨x, y, rfl, rfl, h⟩
      have h' := (h2.arcs _ _ _).2 h
      obtain ⟨hx, hy⟩ := h2.closed _ _ _ h'
      exact ⟨x, y, h', (hρ x ((m2 x).1 hx)).symm, (hρ y ((m2 y).1 hy)).symm⟩
  · omega

theorem frn_opt {eps : A} {x : Frag A} {P : Net A} (h : FrN eps x P) (hP : P.start < P.size) : FrN eps (zeroOrOne x) (opt eps P) := by
  obtain ⟨g, q, f⟩ := x
  have e : q = P.start := h.start
  have l : f + 1 = P.size := h.last
  have s : g.Single q f := h.single hP
  obtain ⟨g', a1, a2, a3, a4⟩ := zeroOrOne_spec s
  have hsz := zeroOrOne_sized (x := (g, q, f)) ⟨h.dense, by show q < _; omega, l⟩
  rw [a1] at hsz ⊢
  refine .of_single a2 (a3.trans h.eps_eq) hsz.1 e l ?_
  intro x a y
  show g'.T x a y ↔ _
  rw [a4, show g.eps = eps from h.eps_eq]
  simp only [TOpt, Net.opt]
  refine or_congr (h.arcs x a y) ?_
  constructor
  · rintro ⟨rfl, rfl, rfl⟩; exact ⟨rfl, e, l⟩
  · rintro ⟨rfl, rfl, hy⟩; exact ⟨e.symm, rfl, by omega⟩

theorem frn_star {eps : A} {x : Frag A} {P : Net A} (h : FrN eps x P) (hP : P.start < P.size) : FrN eps (zeroOrMore x) (star eps P) := by
  obtain ⟨g, q, f⟩ := x
  have e : q = P.start := h.start
  have l : f + 1 = P.size := h.last
  have s : g.Single q f := h.single hP
  have hl : g.lastVertexId = P.size := h.dense.2
  obtain ⟨g', a1, a2, a3, a4⟩ := zeroOrMore_spec s
  have hsz := zeroOrMore_sized (x := (g, q, f)) ⟨h.dense, by show q < _; omega, l⟩
  rw [a1] at hsz ⊢
  refine .of_single a2 (a3.trans h.eps_eq) hsz.1 hl (by show g.lastVertexId + 1 + 1 = P.size + 2; omega) ?_
  intro x a y
  show g'.T x a y ↔ _
  rw [a4, show g.eps = eps from h.eps_eq, hl]
  simp only [TStar, Net.star]
  refine or_congr (h.arcs x a y) (and_congr_right fun _ => ?_)
  omega

theorem frn_plus {eps : A} {x : Frag A} {P : Net A} (h : FrN eps x P) (hP : P.start < P.size) : FrN eps (oneOrMore x) (plus eps P) := by
  obtain ⟨g, q, f⟩ := x
  have e : q = P.start := h.start
  have l : f + 1 = P.size := h.last
  have s : g.Single q f := h.single hP
  have hl : g.lastVertexId = P.size := h.dense.2
  obtain ⟨g', a1, a2, a3, a4⟩ := oneOrMore_spec s
  have hsz := oneOrMore_sized (x := (g, q, f)) ⟨h.dense, by show q < _; omega, l⟩
  rw [a1] at hsz ⊢
  refine .of_single a2 (a3.trans h.eps_eq) hsz.1 hl (by show g.lastVertexId + 1 + 1 = P.size + 2; omega) ?_
  intro x a y
  show g'.T x a y ↔ _
  rw [a4, show g.eps = eps from h.eps_eq, hl]
  simp only [TPlus, Net.plus]
  refine or_congr (h.arcs x a y) (and_congr_right fun _ => ?_)
  omega

omit [DecidableEq A] in
theorem copies_good {eps : A} {P : Net A} (hP : P.start < P.size) (m : Nat) :
    (copies eps P m).start < (copies eps P m).size ∧ (1 ≤ m → (copies eps P m).start = P.start) := by
  match m with
  | 0 => exact ⟨Nat.one_pos, fun h => absurd h (by omega)⟩
  | 1 => exact ⟨hP, fun _ => rfl⟩
  | m + 2 =>
    obtain ⟨h1, h2⟩ := copies_good (eps := eps) hP (m + 1)
    refine ⟨?_, fun _ => h2 (by omega)⟩
    show (copies eps P (m + 1)).start < (copies eps P (m + 1)).size + P.size
    omega

theorem frn_point (eps : A) : FrN eps ((Nfa.init eps [] 1).setFinal 0, 0, 0) point := by
  have r := RP.zero eps (Nfa.init eps [] 1) 0 0
  refine .of_single r.single r.eps_eq ((dense_init eps [] 1).setFinal 0 true) rfl rfl ?_
  intro x a y
  exact iff_of_false ((good_init eps [] 1).2.2.2.2.1 x a y) id

/-- The start of `P` may be replaced by that of another automaton. -/
theorem FrW.restart {eps : A} {g : Nfa A} {q q' f : Nat} {P : Net A} (h : FrW eps (g, q, f) P) : FrW eps (g, q', f) ⟨P.size, q', P.arc⟩ :=
  ⟨h.wf, h.closed, h.fin, h.eps_eq, h.dense, rfl, h.last, h.arcs⟩

theorem FrW.unmark {eps : A} {g : Nfa A} {q f : Nat} {P : Net A} (h : FrW eps (g, q, f) P) : FrW eps (g.setFinal f false, q, f) P where
  wf := h.wf.setFinal f false
  closed := h.closed
  fin := by
    intro x hx
    rw [isFinal_setFinal] at hx
    by_cases e : f = x
    · exact e.symm
    · rw [if_neg e] at hx; exact h.fin x hx
  eps_eq := h.eps_eq
  dense := h.dense.setFinal f false
  start := h.start
  last := h.last
  arcs := h.arcs

theorem frn_loop {eps : A} {x0 : Frag A} {P : Net A} (h0 : FrN eps x0 P) (hP : P.start < P.size) (k : Nat) {j : Nat} {x : Frag A}
    (h : FrN eps x (copies eps P (j + 1))) : ∃ y, repetitionLoop x0 k x = .ok y ∧ FrN eps y (copies eps P (j + 1 + k)) := by
  induction k generalizing j x with
  | zero => exact ⟨x, rfl, h⟩
  | succ k ih =>
    obtain ⟨g, q, f⟩ := x
    have hg := (copies_good (eps := eps) hP (j + 1)).1
    obtain ⟨y, a1, a2⟩ := frn_cat h.toFrW.unmark h0 hP (by omega)
    obtain ⟨z, b1, b2⟩ := ih (j := j + 1) a2
    refine ⟨z, ?_, by rw [show j + 1 + (k + 1) = j + 1 + 1 + k by omega]; exact b2⟩
    rw [repetitionLoop, a1]; exact b1

theorem frn_repetition {eps : A} {x0 : Frag A} {P : Net A} (h0 : FrN eps x0 P) (hP : P.start < P.size) (m : Nat) :
    ∃ y, repetition eps x0 m = .ok y ∧ FrN eps y (copies eps P m) := by
  unfold repetition
  match m with
  | 0 => exact ⟨_, rfl, frn_point eps⟩
  | 1 => exact ⟨x0, rfl, h0⟩
  | m + 2 =>
    obtain ⟨y, a1, a2⟩ := frn_loop h0 hP (m + 1) (j := 0) h0
    refine ⟨y, ?_, by rw [show m + 2 = 0 + 1 + (m + 1) by omega]; exact a2⟩
    rw [if_neg (by omega), if_pos (by omega)]; exact a1

omit [DecidableEq A] in
theorem stage_start {eps : A} {P : Net A} {m : Nat} (j : Nat) : (stage eps P m j).start = P.start := by
  induction j with
  | zero => rfl
  | succ j ih => exact ih

omit [DecidableEq A] in
theorem stage_good {eps : A} {P : Net A} (hP : P.start < P.size) {m j : Nat} (h : m + j = 0 → P.start = 0) :
    (stage eps P m j).start < (stage eps P m j).size := by
  rw [stage_start]
  cases j with
  | zero =>
    show P.start < (copies eps P m).size
    match m with
    | 0 => rw [h rfl]; exact Nat.one_pos
    | m + 1 =>
      obtain ⟨h1, h2⟩ := copies_good (eps := eps) hP (m + 1)
      rw [← h2 (by omega)]; exact h1
  | succ j =>
    show P.start < (stage eps P m j).size + P.size
    omega

theorem frn_rangeLoop {eps : A} {x0 : Frag A} {P : Net A} (h0 : FrN eps x0 P) (hP : P.start < P.size) {m : Nat} (k : Nat) {j : Nat} {x : Frag A} {fs : List Nat}
    (h : FrN eps x (stage eps P m j)) (hfs : ∀ p, p ∈ fs ↔ ∃ i ≤ j, p + 1 = (stage eps P m i).size) :
    ∃ y fs', rangeLoop x0 k x fs = .ok (y, fs') ∧ FrN eps y (stage eps P m (j + k)) ∧ ∀ p, p ∈ fs' ↔ ∃ i ≤ j + k, p + 1 = (stage eps P m i).size := by
  induction k generalizing j x fs with
  | zero => exact ⟨x, fs, rfl, h, hfs⟩
  | succ k ih =>
    obtain ⟨y, a1, a2⟩ := frn_cat h.toFrW h0 hP (by rw [stage_start]; omega)
    have a2 : FrN eps y (stage eps P m (j + 1)) := a2
    obtain ⟨z, fs', b1, b2, b3⟩ := ih (fs := setAdd fs y.2.2) a2 (by
      intro p
      rw [mem_setAdd, hfs]
      have := a2.last
      constructor
      · rintro (⟨i, hi, h⟩ | rfl)
        · exact ⟨i, by omega, h⟩
        · exact ⟨j + 1, le_rfl, this⟩
      · rintro ⟨i, hi, h⟩
        by_cases e : i = j + 1
        · subst e; exact .inr (by omega)
        · exact .inl ⟨i, by omega, h⟩)
    rw [show j + (k + 1) = j + 1 + k by omega]
    refine ⟨z, fs', ?_, b2, b3⟩
    rw [rangeLoop, a1]; exact b1

omit [DecidableEq A] in
theorem stage_lt {eps : A} {P : Net A} (hP : P.start < P.size) {m i j : Nat} (h : i < j) : (stage eps P m i).size < (stage eps P m j).size := by
  induction j with
  | zero => omega
  | succ j ih =>
    have : (stage eps P m (j + 1)).size = (stage eps P m j).size + P.size := rfl
    by_cases e : i = j
    · subst e; omega
    · have := ih (by omega); omega

theorem frn_range {eps : A} {x0 : Frag A} {P : Net A} (h0 : FrN eps x0 P) (hP : P.start < P.size) {m n : Nat} (hmn : m ≤ n) (hz : n = 0 → P.start = 0) (h01 : ¬ (m = 0 ∧ n = 1)) :
    ∃ y, repetitionRange eps x0 m (some n) = .ok y ∧ FrN eps y (Net.range eps P m (n - m)) := by
  unfold repetitionRange
  simp only []
  rw [if_neg (by omega), if_neg h01]
  obtain ⟨⟨g, q, f⟩, a1, a2⟩ := frn_repetition h0 hP m
  have a3 : FrW eps (g, x0.2.1, f) (stage eps P m 0) := by
    have := a2.toFrW.restart (q' := x0.2.1)
    rwa [h0.start] at this ⊢
  have a4 : FrN eps (g, x0.2.1, f) (stage eps P m 0) := by
    refine ⟨a3, fun h => ?_⟩
    have hs := a2.single (copies_good hP m).1
    by_cases hm : m = 0
    · subst hm
      have h : P.start < 1 := h
      have : q = 0 := a2.start
      show g.Single x0.2.1 f
      rw [h0.start, show P.start = q by omega]; exact hs
    · have : q = P.start := a2.start.trans ((copies_good hP m).2 (by omega))
      show g.Single x0.2.1 f
      rw [h0.start, ← this]; exact hs
  have l0 : f + 1 = (stage eps P m 0).size := a2.last
  obtain ⟨⟨g', q', f'⟩, fs, b1, b2, b3⟩ := frn_rangeLoop h0 hP (n - m) (j := 0) (fs := [f]) a4 (by
    intro p
    rw [List.mem_singleton]
    constructor
    · rintro rfl; exact ⟨0, le_rfl, l0⟩
    · rintro ⟨i, hi, h⟩
      obtain rfl : i = 0 := by omega
      omega)
  rw [Nat.zero_add] at b2 b3
  have hgood : (stage eps P m (n - m)).start < (stage eps P m (n - m)).size := stage_good hP (by omega)
  have hs : g'.Single q' f' := b2.single hgood
  have l : f' + 1 = (stage eps P m (n - m)).size := b2.last
  have hlt : ∀ p ∈ fs, p < (stage eps P m (n - m)).size := by
    intro p hp
    obtain ⟨i, hi, h⟩ := (b3 p).1 hp
    by_cases e : i = n - m
    · subst e; omega
    · have := stage_lt (eps := eps) hP (m := m) (i := i) (j := n - m) (by omega); omega
  obtain ⟨c1, c2, c3⟩ := rangeFinals_spec fs hs (fun p hp => (b2.mem p).2 (hlt p hp))
  refine ⟨(rangeFinals g' f' fs, q', f'), ?_, .of_single c1 (c2.trans b2.eps_eq) (rangeFinals_dense f' fs b2.dense hlt) (b2.start.trans (stage_start _)) l ?_⟩
  · simp only [a1, b1, bind, Except.bind]
  · intro x a y
    show (rangeFinals g' f' fs).T x a y ↔ _
    rw [c3, show g'.eps = eps from b2.eps_eq]
    refine or_congr (b2.arcs x a y) ?_
    rw [b3]
    constructor
    · rintro ⟨⟨i, hi, h⟩, hx, rfl, rfl⟩
      refine ⟨rfl, ⟨i, ?_, h⟩, l⟩
      by_contra hc
      obtain rfl : i = n - m := by omega
      omega
    · rintro ⟨ha, ⟨i, hi, h⟩, hy⟩
      have := stage_lt (eps := eps) hP (m := m) hi
      exact ⟨⟨i, by omega, h⟩, by omega, ha, by omega⟩

omit [DecidableEq A] in
theorem net_start {eps : A} (e : Regex A) (h : e.StartsAtZero) : (e.net eps).start = 0 := by
  induction e with
  | sym _ => rfl
  | chars _ => rfl
  | cat e₁ e₂ ih₁ _ => exact ih₁ h
  | alt _ _ _ _ => exact h.elim
  | opt e ih => exact ih h
  | star _ _ => exact h.elim
  | plus _ _ => exact h.elim
  | rep m n e ih =>
    cases n with
    | none =>
      have hm : 2 ≤ m := h.1
      unfold Regex.net
      rw [if_neg (by omega), if_neg (by omega)]
      show (copies eps (e.net eps) (m - 1)).start = 0
      have : ∀ P : Net A, ∀ k, P.start = 0 → (copies eps P (k + 1)).start = 0 := by
        intro P k h
        induction k with
        | zero => exact h
        | succ k ih => exact ih
      rw [show m - 1 = m - 2 + 1 by omega]
      exact this _ _ (ih h.2)
    | some n =>
      unfold Regex.net
      split
      · exact ih h
      · exact ih h

omit [DecidableEq A] in
theorem net_good {eps : A} (e : Regex A) (h : e.NoVoid) (ho : e.Ordered) : (e.net eps).start < (e.net eps).size := by
  induction e with
  | sym _ => exact Nat.two_pos
  | chars _ => exact Nat.two_pos
  | cat e₁ e₂ ih₁ _ => exact Nat.lt_add_right _ (ih₁ h.1 ho.1)
  | alt _ _ _ _ => exact Nat.lt_add_of_pos_right Nat.two_pos
  | opt e ih => exact ih h ho
  | star _ _ => exact Nat.lt_add_of_pos_right Nat.two_pos
  | plus _ _ => exact Nat.lt_add_of_pos_right Nat.two_pos
  | rep m n e ih =>
    cases n with
    | none =>
      have hP := ih h ho
      unfold Regex.net
      split
      · exact Nat.lt_add_of_pos_right Nat.two_pos
      · split
        · exact Nat.lt_add_of_pos_right Nat.two_pos
        · exact Nat.lt_add_right _ (copies_good hP (m - 1)).1
    | some n =>
      have hP := ih h.1 ho.2
      have hmn : m ≤ n := ho.1
      unfold Regex.net
      split
      · exact hP
      · have := stage_good (eps := eps) hP (m := m) (j := n - m) (fun hz => net_start e (h.2 (by omega)))
        rwa [stage_start] at this

theorem evalNet_spec {eps : A} (e : Regex A) (hv : e.NoVoid) (ho : e.Ordered) (rest : List (Tok A)) (st : List (Frag A)) :
    ∃ x, (e.toPostfix ++ rest).foldlM (onPushOutput eps) st = rest.foldlM (onPushOutput eps) (x :: st) ∧ FrN eps x (e.net eps) := by
  induction e generalizing rest st with
  | sym a =>
    obtain ⟨h1, h2, h3⟩ := bracket_spec eps [a]
    exact ⟨bracket eps [a], rfl, .of_single h1 h2 (bracket_sized [a]).1 rfl rfl h3⟩
  | chars cs =>
    obtain ⟨h1, h2, h3⟩ := bracket_spec eps cs
    exact ⟨bracket eps cs, rfl, .of_single h1 h2 (bracket_sized cs).1 rfl rfl h3⟩
  | cat e₁ e₂ ih₁ ih₂ =>
    obtain ⟨x1, a1, a2⟩ := ih₁ hv.1 ho.1 (e₂.toPostfix ++ (.cat :: rest)) st
    obtain ⟨x2, b1, b2⟩ := ih₂ hv.2 ho.2 (.cat :: rest) (x1 :: st)
    obtain ⟨x, c1, c2⟩ := frn_cat a2.toFrW b2 (net_good e₂ hv.2 ho.2) (Nat.lt_add_right _ (net_good e₁ hv.1 ho.1))
    refine ⟨x, ?_, c2⟩
    rw [show (e₁.cat e₂).toPostfix ++ rest = e₁.toPostfix ++ (e₂.toPostfix ++ (.cat :: rest)) by simp [Regex.toPostfix], a1, b1,
      List.foldlM_cons]
    simp only [onPushOutput, c1]
    rfl
  | alt e₁ e₂ ih₁ ih₂ =>
    obtain ⟨x1, a1, a2⟩ := ih₁ hv.1 ho.1 (e₂.toPostfix ++ (.alt :: rest)) st
    obtain ⟨x2, b1, b2⟩ := ih₂ hv.2 ho.2 (.alt :: rest) (x1 :: st)
    obtain ⟨x, c1, c2⟩ := frn_alt a2 b2 (net_good e₁ hv.1 ho.1) (net_good e₂ hv.2 ho.2)
    refine ⟨x, ?_, c2⟩
    rw [show (e₁.alt e₂).toPostfix ++ rest = e₁.toPostfix ++ (e₂.toPostfix ++ (.alt :: rest)) by simp [Regex.toPostfix], a1, b1,
      List.foldlM_cons]
    simp only [onPushOutput, c1]
    rfl
  | opt e ih =>
    obtain ⟨x, a1, a2⟩ := ih hv ho (.opt :: rest) st
    refine ⟨zeroOrOne x, ?_, frn_opt a2 (net_good e hv ho)⟩
    rw [show e.opt.toPostfix ++ rest = e.toPostfix ++ (.opt :: rest) by simp [Regex.toPostfix], a1, List.foldlM_cons]
    rfl
  | star e ih =>
    obtain ⟨x, a1, a2⟩ := ih hv ho (.star :: rest) st
    refine ⟨zeroOrMore x, ?_, frn_star a2 (net_good e hv ho)⟩
    rw [show e.star.toPostfix ++ rest = e.toPostfix ++ (.star :: rest) by simp [Regex.toPostfix], a1, List.foldlM_cons]
    rfl
  | plus e ih =>
    obtain ⟨x, a1, a2⟩ := ih hv ho (.plus :: rest) st
    refine ⟨oneOrMore x, ?_, frn_plus a2 (net_good e hv ho)⟩
    rw [show e.plus.toPostfix ++ rest = e.toPostfix ++ (.plus :: rest) by simp [Regex.toPostfix], a1, List.foldlM_cons]
    rfl
  | rep m n e ih =>
    cases n with
    | none =>
      obtain ⟨x, a1, a2⟩ := ih hv ho (.rep m none :: rest) st
      have hP := net_good (eps := eps) e hv ho
      have : ∃ y, repetitionRange eps x m none = .ok y ∧ FrN eps y ((Regex.rep m none e).net eps) := by
        unfold repetitionRange Regex.net
        by_cases h0 : m = 0
        · simp only [if_pos h0]; exact ⟨_, rfl, frn_star a2 hP⟩
        · by_cases h1 : m = 1
          · simp only [if_neg h0, if_pos h1]; exact ⟨_, rfl, frn_plus a2 hP⟩
          · simp only [if_neg h0, if_neg h1]
            obtain ⟨y, c1, c2⟩ := frn_repetition a2 hP (m - 1)
            obtain ⟨z, d1, d2⟩ := frn_cat c2.toFrW (frn_plus a2 hP) (Nat.lt_add_of_pos_right Nat.two_pos) (Nat.lt_add_right _ (copies_good hP (m - 1)).1)
            refine ⟨z, ?_, d2⟩
            rw [c1]; exact d1
      obtain ⟨y, c1, c2⟩ := this
      refine ⟨y, ?_, c2⟩
      rw [show (Regex.rep m none e).toPostfix ++ rest = e.toPostfix ++ (.rep m none :: rest) by simp [Regex.toPostfix], a1,
        List.foldlM_cons]
      simp only [onPushOutput, c1]
      rfl
    | some n =>
      obtain ⟨x, a1, a2⟩ := ih hv.1 ho.2 (.rep m (some n) :: rest) st
      have hP := net_good (eps := eps) e hv.1 ho.2
      have : ∃ y, repetitionRange eps x m (some n) = .ok y ∧ FrN eps y ((Regex.rep m (some n) e).net eps) := by
        by_cases h01 : m = 0 ∧ n = 1
        · unfold repetitionRange Regex.net
          simp only [if_pos h01]
          rw [if_neg (by omega)]
          exact ⟨_, rfl, frn_opt a2 hP⟩
        · have := frn_range a2 hP ho.1 (fun h => net_start e (hv.2 h)) h01
          unfold Regex.net
          rwa [if_neg h01]
      obtain ⟨y, c1, c2⟩ := this
      refine ⟨y, ?_, c2⟩
      rw [show (Regex.rep m (some n) e).toPostfix ++ rest = e.toPostfix ++ (.rep m (some n) :: rest) by
          simp [Regex.toPostfix], a1, List.foldlM_cons]
      simp only [onPushOutput, c1]
      rfl

theorem compileNet_spec {eps : A} (e : Regex A) (hv : e.NoVoid) (ho : e.Ordered) :
    ∃ x, compile eps e.toPostfix = .ok x ∧ FrN eps x (e.net eps) := by
  obtain ⟨x, h1, h2⟩ := evalNet_spec e hv ho [] []
  refine ⟨x, ?_, h2⟩
  rw [List.append_nil] at h1
  unfold compile
  cases h : e.toPostfix with
  | nil => exact absurd h (toPostfix_ne_nil e)
  | cons t ts =>
    rw [h] at h1
    simp only [h1]
    rfl

end Nfa
end PyBGL
