import Verif.Proofs.ThompsonWF
import Verif.Spec.Sizes

/-!
# Number of states of the automata of `thompson_compile_nfa`
-/

namespace PyBGL
open Nfa
namespace Thompson
variable {A : Type} [DecidableEq A] {eps : A}

/-- The vertices of the automaton are `0, …, n - 1`, and the next one will be `n`. -/
def Dense (n : Nat) (g : Nfa A) : Prop := g.vertices = List.range n ∧ g.lastVertexId = n

omit [DecidableEq A] in
theorem Dense.addVertex {n : Nat} {g : Nfa A} (h : Dense n g) : Dense (n + 1) g.addVertex.2 := by
  constructor
  · have hn : n ∉ g.adj.keys := by
      have := h.1; unfold Nfa.vertices at this; rw [this]; simp
    simp only [Nfa.addVertex, Nfa.vertices, h.2]
    rw [Dict.keys_set_of_not_mem _ _ _ hn, List.range_succ]
    exact congrArg (· ++ [n]) h.1
  · simp [Nfa.addVertex, h.2]

theorem Dense.addEdge {n : Nat} {g : Nfa A} (h : Dense n g) {q : Nat} (hq : q < n) (r : Nat) (a : A) : Dense n (g.addEdge q r a).2 := by
  constructor
  · have hn : q ∈ g.adj.keys := by
      have := h.1; unfold Nfa.vertices at this; rw [this]; simpa using hq
    simp only [Nfa.addEdge, Nfa.vertices]
    rw [Dict.keys_set_of_mem _ _ _ hn]
    exact h.1
  · exact h.2

omit [DecidableEq A] in
theorem Dense.setFinal {n : Nat} {g : Nfa A} (h : Dense n g) (q : Nat) (b : Bool) : Dense n (g.setFinal q b) := h
omit [DecidableEq A] in
theorem Dense.setInitials {n : Nat} {g : Nfa A} (h : Dense n g) (qs : List Nat) : Dense n (g.setInitials qs) := h

theorem dense_init (eps : A) (is : List Nat) : ∀ n, Dense n (Nfa.init eps is n)
  | 0 => ⟨rfl, rfl⟩
  | n + 1 => (dense_init eps is n).addVertex

theorem insertVertices_dense {n1 : Nat} (g1 g2 : Nfa A) (h1 : Dense n1 g1) : ∀ k,
    Dense (n1 + k) ((List.range k).foldl (insertVertex g2) (g1, [])).1 ∧
      ∀ j, ((List.range k).foldl (insertVertex g2) (g1, [])).2.get? j = if j < k then some (n1 + j) else none := by
  intro k
  induction k with
  | zero => exact ⟨h1, by intro j; simp⟩
  | succ k ih =>
    obtain ⟨i1, i2⟩ := ih
    rw [List.range_succ, List.foldl_append, List.foldl_cons, List.foldl_nil]
    generalize (List.range k).foldl (insertVertex g2) (g1, []) = s at i1 i2
    have hc : ¬ s.2.contains k = true := by
      rw [Dict.contains_iff]; simp [i2]
    unfold insertVertex
    rw [if_neg hc]
    simp only
    refine ⟨?_, ?_⟩
    · by_cases hf : g2.isFinal k = true
      · rw [if_pos hf]; exact i1.addVertex.setFinal _ _
      · rw [if_neg hf]; exact i1.addVertex
    · intro j
      rw [Dict.get?_set]
      simp only [Nfa.addVertex, i1.2]
      by_cases hj : k = j
      · subst hj; simp
      · rw [if_neg hj, i2]
        by_cases hjk : j < k
        · rw [if_pos hjk, if_pos (by omega)]
        · rw [if_neg hjk, if_neg (by omega)]

theorem insertAutomaton_dense {n1 n2 : Nat} {g1 g2 : Nfa A} (h1 : Dense n1 g1) (h2 : Dense n2 g2) :
    OkSat (fun y : Nfa A × Dict Nat Nat => Dense (n1 + n2) y.1 ∧ ∀ j, y.2.get? j = if j < n2 then some (n1 + j) else none) (insertAutomaton g1 g2) := by
  have hv := insertVertices_dense g1 g2 h1 n2
  unfold insertAutomaton
  rw [h2.1]
  generalize (List.range n2).foldl (insertVertex g2) (g1, []) = s at hv
  refine OkSat.bind (P := Dense (n1 + n2)) ?_ (fun y hy => OkSat.ok ⟨hy, hv.2⟩)
  refine OkSat.foldlM ?_ _ _ hv.1
  intro g e hg
  unfold insertEdge
  refine OkSat.bind (P := fun q => q < n1 + n2) ?_ fun q1 hq1 => OkSat.bind OkSat.any fun r1 _ => OkSat.ok (hg.addEdge hq1 _ _)
  intro y hy
  have := (Dict.getE_ok_iff _ _ _).1 hy
  rw [hv.2] at this
  by_cases hj : e.source < n2
  · rw [if_pos hj] at this; cases this; omega
  · rw [if_neg hj] at this; cases this

/-- A fragment with `n` states, among which its initial state, and whose final state is the last one. -/
def Sized (n : Nat) (x : Frag A) : Prop := Dense n x.1 ∧ x.2.1 < n ∧ x.2.2 + 1 = n

theorem get_dense {n1 n2 : Nat} {m : Dict Nat Nat} (hm : ∀ j, m.get? j = if j < n2 then some (n1 + j) else none) {k : Nat} :
    OkSat (fun q => q < n1 + n2) (m.getE k) := by
  intro y hy
  have := (Dict.getE_ok_iff _ _ _).1 hy
  rw [hm] at this
  by_cases hj : k < n2
  · rw [if_pos hj] at this; cases this; omega
  · rw [if_neg hj] at this; cases this

theorem get_last {n1 n2 : Nat} {m : Dict Nat Nat} (hm : ∀ j, m.get? j = if j < n2 then some (n1 + j) else none) {k : Nat} (hk : k + 1 = n2) :
    OkSat (fun q => q + 1 = n1 + n2) (m.getE k) := by
  intro y hy
  have := (Dict.getE_ok_iff _ _ _).1 hy
  rw [hm, if_pos (by omega)] at this
  cases this; omega

/-- The initial state of the result of a concatenation is that of the first automaton, known to it or not. -/
theorem concatenation_dense {n1 n2 : Nat} {x1 x2 : Frag A} (h1 : Dense n1 x1.1) (hf : x1.2.2 < n1) (h2 : Dense n2 x2.1) (hf2 : x2.2.2 + 1 = n2) :
    OkSat (fun y => Dense (n1 + n2) y.1 ∧ y.2.1 = x1.2.1 ∧ y.2.2 + 1 = n1 + n2) (concatenation x1 x2) := by
  obtain ⟨g1, q1, f1⟩ := x1
  obtain ⟨g2, q2, f2⟩ := x2
  unfold concatenation
  refine OkSat.bind (insertAutomaton_dense h1 h2) fun y hy => ?_
  refine OkSat.bind OkSat.any fun r _ => OkSat.bind (get_last hy.2 hf2) fun f hf' => OkSat.ok ⟨?_, rfl, hf'⟩
  have hf : f1 < n1 := hf
  exact hy.1.addEdge (by omega) _ _

theorem concatenation_sized {n1 n2 : Nat} {x1 x2 : Frag A} (h1 : Sized n1 x1) (h2 : Sized n2 x2) :
    OkSat (fun y => Sized (n1 + n2) y ∧ y.2.1 = x1.2.1) (concatenation x1 x2) := by
  intro y hy
  have h := concatenation_dense h1.1 (by have := h1.2.2; omega) h2.1 h2.2.2 y hy
  refine ⟨⟨h.1, ?_, h.2.2⟩, h.2.1⟩
  rw [h.2.1]; have := h1.2.1; omega

theorem alternation_sized {n1 n2 : Nat} {x1 x2 : Frag A} (h1 : Sized n1 x1) (h2 : Sized n2 x2) :
    OkSat (Sized (n1 + n2 + 2)) (alternation x1 x2) := by
  obtain ⟨g1, q1, f1⟩ := x1
  obtain ⟨g2, q2, f2⟩ := x2
  have hq : q1 < n1 := h1.2.1
  have hf : f1 < n1 := by have : f1 + 1 = n1 := h1.2.2; omega
  unfold alternation
  refine OkSat.bind (insertAutomaton_dense h1.1 h2.1) fun y hy => ?_
  refine OkSat.bind OkSat.any fun r _ => OkSat.bind (get_dense hy.2) fun f hf' => OkSat.ok ?_
  have hl : y.1.lastVertexId = n1 + n2 := hy.1.2
  refine ⟨?_, ?_, ?_⟩
  · have a1 := hy.1.addVertex
    have a2 := (a1.addEdge (q := y.1.addVertex.1) (by simp [Nfa.addVertex, hl]) q1 g1.eps).addEdge (q := y.1.addVertex.1) (by simp [Nfa.addVertex, hl]) r g1.eps
    have a3 := (a2.setInitials [y.1.addVertex.1]).addVertex
    exact ((a3.addEdge (q := f1) (by omega) _ _).addEdge (q := f) (by omega) _ _)
  · simp only [hl]; omega
  · simp only [Nfa.addEdge, Nfa.setInitials, hl]

theorem zeroOrOne_sized {n : Nat} {x : Frag A} (h : Sized n x) : Sized n (zeroOrOne x) :=
  ⟨h.1.addEdge h.2.1 _ _, h.2⟩

theorem zeroOrMore_sized {n : Nat} {x : Frag A} (h : Sized n x) : Sized (n + 2) (zeroOrMore x) := by
  obtain ⟨g, q, f⟩ := x
  have hf : f < n := by have : f + 1 = n := h.2.2; omega
  have hl : g.lastVertexId = n := h.1.2
  have hl' : g.addVertex.2.lastVertexId = n + 1 := h.1.addVertex.2
  have e1 : g.addVertex.1 = n := by simp [Nfa.addVertex, hl]
  have e2 : g.addVertex.2.addVertex.1 = n + 1 := hl'
  refine ⟨?_, ?_, ?_⟩
  · exact (((h.1.addVertex.addVertex.addEdge (q := g.addVertex.1) (by omega) _ _).addEdge (q := f) (by omega) _ _).addEdge (q := g.addVertex.1) (by omega) _ _).addEdge
      (q := g.addVertex.2.addVertex.1) (by omega) _ _
  · show g.addVertex.1 < n + 2; omega
  · show g.addVertex.2.addVertex.1 + 1 = n + 2; omega

theorem oneOrMore_sized {n : Nat} {x : Frag A} (h : Sized n x) : Sized (n + 2) (oneOrMore x) := by
  obtain ⟨g, q, f⟩ := x
  have hf : f < n := by have : f + 1 = n := h.2.2; omega
  have hl : g.lastVertexId = n := h.1.2
  have hl' : g.addVertex.2.lastVertexId = n + 1 := h.1.addVertex.2
  have e1 : g.addVertex.1 = n := by simp [Nfa.addVertex, hl]
  have e2 : g.addVertex.2.addVertex.1 = n + 1 := hl'
  refine ⟨?_, ?_, ?_⟩
  · exact ((h.1.addVertex.addVertex.addEdge (q := g.addVertex.1) (by omega) _ _).addEdge (q := f) (by omega) _ _).addEdge
      (q := g.addVertex.2.addVertex.1) (by omega) _ _
  · show g.addVertex.1 < n + 2; omega
  · show g.addVertex.2.addVertex.1 + 1 = n + 2; omega

theorem repetitionLoop_sized {n0 : Nat} {x0 : Frag A} (h0 : Sized n0 x0) : ∀ (k : Nat) {n : Nat} {x : Frag A}, Sized n x →
    OkSat (fun y => Sized (n + k * n0) y ∧ y.2.1 = x.2.1) (repetitionLoop x0 k x)
  | 0, n, x, h => OkSat.ok (by simpa using h)
  | k + 1, n, (g, q, f), h => by
    unfold repetitionLoop
    refine OkSat.bind (concatenation_sized (x1 := (g.setFinal f false, q, f)) h h0) fun y hy => ?_
    intro z hz
    have := repetitionLoop_sized h0 k hy.1 z hz
    refine ⟨?_, this.2.trans hy.2⟩
    have e : n + (k + 1) * n0 = n + n0 + k * n0 := by rw [Nat.succ_mul]; omega
    rw [e]; exact this.1

theorem repetition_sized {n : Nat} {x : Frag A} (h : Sized n x) (m : Nat) :
    OkSat (fun y => if m = 0 then Sized 1 y else Sized (m * n) y ∧ y.2.1 = x.2.1) (repetition eps x m) := by
  unfold repetition
  by_cases h0 : m = 0
  · simp only [if_pos h0]
    exact OkSat.ok ⟨(dense_init eps [] 1), Nat.zero_lt_one, rfl⟩
  · simp only [if_neg h0]
    by_cases h1 : m > 1
    · rw [if_pos h1]
      intro z hz
      have := repetitionLoop_sized h (m - 1) h z hz
      refine ⟨?_, this.2⟩
      have e : m * n = n + (m - 1) * n := by
        obtain ⟨k, rfl⟩ : ∃ k, m = k + 1 := ⟨m - 1, by omega⟩
        rw [Nat.add_sub_cancel, Nat.succ_mul]; omega
      rw [e]; exact this.1
    · rw [if_neg h1]
      have : m = 1 := by omega
      subst this
      exact OkSat.ok ⟨by simpa using h, rfl⟩

theorem rangeLoop_sized {n0 : Nat} {x0 : Frag A} (h0 : Sized n0 x0) : ∀ (k : Nat) {n : Nat} {x : Frag A} (fs : List Nat), Dense n x.1 → x.2.2 + 1 = n → (∀ f ∈ fs, f < n) →
    OkSat (fun y : Frag A × List Nat => Dense (n + k * n0) y.1.1 ∧ y.1.2.1 = x.2.1 ∧ y.1.2.2 + 1 = n + k * n0 ∧ ∀ f ∈ y.2, f < n + k * n0) (rangeLoop x0 k x fs)
  | 0, n, x, fs, h, hf, hfs => OkSat.ok (by simpa using ⟨h, hf, hfs⟩)
  | k + 1, n, x, fs, h, hf, hfs => by
    unfold rangeLoop
    refine OkSat.bind (concatenation_dense h (by omega) h0.1 h0.2.2) fun y hy => ?_
    intro z hz
    have := rangeLoop_sized h0 k (setAdd fs y.2.2) hy.1 hy.2.2 (by
      intro f hf'
      rcases (mem_setAdd _ _ _).1 hf' with hf' | rfl
      · have := hfs f hf'; omega
      · have := hy.2.2; omega) z hz
    have e : n + (k + 1) * n0 = n + n0 + k * n0 := by rw [Nat.succ_mul]; omega
    rw [e]
    exact ⟨this.1, this.2.1.trans hy.2.1, this.2.2⟩

theorem rangeFinals_dense {n : Nat} (f : Nat) : ∀ (fs : List Nat) {g : Nfa A}, Dense n g → (∀ p ∈ fs, p < n) → Dense n (rangeFinals g f fs) := by
  intro fs
  induction fs with
  | nil => intro g h _; exact h
  | cons p fs ih =>
    intro g h hp
    unfold rangeFinals at ih ⊢
    rw [List.foldl_cons]
    refine ih ?_ (fun p' hp' => hp p' (List.mem_cons_of_mem _ hp'))
    by_cases hpf : p ≠ f
    · rw [if_pos hpf]; exact h.addEdge (hp p List.mem_cons_self) _ _
    · rw [if_neg hpf]; exact h

theorem bracket_sized (cs : List A) : Sized 2 (bracket eps cs) := by
  unfold bracket
  have : ∀ (cs : List A) (g : Nfa A), Dense 2 g → Dense 2 (cs.foldl (fun g a => (g.addEdge 0 1 a).2) g) := by
    intro cs
    induction cs with
    | nil => intro g h; exact h
    | cons a cs ih => intro g h; exact ih _ (h.addEdge (by omega) _ _)
  exact ⟨this cs _ (dense_init eps [] 2), by simp, by simp⟩

theorem repetitionRange_none_sized {n : Nat} {x : Frag A} (h : Sized n x) (m : Nat) :
    OkSat (fun y => Sized (max m 1 * n + 2) y ∧ (2 ≤ m → y.2.1 = x.2.1)) (repetitionRange eps x m none) := by
  simp only [repetitionRange]
  by_cases h0 : m = 0
  · rw [if_pos h0]; subst h0; exact OkSat.ok ⟨by simpa using zeroOrMore_sized h, by omega⟩
  · rw [if_neg h0]
    by_cases h1 : m = 1
    · rw [if_pos h1]; subst h1; exact OkSat.ok ⟨by simpa using oneOrMore_sized h, by omega⟩
    · rw [if_neg h1]
      refine OkSat.bind (repetition_sized h _) fun y hy => ?_
      rw [if_neg (by omega)] at hy
      intro z hz
      have := concatenation_sized hy.1 (oneOrMore_sized h) z hz
      have e : max m 1 * n + 2 = (m - 1) * n + (n + 2) := by
        obtain ⟨k, rfl⟩ : ∃ k, m = k + 1 := ⟨m - 1, by omega⟩
        rw [Nat.add_sub_cancel, Nat.max_eq_left (by omega), Nat.succ_mul]; omega
      rw [e]
      exact ⟨this.1, fun _ => this.2.trans hy.2⟩

theorem repetitionRange_some_sized {n : Nat} {x : Frag A} (h : Sized n x) (m k : Nat) (hz : k = 0 → x.2.1 = 0) :
    OkSat (fun y => Sized (if m = 0 ∧ k ≠ 1 then 1 + k * n else k * n) y ∧ y.2.1 = x.2.1) (repetitionRange eps x m (some k)) := by
  simp only [repetitionRange]
  by_cases h0 : k < m
  · rw [if_pos h0]; exact OkSat.error
  rw [if_neg h0]
  by_cases h1 : m = 0 ∧ k = 1
  · rw [if_pos h1, if_neg (by omega)]
    obtain ⟨-, rfl⟩ := h1
    exact OkSat.ok ⟨by simpa using zeroOrOne_sized h, rfl⟩
  rw [if_neg h1]
  refine OkSat.bind (repetition_sized h m) ?_
  rintro ⟨g, q, f⟩ hy
  by_cases hm : m = 0
  · subst hm
    simp only [if_true] at hy
    refine OkSat.bind (rangeLoop_sized h _ (x := (g, x.2.1, f)) _ hy.1 hy.2.2 (by have : f + 1 = 1 := hy.2.2; simp; omega)) ?_
    rintro ⟨⟨g', q', f'⟩, fs⟩ ⟨z1, z2, z3, z4⟩
    rw [if_pos (by omega)]
    refine OkSat.ok ⟨⟨rangeFinals_dense f' fs z1 z4, ?_, z3⟩, z2⟩
    simp only at z2 ⊢
    rw [z2]
    by_cases hk : k = 0
    · rw [hz hk]; omega
    · have := h.2.1
      have : n ≤ k * n := Nat.le_mul_of_pos_left n (by omega)
      omega
  · simp only [if_neg hm] at hy
    refine OkSat.bind (rangeLoop_sized h _ (x := (g, x.2.1, f)) _ hy.1.1 hy.1.2.2 (by have : f + 1 = m * n := hy.1.2.2; simp; omega)) ?_
    rintro ⟨⟨g', q', f'⟩, fs⟩ ⟨z1, z2, z3, z4⟩
    rw [if_neg (by omega)]
    have e : k * n = m * n + (k - m) * n := by rw [← Nat.add_mul]; congr 1; omega
    rw [e]
    refine OkSat.ok ⟨⟨rangeFinals_dense f' fs z1 z4, ?_, z3⟩, z2⟩
    simp only at z2 ⊢
    rw [z2]
    have := h.2.1
    have : n ≤ m * n := Nat.le_mul_of_pos_left n (by omega)
    omega

/-- Reading an expression pushes its automaton, of the size given by the specification. -/
theorem eval_sized : ∀ (e : Regex A), e.NoVoid → ∀ (st : List (Frag A)),
    OkSat (fun st' => ∃ x, st' = x :: st ∧ Sized e.states x ∧ (e.StartsAtZero → x.2.1 = 0)) (e.toPostfix.foldlM (onPushOutput eps) st)
  | .sym a, _, st => by
    rw [show (Regex.sym a).toPostfix = [Tok.lit a] from rfl, List.foldlM_cons]
    exact OkSat.bind (P := fun st' => st' = literal eps a :: st) (OkSat.ok rfl) fun y hy => OkSat.ok ⟨_, hy, by rw [literal_eq]; exact bracket_sized _, fun _ => rfl⟩
  | .chars cs, _, st => by
    rw [show (Regex.chars cs).toPostfix = [Tok.chars cs] from rfl, List.foldlM_cons]
    exact OkSat.bind (P := fun st' => st' = bracket eps cs :: st) (OkSat.ok rfl) fun y hy => OkSat.ok ⟨_, hy, bracket_sized _, fun _ => rfl⟩
  | .cat e₁ e₂, hv, st => by
    simp only [Regex.toPostfix, List.foldlM_append]
    refine OkSat.bind (P := fun st' => ∃ x2 x1, st' = x2 :: x1 :: st ∧ Sized e₁.states x1 ∧ Sized e₂.states x2 ∧ (e₁.StartsAtZero → x1.2.1 = 0))
      (OkSat.bind (eval_sized e₁ hv.1 st) ?_) ?_
    · rintro _ ⟨x1, rfl, s1, z1⟩
      intro z hz
      obtain ⟨x2, e, s2, -⟩ := eval_sized e₂ hv.2 _ z hz
      exact ⟨x2, x1, e, s1, s2, z1⟩
    · rintro _ ⟨x2, x1, rfl, s1, s2, z1⟩
      rw [List.foldlM_cons]
      refine OkSat.bind (OkSat.bind (concatenation_sized s1 s2) fun y hy => OkSat.ok (P := fun st' => ∃ x, st' = x :: st ∧ Sized (e₁.states + e₂.states) x ∧ x.2.1 = x1.2.1) ⟨y, rfl, hy⟩) ?_
      rintro _ ⟨x, rfl, sx, zx⟩
      exact OkSat.ok ⟨x, rfl, sx, fun h => zx.trans (z1 h)⟩
  | .alt e₁ e₂, hv, st => by
    simp only [Regex.toPostfix, List.foldlM_append]
    refine OkSat.bind (P := fun st' => ∃ x2 x1, st' = x2 :: x1 :: st ∧ Sized e₁.states x1 ∧ Sized e₂.states x2) (OkSat.bind (eval_sized e₁ hv.1 st) ?_) ?_
    · rintro _ ⟨x1, rfl, s1, -⟩
      intro z hz
      obtain ⟨x2, e, s2, -⟩ := eval_sized e₂ hv.2 _ z hz
      exact ⟨x2, x1, e, s1, s2⟩
    · rintro _ ⟨x2, x1, rfl, s1, s2⟩
      rw [List.foldlM_cons]
      refine OkSat.bind (OkSat.bind (alternation_sized s1 s2) fun y hy => OkSat.ok (P := fun st' => ∃ x, st' = x :: st ∧ Sized (e₁.states + e₂.states + 2) x) ⟨y, rfl, hy⟩) ?_
      rintro _ ⟨x, rfl, sx⟩
      exact OkSat.ok ⟨x, rfl, sx, fun h => h.elim⟩
  | .opt e, hv, st => by
    simp only [Regex.toPostfix, List.foldlM_append]
    refine OkSat.bind (eval_sized e hv st) ?_
    rintro _ ⟨x, rfl, sx, zx⟩
    rw [List.foldlM_cons]
    exact OkSat.bind (P := fun st' => st' = zeroOrOne x :: st) (OkSat.ok rfl) fun y hy => OkSat.ok ⟨_, hy, zeroOrOne_sized sx, zx⟩
  | .star e, hv, st => by
    simp only [Regex.toPostfix, List.foldlM_append]
    refine OkSat.bind (eval_sized e hv st) ?_
    rintro _ ⟨x, rfl, sx, zx⟩
    rw [List.foldlM_cons]
    exact OkSat.bind (P := fun st' => st' = zeroOrMore x :: st) (OkSat.ok rfl) fun y hy => OkSat.ok ⟨_, hy, zeroOrMore_sized sx, fun h => h.elim⟩
  | .plus e, hv, st => by
    simp only [Regex.toPostfix, List.foldlM_append]
    refine OkSat.bind (eval_sized e hv st) ?_
    rintro _ ⟨x, rfl, sx, zx⟩
    rw [List.foldlM_cons]
    exact OkSat.bind (P := fun st' => st' = oneOrMore x :: st) (OkSat.ok rfl) fun y hy => OkSat.ok ⟨_, hy, oneOrMore_sized sx, fun h => h.elim⟩
  | .rep m none e, hv, st => by
    simp only [Regex.toPostfix, List.foldlM_append]
    refine OkSat.bind (eval_sized e hv st) ?_
    rintro _ ⟨x, rfl, sx, zx⟩
    rw [List.foldlM_cons]
    refine OkSat.bind (OkSat.bind (repetitionRange_none_sized sx m) fun y hy => OkSat.ok (P := fun st' => ∃ x', st' = x' :: st ∧ Sized (max m 1 * e.states + 2) x' ∧ (2 ≤ m → x'.2.1 = x.2.1)) ⟨y, rfl, hy⟩) ?_
    rintro _ ⟨x', rfl, sx', zx'⟩
    exact OkSat.ok ⟨x', rfl, sx', fun h => (zx' h.1).trans (zx h.2)⟩
  | .rep m (some k) e, hv, st => by
    simp only [Regex.toPostfix, List.foldlM_append]
    refine OkSat.bind (eval_sized e hv.1 st) ?_
    rintro _ ⟨x, rfl, sx, zx⟩
    rw [List.foldlM_cons]
    refine OkSat.bind (OkSat.bind (repetitionRange_some_sized sx m k fun hk => zx (hv.2 hk)) fun y hy =>
      OkSat.ok (P := fun st' => ∃ x', st' = x' :: st ∧ Sized (if m = 0 ∧ k ≠ 1 then 1 + k * e.states else k * e.states) x' ∧ x'.2.1 = x.2.1) ⟨y, rfl, hy⟩) ?_
    rintro _ ⟨x', rfl, sx', zx'⟩
    exact OkSat.ok ⟨x', rfl, sx', fun h => zx'.trans (zx h)⟩

theorem compile_sized (e : Regex A) (hv : e.NoVoid) : OkSat (Sized e.states) (compile eps e.toPostfix) := by
  unfold compile
  have hne : e.toPostfix ≠ [] := by cases e <;> simp [Regex.toPostfix]
  split
  · exact absurd ‹_› hne
  · refine OkSat.bind (eval_sized e hv []) ?_
    rintro _ ⟨x, rfl, sx, -⟩
    exact OkSat.ok sx

end Thompson
end PyBGL
