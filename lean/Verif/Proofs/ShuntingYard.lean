import Verif.Spec.Expr
import Verif.Proofs.PyLemmas

/-!
# Proofs about the shunting yard algorithm
-/

namespace PyBGL
namespace ShuntingYard
variable {T O : Type} [DecidableEq T]

/-- The operators left on the stack after the text of an expression, from the top. -/
def pend : Infix T → List T
  | .leaf _ => []
  | .paren _ => []
  | .pre o e => pend e ++ [o]
  | .post o _ => [o]
  | .imm _ _ => []
  | .bin o _ r => pend r ++ [o]

/-- The tokens sent to the output while the text of an expression is read. -/
def sent : Infix T → List T
  | .leaf a => [a]
  | .paren e => e.expr.rpn
  | .pre _ e => sent e
  | .post _ e => e.expr.rpn
  | .imm a e => e.expr.rpn ++ [a]
  | .bin _ l r => l.expr.rpn ++ sent r

/-- The operators of an expression that are compared with what lies below it on the stack. -/
def leftOps : Infix T → List T
  | .leaf _ => []
  | .paren _ => []
  | .pre o _ => [o]
  | .post o e => leftOps e ++ [o]
  | .imm _ e => leftOps e
  | .bin o l _ => leftOps l ++ [o]

theorem sent_pend : ∀ e : Infix T, sent e ++ pend e = e.expr.rpn
  | .leaf _ => rfl
  | .paren e => by simp [sent, pend, Infix.expr]
  | .pre o e => by
    simp [sent, pend, Infix.expr, Expr.rpn, ← List.append_assoc, sent_pend e]
  | .post o e => by simp [sent, pend, Infix.expr, Expr.rpn]
  | .imm o e => by simp [sent, pend, Infix.expr, Expr.rpn]
  | .bin o l r => by
    have := sent_pend r
    simp only [sent, pend, Infix.expr, Expr.rpn, List.append_assoc]
    rw [← List.append_assoc (sent r), this]

theorem popPreceding_append {P : OpTable T} {sink : O → T → Except PyErr O} {a : T} {S : List T}
    (hS : ∀ t, S.head? = some t → preceeds P t a = false) : ∀ (A : List T) (out : O), (∀ o ∈ A, preceeds P o a = true) →
    popPreceding P sink a (A ++ S) out = (do let out' ← A.foldlM sink out; .ok (S, out'))
  | [], out, _ => by
    cases S with
    | nil => rfl
    | cons t S => simp [popPreceding, hS t rfl]
  | o :: A, out, h => by
    simp only [List.cons_append, popPreceding, h o (by simp), if_true, List.foldlM_cons, bind_assoc]
    congr 1; funext out'
    exact popPreceding_append hS A out' (fun x hx => h x (by simp [hx]))

theorem closeParen_append {P : OpTable T} {sink : O → T → Except PyErr O} {S : List T} :
    ∀ (A : List T) (out : O), (∀ o ∈ A, o ≠ P.lpar) →
    closeParen P sink (A ++ P.lpar :: S) out = (do let out' ← A.foldlM sink out; .ok (S, out'))
  | [], out, _ => by simp [closeParen]
  | o :: A, out, h => by
    simp only [List.cons_append, closeParen, if_neg (h o (by simp)), List.foldlM_cons, bind_assoc]
    congr 1; funext out'
    exact closeParen_append A out' (fun x hx => h x (by simp [hx]))

theorem preceeds_of_leftFree {P : OpTable T} {o₁ o : T} (h : P.leftFree o₁ o = true) : preceeds P o₁ o = true := by
  unfold OpTable.leftFree at h
  unfold preceeds
  split at h
  · rename_i p₁ p h1 h2
    simp only [h1, h2]
    simp only [decide_eq_true_eq] at h
    split <;> rename_i ha <;> simp only [ha] at h <;> simp at h ⊢ <;> omega
  · simp at h

theorem not_preceeds_of_rightFree {P : OpTable T} {o o₂ : T} (h : P.rightFree o o₂ = true) :
    preceeds P o o₂ = false := by
  unfold OpTable.rightFree at h
  unfold preceeds
  split at h
  · rename_i p₁ p h1 h2
    simp only [h1, h2]
    simp only [decide_eq_true_eq] at h
    split <;> rename_i ha <;> simp only [ha] at h <;> simp at h ⊢ <;> omega
  · simp at h

/-- Precedence, `0` outside the table. -/
def prec (P : OpTable T) (o : T) : Nat := ((P.ops.get? o).map (·.precedence)).getD 0

theorem prec_le_of_rightFree {P : OpTable T} {o o₂ : T} (h : P.rightFree o o₂ = true) : prec P o ≤ prec P o₂ := by
  unfold OpTable.rightFree at h
  split at h
  · rename_i p₁ p h1 h2
    simp only [decide_eq_true_eq] at h
    simp only [prec, h1, h2, Option.map_some, Option.getD_some]; omega
  · simp at h

theorem prec_le_of_leftFree {P : OpTable T} {o₁ o : T} (h : P.leftFree o₁ o = true) : prec P o ≤ prec P o₁ := by
  unfold OpTable.leftFree at h
  split at h
  · rename_i p₁ p h1 h2
    simp only [decide_eq_true_eq] at h
    simp only [prec, h1, h2, Option.map_some, Option.getD_some]; omega
  · simp at h

theorem leftFree_trans {P : OpTable T} {o₁ o₂ o : T} (h : P.leftFree o₁ o = true) (h12 : prec P o₁ ≤ prec P o₂)
    (hm : (P.ops.get? o₂).isSome) : P.leftFree o₂ o = true := by
  unfold OpTable.leftFree at h ⊢
  obtain ⟨p₂, h2⟩ := Option.isSome_iff_exists.1 hm
  split at h
  · rename_i p₁ p h1 h3
    simp only [prec, h1, h2, Option.map_some, Option.getD_some] at h12
    simp only [h2, h3, decide_eq_true_eq] at h ⊢
    rcases h with h | ⟨h, h'⟩
    · left; omega
    · rcases Nat.lt_or_ge p.precedence p₂.precedence with hl | hl
      · exact .inl hl
      · exact .inr ⟨by omega, h'⟩
  · simp at h

theorem rightFree_trans {P : OpTable T} {o o₂ x : T} (h : P.rightFree o o₂ = true) (hx : P.leftFree x o₂ = true) :
    P.rightFree o x = true := by
  unfold OpTable.rightFree at h ⊢
  unfold OpTable.leftFree at hx
  split at h
  · rename_i p p₂ h1 h2
    split at hx
    · rename_i q q₂ h3 h4
      rw [h2] at h4; cases h4
      simp only [h1, h3, decide_eq_true_eq] at h hx ⊢
      rcases h with h | ⟨h, h'⟩
      · rcases hx with hx | hx <;> (left; omega)
      · rcases hx with hx | ⟨hx, h''⟩
        · left; omega
        · rw [h'] at h''; cases h''
    · simp at hx
  · simp at h

theorem toks_of_over {P : OpTable T} : ∀ {e : Infix T}, e.expr.Over P → e.Enough P → e.Toks P
  | .leaf _, h, _ => h
  | .paren e, h, hi => toks_of_over (e := e) h hi
  | .pre o e, h, hi => by
    obtain ⟨⟨p, hp, _⟩, h⟩ := h
    exact ⟨by simp [hp], toks_of_over h hi.1⟩
  | .post o e, h, hi => by
    obtain ⟨⟨p, hp, _⟩, h⟩ := h
    exact ⟨by simp [hp], toks_of_over h hi.1⟩
  | .imm o e, h, hi => by
    obtain ⟨⟨p, hp, _⟩, h⟩ := h
    simp [hi.2.2] at hp
  | .bin o l r, h, hi => by
    obtain ⟨⟨p, hp, _⟩, hl, hr⟩ := h
    exact ⟨by simp [hp], toks_of_over hl hi.1, toks_of_over hr hi.2.1⟩

/-- The operators of the text belong to the table. -/
theorem mem_pend {P : OpTable T} : ∀ {e : Infix T}, e.Toks P → ∀ o ∈ pend e, (P.ops.get? o).isSome
  | .leaf _, _, _, h => by simp [pend] at h
  | .paren _, _, _, h => by simp [pend] at h
  | .imm _ _, _, _, h => by simp [pend] at h
  | .pre o e, ho, x, h => by
    rcases List.mem_append.1 h with h | h
    · exact mem_pend ho.2 _ h
    · simp only [List.mem_singleton] at h; subst h; exact ho.1
  | .post o e, ho, x, h => by
    simp only [pend, List.mem_singleton] at h; subst h; exact ho.1
  | .bin o l r, ho, x, h => by
    rcases List.mem_append.1 h with h | h
    · exact mem_pend ho.2.2 _ h
    · simp only [List.mem_singleton] at h; subst h; exact ho.1

/-- The operators pending after an expression bind at least as tight as its main operator. -/
theorem pend_prec {P : OpTable T} : ∀ {e : Infix T}, e.Enough P → ∀ o, e.head? = some o → ∀ x ∈ pend e,
    prec P o ≤ prec P x
  | .leaf _, _, _, h => by simp [Infix.head?] at h
  | .paren _, _, _, h => by simp [Infix.head?] at h
  | .imm _ _, _, _, h => by simp [Infix.head?] at h
  | .post o e, _, _, h => by
    simp only [Infix.head?, Option.some.injEq] at h; subst h
    simp [pend]
  | .pre o e, he, _, h => by
    simp only [Infix.head?, Option.some.injEq] at h; subst h
    intro x hx
    rcases List.mem_append.1 hx with hx | hx
    · cases hh : e.head? with
      | none => cases e <;> simp [Infix.head?] at hh <;> simp [pend] at hx
      | some o₂ => exact Nat.le_trans (prec_le_of_rightFree (he.2 _ hh)) (pend_prec he.1 _ hh _ hx)
    · simp only [List.mem_singleton] at hx; subst hx; exact Nat.le_refl _
  | .bin o l e, he, _, h => by
    simp only [Infix.head?, Option.some.injEq] at h; subst h
    intro x hx
    rcases List.mem_append.1 hx with hx | hx
    · cases hh : e.head? with
      | none => cases e <;> simp [Infix.head?] at hh <;> simp [pend] at hx
      | some o₂ => exact Nat.le_trans (prec_le_of_rightFree (he.2.2.2 _ hh)) (pend_prec he.2.1 _ hh _ hx)
    · simp only [List.mem_singleton] at hx; subst hx; exact Nat.le_refl _

/-- An operator that may stand after an expression pops all of its pending operators. -/
theorem pend_pop {P : OpTable T} {e : Infix T} (he : e.Enough P) (ho : e.Toks P) {a : T}
    (h : ∀ o₁, e.head? = some o₁ → P.leftFree o₁ a = true) : ∀ x ∈ pend e, preceeds P x a = true := by
  intro x hx
  cases hh : e.head? with
  | none => cases e <;> simp [Infix.head?] at hh <;> simp [pend] at hx
  | some o => exact preceeds_of_leftFree (leftFree_trans (h _ hh) (pend_prec he _ hh _ hx) (mem_pend ho _ hx))

/-- An operator that may stand before an expression is popped by none of its operators. -/
theorem leftOps_keep {P : OpTable T} {a : T} : ∀ {e : Infix T}, e.Enough P →
    (∀ o₂, e.head? = some o₂ → P.rightFree a o₂ = true) → ∀ x ∈ leftOps e, P.rightFree a x = true
  | .leaf _, _, _ => by simp [leftOps]
  | .paren _, _, _ => by simp [leftOps]
  | .pre o e, _, h => by simpa [leftOps] using h o rfl
  | .imm o e, he, h => by
    intro x hx
    exact leftOps_keep he.1 (fun o₂ ho₂ => by rw [he.2.1] at ho₂; cases ho₂) x hx
  | .post o e, he, h => by
    intro x hx
    rcases List.mem_append.1 hx with hx | hx
    · exact leftOps_keep he.1 (fun o₂ ho₂ => rightFree_trans (h o rfl) (he.2 _ ho₂)) x hx
    · simp only [List.mem_singleton] at hx; subst hx; exact h x rfl
  | .bin o e _, he, h => by
    intro x hx
    rcases List.mem_append.1 hx with hx | hx
    · exact leftOps_keep he.1 (fun o₂ ho₂ => rightFree_trans (h o rfl) (he.2.2.1 _ ho₂)) x hx
    · simp only [List.mem_singleton] at hx; subst hx; exact h x rfl

theorem step_op {P : OpTable T} (hP : P.Sane) {sink : O → T → Except PyErr O} {o : T} (ho : (P.ops.get? o).isSome)
    (S : List T) (out : O) :
    step P sink (S, out) o = (do let s ← popPreceding P sink o S out; .ok (o :: s.1, s.2)) := by
  have h1 : o ≠ P.lpar := by rintro rfl; simp [hP.lpar] at ho
  have h2 : o ≠ P.rpar := by rintro rfl; simp [hP.rpar] at ho
  simp [step, h1, h2, Dict.contains, ho]

theorem ok_bind' {X Y : Type} (x : X) (f : X → Except PyErr Y) : ((Except.ok x : Except PyErr X) >>= f) = f x := rfl

/-- Reading the text of an expression. -/
theorem read {P : OpTable T} (hP : P.Sane) {sink : O → T → Except PyErr O} :
    ∀ (e : Infix T), e.Toks P → e.Enough P → ∀ (S : List T) (out : O),
    (∀ o₂ ∈ leftOps e, ∀ t, S.head? = some t → preceeds P t o₂ = false) →
    (e.text P).foldlM (step P sink) (S, out) =
      (do let out' ← (sent e).foldlM sink out; .ok (pend e ++ S, out')) := by
  intro e
  induction e with
  | leaf a =>
    intro ho _ S out _
    obtain ⟨h1, h2, h3⟩ := ho
    simp [Infix.text, step, h2, h3, Dict.contains, h1, sent, pend]
  | paren e ih =>
    intro ho he S out _
    have hstep : step P sink (S, out) P.lpar = .ok (P.lpar :: S, out) := by simp [step]
    have hg : ∀ o₂ ∈ leftOps e, ∀ t, (P.lpar :: S).head? = some t → preceeds P t o₂ = false := by
      rintro o₂ _ t ht
      simp only [List.head?_cons, Option.some.injEq] at ht; subst ht
      simp [preceeds, hP.lpar]
    have hne : ∀ o ∈ pend e, o ≠ P.lpar := by
      rintro o ho' rfl
      have := mem_pend (e := e) ho _ ho'
      simp [hP.lpar] at this
    have hr : ∀ s : List T × O, step P sink s P.rpar = closeParen P sink s.1 s.2 := by
      intro s; simp [step, hP.ne.symm]
    simp only [Infix.text, List.cons_append, List.foldlM_cons, List.foldlM_append, hstep, ok_bind', ih ho he _ out hg,
      bind_assoc, List.foldlM_nil, hr, closeParen_append _ _ hne, bind_pure]
    simp only [sent, pend, ← sent_pend, List.foldlM_append, bind_assoc, List.nil_append]
  | pre o e ih =>
    intro ho he S out hS
    obtain ⟨hp, ho⟩ := ho
    have hop := step_op hP (sink := sink) (o := o) hp S out
    have hpop := popPreceding_append (P := P) (sink := sink) (a := o) (S := S)
      (fun t ht => hS o (by simp [leftOps]) t ht) [] out (by simp)
    simp only [List.nil_append, List.foldlM_nil, pure_bind] at hpop
    have hg : ∀ o₂ ∈ leftOps e, ∀ t, (o :: S).head? = some t → preceeds P t o₂ = false := by
      rintro o₂ h2 t ht
      simp only [List.head?_cons, Option.some.injEq] at ht; subst ht
      exact not_preceeds_of_rightFree (leftOps_keep he.1 he.2 _ h2)
    simp only [Infix.text, List.foldlM_cons, hop, hpop, ok_bind', ih ho he.1 _ out hg, sent, pend, List.append_assoc,
      List.singleton_append]
  | post o e ih =>
    intro ho he S out hS
    obtain ⟨hp, ho⟩ := ho
    have hop := step_op hP (sink := sink) (o := o) hp
    have hpop := (popPreceding_append (P := P) (sink := sink) (a := o) (S := S)
      (fun t ht => hS o (by simp [leftOps]) t ht) (pend e) · (pend_pop he.1 ho he.2))
    have hg : ∀ o₂ ∈ leftOps e, ∀ t, S.head? = some t → preceeds P t o₂ = false :=
      fun o₂ h2 t ht => hS o₂ (by simp [leftOps, h2]) t ht
    simp only [Infix.text, List.foldlM_append, List.foldlM_cons, List.foldlM_nil, bind_pure, ih ho he.1 _ out hg,
      bind_assoc, ok_bind', hop, hpop, sent, pend, ← sent_pend, List.singleton_append]
  | imm a e ih =>
    intro ho he S out hS
    obtain ⟨⟨h1, h2, h3⟩, ho⟩ := ho
    have hpend : pend e = [] := by
      have := he.2.1
      cases e <;> simp [Infix.head?] at this <;> rfl
    have hstep : ∀ s : List T × O, step P sink s a = (do let out ← sink s.2 a; .ok (s.1, out)) := by
      intro s; simp [step, h2, h3, Dict.contains, h1]
    have hsent := sent_pend e
    rw [hpend, List.append_nil] at hsent
    have hi := ih ho he.1 S out (fun o₂ h t ht => hS o₂ h t ht)
    simp only [Infix.text, List.foldlM_append, List.foldlM_cons, List.foldlM_nil, bind_pure, hi, bind_assoc, ok_bind',
      hstep, sent, pend, hpend, List.nil_append, hsent]
  | bin o l r ihl ihr =>
    intro ho he S out hS
    obtain ⟨hp, hol, hor⟩ := ho
    obtain ⟨hel, her, hl, hr⟩ := he
    have hop := step_op hP (sink := sink) (o := o) hp
    have hpop := (popPreceding_append (P := P) (sink := sink) (a := o) (S := S)
      (fun t ht => hS o (by simp [leftOps]) t ht) (pend l) · (pend_pop hel hol hl))
    have hg : ∀ o₂ ∈ leftOps l, ∀ t, S.head? = some t → preceeds P t o₂ = false :=
      fun o₂ h2 t ht => hS o₂ (by simp [leftOps, h2]) t ht
    have hg' : ∀ o₂ ∈ leftOps r, ∀ t, (o :: S).head? = some t → preceeds P t o₂ = false := by
      rintro o₂ h2 t ht
      simp only [List.head?_cons, Option.some.injEq] at ht; subst ht
      exact not_preceeds_of_rightFree (leftOps_keep her hr _ h2)
    simp only [Infix.text, List.foldlM_append, List.foldlM_cons, ihl hol hel _ out hg, bind_assoc, ok_bind', hop, hpop,
      ihr hor her _ _ hg', sent, pend, ← sent_pend, List.append_assoc, List.singleton_append]

/-- The whole run: the sink receives the postfix form. -/
theorem run_toks {P : OpTable T} (hP : P.Sane) {sink : O → T → Except PyErr O} {e : Infix T} (ho : e.Toks P)
    (he : e.Enough P) (out : O) : run P sink (e.text P) out = e.expr.rpn.foldlM sink out := by
  rw [run, read hP e ho he [] out (by simp)]
  simp only [bind_assoc, ok_bind', List.append_nil, ← sent_pend, List.foldlM_append]

theorem run_text {P : OpTable T} (hP : P.Sane) {sink : O → T → Except PyErr O} {e : Infix T} (ho : e.expr.Over P)
    (he : e.Enough P) (out : O) : run P sink (e.text P) out = e.expr.rpn.foldlM sink out :=
  run_toks hP (toks_of_over ho he) he out

theorem foldlM_plain (ts out : List T) : ts.foldlM plainSink out = .ok (out ++ ts) := by
  induction ts generalizing out with
  | nil => simp [pure, Except.pure]
  | cons t ts ih => simp [plainSink, ok_bind', ih]

/-! ## The two printings -/

theorem full_expr (e : Expr T) : e.full.expr = e := by
  induction e <;> simp_all [Expr.full, Infix.expr]

theorem full_enough (P : OpTable T) (e : Expr T) : e.full.Enough P := by
  have hh : ∀ e : Expr T, e.full.head? = none := by intro e; cases e <;> rfl
  induction e <;> simp_all [Expr.full, Infix.Enough]

theorem minimal_expr (P : OpTable T) (e : Expr T) : (e.minimal P).expr = e := by
  induction e with
  | leaf a => rfl
  | un o e ih => simp only [Expr.minimal, Infix.expr]; split <;> simp [Infix.expr, ih]
  | bin o l r ihl ihr =>
    simp only [Expr.minimal, Infix.expr]; split <;> split <;> simp [Infix.expr, ihl, ihr]

theorem minimal_head (P : OpTable T) (e : Expr T) : (e.minimal P).head? = e.head? := by
  cases e <;> rfl

theorem minimal_enough (P : OpTable T) (e : Expr T) : (e.minimal P).Enough P := by
  induction e with
  | leaf a => trivial
  | un o e ih =>
    simp only [Expr.minimal, Infix.Enough]
    split
    · rename_i h
      refine ⟨ih, fun o₂ h2 => ?_⟩
      rw [minimal_head] at h2
      simpa [h2] using h
    · exact ⟨ih, by simp [Infix.head?]⟩
  | bin o l r ihl ihr =>
    simp only [Expr.minimal, Infix.Enough]
    refine ⟨?_, ?_, ?_, ?_⟩
    · split <;> exact ihl
    · split <;> exact ihr
    · split
      · rename_i h
        intro o₂ h2
        rw [minimal_head] at h2
        simpa [h2] using h
      · simp [Infix.head?]
    · split
      · rename_i h
        intro o₂ h2
        rw [minimal_head] at h2
        simpa [h2] using h
      · simp [Infix.head?]

/-! ## Unbalanced closing parentheses -/

theorem popPreceding_count {P : OpTable T} (hP : P.Sane) {sink : O → T → Except PyErr O} {a : T} :
    ∀ (S : List T) (out : O) (S' : List T) (out' : O), popPreceding P sink a S out = .ok (S', out') →
    S'.count P.lpar = S.count P.lpar
  | [], out, S', out', h => by cases h; rfl
  | o :: S, out, S', out', h => by
    rw [popPreceding] at h
    split at h
    · rename_i hp
      cases hs : sink out o with
      | error e => rw [hs] at h; cases h
      | ok out₁ =>
        rw [hs] at h
        have := popPreceding_count hP S out₁ S' out' h
        have hne : o ≠ P.lpar := by
          rintro rfl
          simp [preceeds, hP.lpar] at hp
        rw [this, List.count_cons_of_ne hne]
    · cases h; rfl

theorem closeParen_count {P : OpTable T} {sink : O → T → Except PyErr O} :
    ∀ (S : List T) (out : O) (S' : List T) (out' : O), closeParen P sink S out = .ok (S', out') →
    S.count P.lpar = S'.count P.lpar + 1
  | [], out, S', out', h => by cases h
  | o :: S, out, S', out', h => by
    rw [closeParen] at h
    split at h
    · rename_i ho
      cases h; subst ho; simp
    · rename_i ho
      cases hs : sink out o with
      | error e => rw [hs] at h; cases h
      | ok out₁ =>
        rw [hs] at h
        rw [List.count_cons_of_ne ho]
        exact closeParen_count S out₁ S' out' h

theorem step_count {P : OpTable T} (hP : P.Sane) {sink : O → T → Except PyErr O} {s s' : List T × O} {a : T}
    (h : step P sink s a = .ok s') :
    s.1.count P.lpar + [a].count P.lpar = s'.1.count P.lpar + [a].count P.rpar := by
  rw [step] at h
  split at h
  · rename_i ha
    cases h; subst ha
    simp [List.count_cons, hP.ne]
  · rename_i ha
    split at h
    · rename_i ha'
      subst ha'
      have := closeParen_count _ _ _ _ h
      rw [this]
      simp [List.count_cons, hP.ne.symm]
    · rename_i ha'
      have e1 : [a].count P.lpar = 0 := by simp [List.count_cons, ha]
      have e2 : [a].count P.rpar = 0 := by simp [List.count_cons, ha']
      rw [e1, e2]
      split at h
      · cases hp : popPreceding P sink a s.1 s.2 with
        | error e => rw [hp] at h; cases h
        | ok s₁ =>
          rw [hp] at h
          cases h
          rw [List.count_cons_of_ne ha, popPreceding_count hP _ _ _ _ hp]
      · cases hs : sink s.2 a with
        | error e => rw [hs] at h; cases h
        | ok out =>
          rw [hs] at h
          cases h
          rfl

theorem foldlM_count {P : OpTable T} (hP : P.Sane) {sink : O → T → Except PyErr O} :
    ∀ (ts : List T) (s s' : List T × O), ts.foldlM (step P sink) s = .ok s' →
    s.1.count P.lpar + ts.count P.lpar = s'.1.count P.lpar + ts.count P.rpar
  | [], s, s', h => by cases h; simp
  | t :: ts, s, s', h => by
    rw [List.foldlM_cons] at h
    cases hs : step P sink s t with
    | error e => rw [hs] at h; cases h
    | ok s₁ =>
      rw [hs] at h
      have h1 := step_count hP hs
      have h2 := foldlM_count hP ts s₁ s' h
      have e : ∀ x, (t :: ts).count x = [t].count x + ts.count x := fun x => by
        rw [← List.singleton_append, List.count_append]
      rw [e, e]
      omega

/-- A closing parenthesis which closes nothing. -/
theorem run_unbalanced {P : OpTable T} (hP : P.Sane) {sink : O → T → Except PyErr O} {u v : List T} {out : O}
    (h : u.count P.lpar < u.count P.rpar) : ∃ e, run P sink (u ++ v) out = .error e := by
  rw [run, List.foldlM_append]
  cases hs : u.foldlM (step P sink) ([], out) with
  | error e => exact ⟨e, rfl⟩
  | ok s =>
    have := foldlM_count hP u _ _ hs
    simp only [List.count_nil] at this
    omega

end ShuntingYard

end PyBGL
