import Verif.Proofs.RegexText
import Verif.Proofs.ThompsonPaths
import Verif.Spec.RegexRead

/-!
# Reading stacked suffix operators
-/

namespace PyBGL
namespace RegexText
open ShuntingYard

/-! ## The reading -/

theorem atomic_level (e : ReText) : e.atomic.level = 4 := by
  unfold ReText.atomic
  split
  · assumption
  · rfl

/-- The postfix form. -/
def rpn (e : ReText) : List (List Char) := (toInfix e).expr.rpn

theorem rpn_atomic (e : ReText) : rpn e.atomic = rpn e := by
  unfold ReText.atomic; split <;> rfl

/-- A property of expressions which ignores suffix operators and parentheses. -/
structure Ignores (P : ReText → Prop) : Prop where
  group : ∀ e, P (.group e) ↔ P e
  opt : ∀ e, P (.opt e) ↔ P e
  star : ∀ e, P (.star e) ↔ P e
  plus : ∀ e, P (.plus e) ↔ P e

namespace Ignores
variable {P : ReText → Prop} (h : Ignores P)
include h

theorem atomic (e : ReText) : P e.atomic ↔ P e := by
  unfold ReText.atomic; split
  · exact Iff.rfl
  · exact h.group e

theorem repeated (r : ReReading) : P r.repeated ↔ P r.operand := by
  unfold ReReading.repeated
  split
  · exact Iff.rfl
  · exact h.star _
  · exact h.plus _

theorem all (r : ReReading) : P r.all ↔ P r.operand := by
  unfold ReReading.all
  split
  · exact (h.opt _).trans (h.repeated r)
  · exact h.repeated r

theorem readAs (hc : ∀ l l' r r', (P l' ↔ P l) → (P r' ↔ P r) → (P (.cat l' r') ↔ P (.cat l r)))
    (ha : ∀ l l' r r', (P l' ↔ P l) → (P r' ↔ P r) → (P (.alt l' r') ↔ P (.alt l r)))
    (hr : ∀ f e e', (P e' ↔ P e) → (P (.rep f e') ↔ P (.rep f e))) (e : ReText) : P e.readAs ↔ P e := by
  suffices hk : P e.read.operand ↔ P e from (h.all _).trans hk
  induction e with
  | lit c => exact Iff.rfl
  | esc c => exact Iff.rfl
  | bracket neg items => exact Iff.rfl
  | group e ih => exact ((h.group _).trans ((h.all _).trans ih)).trans (h.group e).symm
  | cat l r ihl ihr => exact hc _ _ _ _ ((h.all _).trans ihl) ((h.all _).trans ihr)
  | alt l r ihl ihr => exact ha _ _ _ _ ((h.all _).trans ihl) ((h.all _).trans ihr)
  | opt e ih => exact ((h.atomic _).trans ((h.all _).trans ih)).trans (h.opt e).symm
  | star e ih => exact ((h.atomic _).trans ((h.repeated _).trans ih)).trans (h.star e).symm
  | plus e ih => exact ((h.atomic _).trans ((h.repeated _).trans ih)).trans (h.plus e).symm
  | rep f e ih => exact hr _ _ _ ih

end Ignores

theorem readAs_WF (C : ReClasses) (e : ReText) : e.readAs.WF C ↔ e.WF C :=
  Ignores.readAs (P := fun e => e.WF C) ⟨fun _ => Iff.rfl, fun _ => Iff.rfl, fun _ => Iff.rfl, fun _ => Iff.rfl⟩
    (fun _ _ _ _ h1 h2 => and_congr h1 h2) (fun _ _ _ _ h1 h2 => and_congr h1 h2) (fun _ _ _ h => and_congr Iff.rfl h) e

theorem readAs_symbol (S : List Char) (a : Char) (e : ReText) : e.readAs.Symbol S a ↔ e.Symbol S a :=
  Ignores.readAs (P := fun e => e.Symbol S a) ⟨fun _ => Iff.rfl, fun _ => Iff.rfl, fun _ => Iff.rfl, fun _ => Iff.rfl⟩
    (fun _ _ _ _ h1 h2 => or_congr h1 h2) (fun _ _ _ _ h1 h2 => or_congr h1 h2) (fun _ _ _ h => h) e

theorem readAs_noNegEsc (e : ReText) : e.readAs.NoNegEsc ↔ e.NoNegEsc :=
  Ignores.readAs (P := ReText.NoNegEsc) ⟨fun _ => Iff.rfl, fun _ => Iff.rfl, fun _ => Iff.rfl, fun _ => Iff.rfl⟩
    (fun _ _ _ _ h1 h2 => and_congr h1 h2) (fun _ _ _ _ h1 h2 => and_congr h1 h2) (fun _ _ _ h => h) e

theorem operand_level {e : ReText} (h : 2 ≤ e.level) : e.read.operand.level = 4 := by
  cases e <;> simp only [ReText.level] at h <;> first | omega | exact atomic_level _ | rfl

theorem all_level {r : ReReading} (h : r.operand.level = 4) : 2 ≤ r.all.level := by
  obtain ⟨o, t, q⟩ := r
  simp only at h
  cases q <;> rcases t with _ | (_ | _)
  · show 2 ≤ o.level; omega
  all_goals simp [ReReading.all, ReReading.repeated, ReText.level]

theorem readAs_level (e : ReText) : (2 ≤ e.level → 2 ≤ e.readAs.level) ∧ (1 ≤ e.level → 1 ≤ e.readAs.level) := by
  refine ⟨fun h => all_level (operand_level h), fun h => ?_⟩
  rcases Nat.lt_or_ge e.level 2 with h' | h'
  · cases e <;> simp only [ReText.level] at h h' <;> first | omega | exact Nat.le_refl 1
  · exact Nat.le_of_succ_le (all_level (operand_level h'))

theorem parens_repeated {r : ReReading} (h : r.operand.Parens) (hl : r.operand.level = 4) : r.repeated.Parens := by
  obtain ⟨o, t, q⟩ := r
  simp only at h hl
  rcases t with _ | (_ | _) <;> simp [ReReading.repeated, ReText.Parens, h, hl]

theorem parens_all {r : ReReading} (h : r.operand.Parens) (hl : r.operand.level = 4) : r.all.Parens := by
  unfold ReReading.all
  split
  · refine ⟨parens_repeated h hl, ?_⟩
    obtain ⟨o, t, q⟩ := r
    simp only at h hl
    rcases t with _ | (_ | _)
    · show 2 ≤ o.level; omega
    all_goals simp [ReReading.repeated, ReText.level]
  · exact parens_repeated h hl

theorem parens_atomic {e : ReText} (h : e.Parens) : e.atomic.Parens := by
  unfold ReText.atomic; split <;> exact h

/-- The reading has the parentheses needed by the precedences of the library. -/
theorem readAs_parens : ∀ (e : ReText), e.UsualParens → e.read.operand.Parens ∧ e.readAs.Parens := by
  intro e
  induction e with
  | lit c => intro _; exact ⟨trivial, trivial⟩
  | esc c => intro _; exact ⟨trivial, trivial⟩
  | bracket neg items => intro _; exact ⟨trivial, trivial⟩
  | group e ih => intro h; exact ⟨(ih h).2, (ih h).2⟩
  | cat l r ihl ihr =>
    rintro ⟨h1, h2, h3, h4⟩
    have : (ReText.cat l.readAs r.readAs).Parens :=
      ⟨(ihl h1).2, (ihr h2).2, (readAs_level l).2 h3, (readAs_level r).1 h4⟩
    exact ⟨this, this⟩
  | alt l r ihl ihr =>
    rintro ⟨h1, h2, h3⟩
    have : (ReText.alt l.readAs r.readAs).Parens := ⟨(ihl h1).2, (ihr h2).2, (readAs_level r).2 h3⟩
    exact ⟨this, this⟩
  | opt e ih =>
    rintro ⟨h1, _⟩
    have := parens_atomic (ih h1).2
    exact ⟨this, parens_all this (atomic_level _)⟩
  | star e ih =>
    rintro ⟨h1, h2⟩
    have := parens_atomic (parens_repeated (ih h1).1 (operand_level h2))
    exact ⟨this, parens_all this (atomic_level _)⟩
  | plus e ih =>
    rintro ⟨h1, h2⟩
    have := parens_atomic (parens_repeated (ih h1).1 (operand_level h2))
    exact ⟨this, parens_all this (atomic_level _)⟩
  | rep f e ih =>
    rintro ⟨h1, h2⟩
    have : (ReText.rep f e.read.operand).Parens := ⟨(ih h1).1, operand_level h2⟩
    exact ⟨this, parens_all this rfl⟩

/-! ## The run of the shunting yard algorithm -/

/-- The token of `*` or `+`. -/
def timesToks (r : ReReading) : List (List Char) :=
  match r.times with
  | none => []
  | some .star => [['*']]
  | some .plus => [['+']]

/-- The token of `?`. -/
def optToks (r : ReReading) : List (List Char) := if r.opt then [['?']] else []

/-- The operators waiting on the stack, from the top. -/
def pendR : ReText → List (List Char)
  | .cat _ r => pendR r ++ [['.']]
  | .alt _ r => pendR r ++ [['|']]
  | e => timesToks e.read ++ optToks e.read

/-- The tokens sent to the output. -/
def sentR : ReText → List (List Char)
  | .cat l r => rpn l.readAs ++ sentR r
  | .alt l r => rpn l.readAs ++ sentR r
  | e => rpn e.read.operand

theorem pendR_eq {e : ReText} (h : 2 ≤ e.level) : pendR e = timesToks e.read ++ optToks e.read := by
  cases e <;> simp only [ReText.level] at h <;> first | omega | rfl

theorem sentR_eq {e : ReText} (h : 2 ≤ e.level) : sentR e = rpn e.read.operand := by
  cases e <;> simp only [ReText.level] at h <;> first | omega | rfl

theorem rpn_repeated (r : ReReading) : rpn r.repeated = rpn r.operand ++ timesToks r := by
  obtain ⟨o, t, q⟩ := r
  rcases t with _ | (_ | _) <;> simp [ReReading.repeated, timesToks, rpn, toInfix, Infix.expr, Expr.rpn]

theorem rpn_all (r : ReReading) : rpn r.all = rpn r.operand ++ (timesToks r ++ optToks r) := by
  unfold ReReading.all optToks
  split
  · have : rpn (.opt r.repeated) = rpn r.repeated ++ [['?']] := rfl
    rw [this, rpn_repeated, List.append_assoc]
  · rw [rpn_repeated, List.append_nil]

theorem sentR_pendR : ∀ e : ReText, sentR e ++ pendR e = rpn e.readAs := by
  intro e
  induction e with
  | cat l r _ ih =>
    have : rpn (ReText.cat l r).readAs = rpn l.readAs ++ rpn r.readAs ++ [['.']] := rfl
    rw [this, ← ih]; simp [sentR, pendR]
  | alt l r _ ih =>
    have : rpn (ReText.alt l r).readAs = rpn l.readAs ++ rpn r.readAs ++ [['|']] := rfl
    rw [this, ← ih]; simp [sentR, pendR]
  | lit c => rw [sentR_eq (by simp [ReText.level]), pendR_eq (by simp [ReText.level]), ReText.readAs, rpn_all]
  | esc c => rw [sentR_eq (by simp [ReText.level]), pendR_eq (by simp [ReText.level]), ReText.readAs, rpn_all]
  | bracket neg items =>
    rw [sentR_eq (by simp [ReText.level]), pendR_eq (by simp [ReText.level]), ReText.readAs, rpn_all]
  | group e _ => rw [sentR_eq (by simp [ReText.level]), pendR_eq (by simp [ReText.level]), ReText.readAs, rpn_all]
  | opt e _ => rw [sentR_eq (by simp [ReText.level]), pendR_eq (by simp [ReText.level]), ReText.readAs, rpn_all]
  | star e _ => rw [sentR_eq (by simp [ReText.level]), pendR_eq (by simp [ReText.level]), ReText.readAs, rpn_all]
  | plus e _ => rw [sentR_eq (by simp [ReText.level]), pendR_eq (by simp [ReText.level]), ReText.readAs, rpn_all]
  | rep f e _ => rw [sentR_eq (by simp [ReText.level]), pendR_eq (by simp [ReText.level]), ReText.readAs, rpn_all]

theorem mem_suffix (r : ReReading) : ∀ o ∈ timesToks r ++ optToks r, o = ['?'] ∨ o = ['*'] ∨ o = ['+'] := by
  intro o ho
  obtain ⟨_, t, q⟩ := r
  cases q <;> rcases t with _ | (_ | _) <;> simp [timesToks, optToks] at ho <;> tauto

theorem mem_pendR : ∀ (e : ReText), e.UsualParens →
    ∀ o ∈ pendR e, (o = ['|'] ∧ e.level = 0) ∨ (o = ['.'] ∧ e.level ≤ 1) ∨ o = ['?'] ∨ o = ['*'] ∨ o = ['+'] := by
  intro e
  induction e with
  | cat l r _ ih =>
    rintro ⟨_, _, _, h4⟩ o ho
    simp only [pendR, List.mem_append, List.mem_singleton] at ho
    rcases ho with ho | rfl
    · rw [pendR_eq h4] at ho
      exact .inr (.inr (mem_suffix _ o ho))
    · simp [ReText.level]
  | alt l r _ ih =>
    rintro ⟨_, h2, _⟩ o ho
    simp only [pendR, List.mem_append, List.mem_singleton] at ho
    rcases ho with ho | rfl
    · have := ih h2 o ho
      simp only [ReText.level]
      tauto
    · simp [ReText.level]
  | _ => intro _ o ho; exact .inr (.inr (mem_suffix _ o ho))

/-- What may lie on the stack below an expression of a given level. -/
def Below (k : Nat) (S : List (List Char)) : Prop :=
  ∀ t, S.head? = some t → t = ['('] ∨ (t = ['|'] ∧ 1 ≤ k) ∨ (t = ['.'] ∧ 2 ≤ k)

theorem Below.mono {k k' : Nat} {S : List (List Char)} (h : Below k S) (hk : min 2 k ≤ k') : Below k' S := by
  intro t ht
  rcases h t ht with h | ⟨h, h'⟩ | ⟨h, h'⟩
  · exact .inl h
  · exact .inr (.inl ⟨h, by omega⟩)
  · exact .inr (.inr ⟨h, by omega⟩)

/-- The operators which wait below an expression are not popped by its operators. -/
theorem Below.keep {S : List (List Char)} {k : Nat} (h : Below k S) {o : List Char}
    (ho : o = ['|'] ∧ k = 0 ∨ o = ['.'] ∧ k = 1 ∨ o = ['?'] ∨ o = ['*'] ∨ o = ['+']) :
    ∀ t, S.head? = some t → preceeds reTable t o = false := by
  intro t ht
  rcases h t ht with rfl | ⟨rfl, hk⟩ | ⟨rfl, hk⟩ <;>
    rcases ho with ⟨rfl, hk'⟩ | ⟨rfl, hk'⟩ | rfl | rfl | rfl <;> first | (exfalso; omega) | decide

/-- Reading the tokens of an expression. -/
theorem readR {C : ReClasses} {O : Type} {sink : O → List Char → Except PyErr O} :
    ∀ (e : ReText), e.WF C → e.UsualParens → ∀ (S : List (List Char)) (out : O), Below e.level S →
    ((toInfix e).text reTable).foldlM (step reTable sink) (S, out) =
      (do let out' ← (sentR e).foldlM sink out; .ok (pendR e ++ S, out')) := by
  have leaf : ∀ (t : List Char) (S : List (List Char)) (out : O), reTable.ops.get? t = none → t ≠ reTable.lpar →
      t ≠ reTable.rpar → step reTable sink (S, out) t = (do let out ← sink out t; .ok (S, out)) := by
    intro t S out h1 h2 h3
    simp [step, h2, h3, Dict.contains, h1]
  have suffix : ∀ (e : ReText) (o : List Char) (A B : List (List Char)), 2 ≤ e.level → (reTable.ops.get? o).isSome →
      pendR e = A ++ B → (∀ x ∈ A, preceeds reTable x o = true) →
      ∀ (S : List (List Char)), (∀ t, (B ++ S).head? = some t → preceeds reTable t o = false) → ∀ (out : O),
      ((toInfix e).text reTable).foldlM (step reTable sink) (S, out) =
        (do let out' ← (sentR e).foldlM sink out; .ok (pendR e ++ S, out')) →
      ((toInfix e).text reTable ++ [o]).foldlM (step reTable sink) (S, out) =
        (do let out' ← (sentR e ++ A).foldlM sink out; .ok (o :: (B ++ S), out')) := by
    intro e o A B hl ho hAB hA S hB out hi
    have hpop := fun out => popPreceding_append (P := reTable) (sink := sink) (a := o) hB A out hA
    simp only [List.foldlM_append, List.foldlM_cons, List.foldlM_nil, bind_pure, hi, bind_assoc, ok_bind',
      step_op sane ho, hAB, List.append_assoc, hpop]
  intro e
  induction e with
  | lit c =>
    intro h _ S out _
    obtain ⟨h1, h2, h3⟩ := toks (.lit c) h
    simp [toInfix, Infix.text, leaf [c] _ _ h1 h2 h3, sentR, pendR, rpn, ReText.read, Infix.expr, Expr.rpn, timesToks, optToks]
  | esc c =>
    intro h _ S out _
    obtain ⟨h1, h2, h3⟩ := toks (.esc c) h
    simp [toInfix, Infix.text, leaf _ _ _ h1 h2 h3, sentR, pendR, rpn, ReText.read, Infix.expr, Expr.rpn, timesToks, optToks]
  | bracket neg items =>
    intro h _ S out _
    obtain ⟨h1, h2, h3⟩ := toks (.bracket neg items) h
    simp [toInfix, Infix.text, leaf _ _ _ h1 h2 h3, sentR, pendR, rpn, ReText.read, Infix.expr, Expr.rpn, timesToks, optToks]
  | group e ih =>
    intro h hp S out _
    have hstep : step reTable sink (S, out) reTable.lpar = .ok (reTable.lpar :: S, out) := by simp [step]
    have hg : Below e.level (reTable.lpar :: S) := by
      intro t ht
      simp only [List.head?_cons, Option.some.injEq] at ht; subst ht
      exact .inl rfl
    have hne : ∀ o ∈ pendR e, o ≠ reTable.lpar := by
      intro o ho
      rcases mem_pendR e hp o ho with ⟨rfl, _⟩ | ⟨rfl, _⟩ | rfl | rfl | rfl <;> decide
    have hr : ∀ s : List (List Char) × O, step reTable sink s reTable.rpar = closeParen reTable sink s.1 s.2 := by
      intro s; simp [step, sane.ne.symm]
    have h1 : sentR (.group e) = sentR e ++ pendR e := (sentR_pendR e).symm
    have h2 : pendR (.group e) = [] := rfl
    simp only [toInfix, Infix.text, List.cons_append, List.foldlM_cons, List.foldlM_append, hstep, ok_bind', ih h hp _ out hg,
      bind_assoc, List.foldlM_nil, hr, closeParen_append _ _ hne, bind_pure, h1, h2, List.nil_append]
  | cat l r ihl ihr =>
    rintro ⟨hl, hr⟩ ⟨hpl, hpr, hll, hlr⟩ S out hS
    have hgl : Below l.level S := hS.mono (Nat.le_trans (Nat.min_le_right _ _) hll)
    have hgr : Below r.level (['.'] :: S) := by
      intro t ht
      simp only [List.head?_cons, Option.some.injEq] at ht; subst ht
      exact .inr (.inr ⟨rfl, hlr⟩)
    have hA : ∀ x ∈ pendR l, preceeds reTable x ['.'] = true := by
      intro o ho
      rcases mem_pendR l hpl o ho with ⟨rfl, h⟩ | ⟨rfl, _⟩ | rfl | rfl | rfl <;> first | (exfalso; omega) | decide
    have hpop := fun out => popPreceding_append (P := reTable) (sink := sink) (a := ['.']) (S := S)
      (hS.keep (.inr (.inl ⟨rfl, rfl⟩))) (pendR l) out hA
    simp only [toInfix, Infix.text, List.foldlM_append, List.foldlM_cons, ihl hl hpl _ out hgl, bind_assoc, ok_bind',
      step_op sane (show (reTable.ops.get? ['.']).isSome by decide), hpop, ihr hr hpr _ _ hgr, sentR, pendR, ← sentR_pendR,
      List.append_assoc, List.singleton_append]
  | alt l r ihl ihr =>
    rintro ⟨hl, hr⟩ ⟨hpl, hpr, hlr⟩ S out hS
    have hgl : Below l.level S := hS.mono (Nat.le_trans (Nat.min_le_right _ _) (Nat.zero_le _))
    have hgr : Below r.level (['|'] :: S) := by
      intro t ht
      simp only [List.head?_cons, Option.some.injEq] at ht; subst ht
      exact .inr (.inl ⟨rfl, hlr⟩)
    have hA : ∀ x ∈ pendR l, preceeds reTable x ['|'] = true := by
      intro o ho
      rcases mem_pendR l hpl o ho with ⟨rfl, h⟩ | ⟨rfl, _⟩ | rfl | rfl | rfl <;> decide
    have hpop := fun out => popPreceding_append (P := reTable) (sink := sink) (a := ['|']) (S := S)
      (hS.keep (.inl ⟨rfl, rfl⟩)) (pendR l) out hA
    simp only [toInfix, Infix.text, List.foldlM_append, List.foldlM_cons, ihl hl hpl _ out hgl, bind_assoc, ok_bind',
      step_op sane (show (reTable.ops.get? ['|']).isSome by decide), hpop, ihr hr hpr _ _ hgr, sentR, pendR, ← sentR_pendR,
      List.append_assoc, List.singleton_append]
  | opt e ih =>
    rintro h ⟨hp, hl⟩ S out hS
    have hg : Below e.level S := hS.mono (Nat.le_trans (Nat.min_le_left 2 _) hl)
    have := suffix e ['?'] (pendR e) [] hl (by decide) (by simp) (by
      intro o ho
      rcases mem_pendR e hp o ho with ⟨rfl, h⟩ | ⟨rfl, _⟩ | rfl | rfl | rfl <;> first | (exfalso; omega) | decide)
      S (hS.keep (.inr (.inr (.inl rfl)))) out (ih h hp S out hg)
    have h1 : sentR (.opt e) = sentR e ++ pendR e := by
      rw [sentR_pendR]; exact rpn_atomic _
    have h2 : pendR (.opt e) = [['?']] := rfl
    rw [h1, h2]
    exact this
  | star e ih =>
    rintro h ⟨hp, hl⟩ S out hS
    have hg : Below e.level S := hS.mono (Nat.le_trans (Nat.min_le_left 2 _) hl)
    have := suffix e ['*'] (timesToks e.read) (optToks e.read) hl (by decide) (pendR_eq hl) (by
      intro o ho
      unfold timesToks at ho
      split at ho <;> simp at ho <;> subst ho <;> decide)
      S (by
        intro t ht
        unfold optToks at ht
        split at ht
        · simp only [List.cons_append, List.nil_append, List.head?_cons, Option.some.injEq] at ht
          subst ht; decide
        · exact hS.keep (.inr (.inr (.inr (.inl rfl)))) t ht) out (ih h hp S out hg)
    have h1 : sentR (.star e) = sentR e ++ timesToks e.read := by
      rw [sentR_eq hl, ← rpn_repeated]; exact rpn_atomic _
    have h2 : pendR (.star e) = ['*'] :: optToks e.read := rfl
    rw [h1, h2]
    exact this
  | plus e ih =>
    rintro h ⟨hp, hl⟩ S out hS
    have hg : Below e.level S := hS.mono (Nat.le_trans (Nat.min_le_left 2 _) hl)
    have := suffix e ['+'] (timesToks e.read) (optToks e.read) hl (by decide) (pendR_eq hl) (by
      intro o ho
      unfold timesToks at ho
      split at ho <;> simp at ho <;> subst ho <;> decide)
      S (by
        intro t ht
        unfold optToks at ht
        split at ht
        · simp only [List.cons_append, List.nil_append, List.head?_cons, Option.some.injEq] at ht
          subst ht; decide
        · exact hS.keep (.inr (.inr (.inr (.inr rfl)))) t ht) out (ih h hp S out hg)
    have h1 : sentR (.plus e) = sentR e ++ timesToks e.read := by
      rw [sentR_eq hl, ← rpn_repeated]; exact rpn_atomic _
    have h2 : pendR (.plus e) = ['+'] :: optToks e.read := rfl
    rw [h1, h2]
    exact this
  | rep f e ih =>
    rintro h ⟨hp, hl⟩ S out hS
    have hg : Below e.level S := hS.mono (Nat.le_trans (Nat.min_le_left 2 _) hl)
    obtain ⟨⟨k1, k2, k3⟩, _⟩ := toks (.rep f e) h
    have h1 : sentR (.rep f e) = sentR e ++ [f.text] := by
      rw [sentR_eq hl]; rfl
    have h2 : pendR (.rep f e) = pendR e := by rw [pendR_eq hl]; rfl
    simp only [toInfix, Infix.text, List.foldlM_append, List.foldlM_cons, List.foldlM_nil, bind_pure, ih h.2 hp _ out hg,
      bind_assoc, ok_bind', leaf _ _ _ k1 k2 k3, h1, h2]

/-- The sink receives the postfix form of the reading. -/
theorem run_read {C : ReClasses} {O : Type} {sink : O → List Char → Except PyErr O} {e : ReText} (h : e.WF C)
    (hp : e.UsualParens) (out : O) :
    ShuntingYard.run reTable sink ((toInfix e).text reTable) out = (rpn e.readAs).foldlM sink out := by
  rw [ShuntingYard.run, readR e h hp [] out (by intro t ht; simp at ht)]
  simp only [bind_assoc, ok_bind', List.append_nil, ← sentR_pendR, List.foldlM_append]

/-- The text of an expression is compiled as the text of its reading. -/
theorem compileText_read {C : ReClasses} (hC : C.Sound) (order : List Char → List Char) (wa : List Char) {e : ReText}
    (h : e.WF C) (hp : e.UsualParens) : compileText C order wa e.text = compileText C order wa e.readAs.text := by
  have hw := (readAs_WF C e).2 h
  have h1 : e.text.isEmpty = false := by simp [text_ne e]
  have h2 : e.readAs.text.isEmpty = false := by simp [text_ne e.readAs]
  simp only [compileText, h1, h2, tokenizerRe_text hC h, tokenizerRe_text hC hw, run_read h hp,
    run_toks sane (toks e.readAs hw) (enough e.readAs (readAs_parens e hp).2)]
  rfl

/-! ## The language of the reading -/

theorem atomic_lang (C : ReClasses) (S : List Char) (e : ReText) (w : List Char) :
    e.atomic.Lang C S w ↔ e.Lang C S w := by
  unfold ReText.atomic; split <;> exact Iff.rfl

/-- Powers of an optional language. -/
theorem pow_opt {L : List Char → Prop} (k : Nat) (w : List Char) :
    Pow (fun w => w = [] ∨ L w) k w ↔ ∃ j ≤ k, Pow L j w := by
  induction k generalizing w with
  | zero =>
    rw [Pow.zero_iff]
    exact ⟨fun h => ⟨0, Nat.le_refl _, Pow.zero_iff.2 h⟩, fun ⟨j, hj, h⟩ => by
      obtain rfl : j = 0 := by omega
      exact Pow.zero_iff.1 h⟩
  | succ k ih =>
    rw [Pow.succ_iff]
    constructor
    · rintro ⟨u, v, rfl, hu, hv⟩
      obtain ⟨j, hj, h⟩ := (ih v).1 hv
      rcases hu with rfl | hu
      · exact ⟨j, by omega, h⟩
      · exact ⟨j + 1, by omega, Pow.succ_iff.2 ⟨u, v, rfl, hu, h⟩⟩
    · rintro ⟨j, hj, h⟩
      cases j with
      | zero =>
        exact ⟨[], w, rfl, .inl rfl, (ih w).2 ⟨0, by omega, h⟩⟩
      | succ j =>
        obtain ⟨u, v, rfl, hu, hv⟩ := Pow.succ_iff.1 h
        exact ⟨u, v, rfl, .inr hu, (ih v).2 ⟨j, by omega, hv⟩⟩

theorem repeated_level {r : ReReading} (h : r.operand.level = 4) (h4 : r.all.level = 4) : r.times = none ∧ r.opt = false := by
  obtain ⟨o, t, q⟩ := r
  cases q <;> rcases t with _ | (_ | _) <;> simp [ReReading.all, ReReading.repeated, ReText.level] at h4 ⊢

/-- Where no repetition follows a suffix operator, an operand of level 4 has no waiting operator. -/
theorem read_level4 {e : ReText} (h : e.RepsOnAtoms) (h4 : e.level = 4) : e.read.times = none ∧ e.read.opt = false := by
  induction e with
  | rep f e ih => exact ih h.1 h.2
  | lit c => exact ⟨rfl, rfl⟩
  | esc c => exact ⟨rfl, rfl⟩
  | bracket neg items => exact ⟨rfl, rfl⟩
  | group e _ => exact ⟨rfl, rfl⟩
  | cat l r _ _ => simp [ReText.level] at h4
  | alt l r _ _ => simp [ReText.level] at h4
  | opt e _ => simp [ReText.level] at h4
  | star e _ => simp [ReText.level] at h4
  | plus e _ => simp [ReText.level] at h4

/-- Where no repetition follows a suffix operator, the reading has the expected language. -/
theorem readAs_lang (C : ReClasses) (S : List Char) :
    ∀ e : ReText, e.RepsOnAtoms → ∀ w, e.readAs.Lang C S w ↔ e.Lang C S w := by
  have lall : ∀ (r : ReReading) w, r.all.Lang C S w ↔ (r.opt = true ∧ w = []) ∨ r.repeated.Lang C S w := by
    intro r w
    unfold ReReading.all
    cases r.opt <;> simp [ReText.Lang]
  intro e
  induction e with
  | lit c => intro _ w; exact Iff.rfl
  | esc c => intro _ w; exact Iff.rfl
  | bracket neg items => intro _ w; exact Iff.rfl
  | group e ih => intro h w; exact ih h w
  | cat l r ihl ihr =>
    rintro ⟨h1, h2⟩ w
    exact exists_congr fun u => exists_congr fun v => and_congr Iff.rfl (and_congr (ihl h1 u) (ihr h2 v))
  | alt l r ihl ihr =>
    rintro ⟨h1, h2⟩ w
    exact or_congr (ihl h1 w) (ihr h2 w)
  | opt e ih =>
    intro h w
    exact or_congr Iff.rfl ((atomic_lang C S _ w).trans (ih h w))
  | star e ih =>
    intro h w
    have h1 : (ReText.star e).readAs.Lang C S w ↔ (e.read.opt = true ∧ w = []) ∨ ∃ k, Pow (e.read.repeated.Lang C S) k w := by
      rw [ReText.readAs, lall]
      exact or_congr Iff.rfl (exists_congr fun k => Pow.congr (fun w => atomic_lang C S _ w) k w)
    have h2 : (ReText.star e).Lang C S w ↔
        ∃ k, Pow (fun w => (e.read.opt = true ∧ w = []) ∨ e.read.repeated.Lang C S w) k w :=
      exists_congr fun k => Pow.congr (fun w => ((ih h w).symm.trans (lall e.read w))) k w
    rw [h1, h2]
    cases e.read.opt
    · simp
    · simp only [true_and, pow_opt]
      constructor
      · rintro (rfl | ⟨k, hk⟩)
        · exact ⟨0, 0, Nat.le_refl _, Pow.zero_iff.2 rfl⟩
        · exact ⟨k, k, Nat.le_refl _, hk⟩
      · rintro ⟨k, j, _, hj⟩
        exact .inr ⟨j, hj⟩
  | plus e ih =>
    intro h w
    have h1 : (ReText.plus e).readAs.Lang C S w ↔
        (e.read.opt = true ∧ w = []) ∨ ∃ k, 1 ≤ k ∧ Pow (e.read.repeated.Lang C S) k w := by
      rw [ReText.readAs, lall]
      exact or_congr Iff.rfl (exists_congr fun k => and_congr Iff.rfl (Pow.congr (fun w => atomic_lang C S _ w) k w))
    have h2 : (ReText.plus e).Lang C S w ↔
        ∃ k, 1 ≤ k ∧ Pow (fun w => (e.read.opt = true ∧ w = []) ∨ e.read.repeated.Lang C S w) k w :=
      exists_congr fun k => and_congr Iff.rfl (Pow.congr (fun w => ((ih h w).symm.trans (lall e.read w))) k w)
    rw [h1, h2]
    cases e.read.opt
    · simp
    · simp only [true_and, pow_opt]
      constructor
      · rintro (rfl | ⟨k, h1, hk⟩)
        · exact ⟨1, Nat.le_refl _, 0, by omega, Pow.zero_iff.2 rfl⟩
        · exact ⟨k, h1, k, Nat.le_refl _, hk⟩
      · rintro ⟨k, _, j, _, hj⟩
        cases j with
        | zero => exact .inl (Pow.zero_iff.1 hj)
        | succ j => exact .inr ⟨j + 1, by omega, hj⟩
  | rep f e ih =>
    rintro ⟨h, h4⟩ w
    obtain ⟨k1, k2⟩ := read_level4 h h4
    have h1 : (ReText.rep f e).readAs = .rep f e.readAs := by
      simp [ReText.readAs, ReText.read, ReReading.all, ReReading.repeated, k1, k2]
    rw [h1]
    exact exists_congr fun k => and_congr Iff.rfl (and_congr Iff.rfl (Pow.congr (fun w => ih h w) k w))

/-- With the parentheses needed by the precedences of the library, no repetition follows a suffix operator. -/
theorem repsOnAtoms_of_parens : ∀ e : ReText, e.Parens → e.RepsOnAtoms ∧ e.UsualParens := by
  intro e
  induction e with
  | lit c => intro _; exact ⟨trivial, trivial⟩
  | esc c => intro _; exact ⟨trivial, trivial⟩
  | bracket neg items => intro _; exact ⟨trivial, trivial⟩
  | group e ih => exact ih
  | cat l r ihl ihr => rintro ⟨h1, h2, h3⟩; exact ⟨⟨(ihl h1).1, (ihr h2).1⟩, (ihl h1).2, (ihr h2).2, h3⟩
  | alt l r ihl ihr => rintro ⟨h1, h2, h3⟩; exact ⟨⟨(ihl h1).1, (ihr h2).1⟩, (ihl h1).2, (ihr h2).2, h3⟩
  | opt e ih => rintro ⟨h1, h2⟩; exact ⟨(ih h1).1, (ih h1).2, h2⟩
  | star e ih => rintro ⟨h1, h2⟩; exact ⟨(ih h1).1, (ih h1).2, by omega⟩
  | plus e ih => rintro ⟨h1, h2⟩; exact ⟨(ih h1).1, (ih h1).2, by omega⟩
  | rep f e ih => rintro ⟨h1, h2⟩; exact ⟨⟨(ih h1).1, h2⟩, (ih h1).2, by omega⟩

end RegexText
end PyBGL
