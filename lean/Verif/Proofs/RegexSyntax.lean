import Mathlib.Data.List.Induction
import Verif.Spec.RegexSyntax
import Verif.Proofs.RegexText
import Verif.Proofs.Thompson
import Mathlib.Tactic.Linarith

/-!
# What `thompson_compile_nfa` accepts is a regular expression
-/

namespace PyBGL

/-! ## The output of the shunting yard -/

namespace ShuntingYard
variable {T : Type} [DecidableEq T]

/-- Neither parenthesis. -/
def nonPar (P : OpTable T) (t : T) : Bool := decide (t ≠ P.lpar ∧ t ≠ P.rpar)

/-- Every prefix has at least as many opening as closing parentheses. -/
def NoStrayClose (P : OpTable T) (n : Nat) (ts : List T) : Prop := ∀ u v, ts = u ++ v → u.count P.rpar ≤ n + u.count P.lpar

omit [DecidableEq T] in
theorem split_while (p : T → Bool) : ∀ S : List T, ∃ A S', S = A ++ S' ∧ (∀ o ∈ A, p o = true) ∧ ∀ t, S'.head? = some t → p t = false
  | [] => ⟨[], [], rfl, by simp, by simp⟩
  | o :: S => by
    by_cases h : p o = true
    · obtain ⟨A, S', rfl, h1, h2⟩ := split_while p S
      exact ⟨o :: A, S', rfl, by simpa using ⟨h, h1⟩, h2⟩
    · exact ⟨[], o :: S, rfl, by simp, by simpa using h⟩

theorem step_out {P : OpTable T} (hP : P.Sane) (S : List T) (a : T) (hS : ∀ o ∈ S, o ≠ P.rpar) (ha : a = P.rpar → P.lpar ∈ S) :
    ∃ A S', (∀ (O : Type) (sink : O → T → Except PyErr O) (out : O), step P sink (S, out) a = (do let out' ← A.foldlM sink out; .ok (S', out'))) ∧
      (A ++ S'.filter (nonPar P)).Perm (S.filter (nonPar P) ++ [a].filter (nonPar P)) ∧ (∀ o ∈ S', o ≠ P.rpar) ∧
      S.count P.lpar + [a].count P.lpar = S'.count P.lpar + [a].count P.rpar := by
  by_cases h1 : a = P.lpar
  · subst h1
    refine ⟨[], P.lpar :: S, fun O sink out => by simp [step, ok_bind', pure, Except.pure], ?_, ?_, ?_⟩
    · simp [nonPar]
    · intro o ho
      rcases List.mem_cons.1 ho with rfl | ho
      · exact hP.ne
      · exact hS o ho
    · simp [hP.ne]
  · by_cases h2 : a = P.rpar
    · subst h2
      obtain ⟨A, S', rfl⟩ := List.append_of_mem (ha rfl)
      -- the first opening parenthesis
      obtain ⟨A, S', hA, hAS⟩ : ∃ A' S'', A ++ P.lpar :: S' = A' ++ P.lpar :: S'' ∧ ∀ o ∈ A', o ≠ P.lpar := by
        clear ha hS h1
        induction A with
        | nil => exact ⟨[], S', rfl, by simp⟩
        | cons x A ih =>
          by_cases hx : x = P.lpar
          · subst hx; exact ⟨[], A ++ P.lpar :: S', rfl, by simp⟩
          · obtain ⟨A', S'', e, h⟩ := ih
            exact ⟨x :: A', S'', by rw [List.cons_append, e]; rfl, by
              intro o ho
              rcases List.mem_cons.1 ho with rfl | ho
              · exact hx
              · exact h o ho⟩
      rw [hA] at hS ⊢
      refine ⟨A, S', fun O sink out => ?_, ?_, fun o ho => hS o (by simp [ho]), ?_⟩
      · rw [step, if_neg h1, if_pos rfl]
        exact closeParen_append A out hAS
      · have e1 : A.filter (nonPar P) = A := List.filter_eq_self.2 fun o ho => by simp [nonPar, hAS o ho, hS o (by simp [ho])]
        simp [nonPar, List.filter_append]
        rw [e1]
      · simp [hP.ne.symm, List.count_append, List.count_eq_zero_of_not_mem (fun h => hAS _ h rfl)]
    · have hn : [a].filter (nonPar P) = [a] := by simp [nonPar, h1, h2]
      have e1 : [a].count P.lpar = 0 := by simp [h1]
      have e2 : [a].count P.rpar = 0 := by simp [h2]
      by_cases h3 : P.ops.contains a = true
      · obtain ⟨A, S', rfl, hA, hS'⟩ := split_while (fun o => preceeds P o a) S
        have hA' : ∀ o ∈ A, o ≠ P.lpar := by
          rintro o ho rfl
          have := hA _ ho
          simp [preceeds, hP.lpar] at this
        refine ⟨A, a :: S', fun O sink out => ?_, ?_, ?_, ?_⟩
        · rw [step, if_neg h1, if_neg h2, if_pos h3]
          simp only
          rw [popPreceding_append hS' A out hA]
          simp only [bind_assoc, ok_bind']
        · have e3 : A.filter (nonPar P) = A := List.filter_eq_self.2 fun o ho => by simp [nonPar, hA' o ho, hS o (by simp [ho])]
          rw [hn, List.filter_append, e3, show (a :: S').filter (nonPar P) = a :: S'.filter (nonPar P) by simp [nonPar, h1, h2], List.append_assoc]
          exact List.Perm.append_left A (List.perm_append_comm (l₁ := [a]))
        · intro o ho
          rcases List.mem_cons.1 ho with rfl | ho
          · exact h2
          · exact hS o (by simp [ho])
        · rw [e1, e2, List.count_cons_of_ne h1, List.count_append, List.count_eq_zero_of_not_mem (fun h => hA' _ h rfl)]
          omega
      · refine ⟨[a], S, fun O sink out => ?_, ?_, hS, by rw [e1, e2]⟩
        · simp [step, h1, h2, h3]
        · rw [hn]; exact List.perm_append_comm

theorem foldlM_out {P : OpTable T} (hP : P.Sane) : ∀ (ts S : List T), (∀ o ∈ S, o ≠ P.rpar) → NoStrayClose P (S.count P.lpar) ts →
    ∃ A S', (∀ (O : Type) (sink : O → T → Except PyErr O) (out : O), ts.foldlM (step P sink) (S, out) = (do let out' ← A.foldlM sink out; .ok (S', out'))) ∧
      (A ++ S'.filter (nonPar P)).Perm (S.filter (nonPar P) ++ ts.filter (nonPar P)) ∧ (∀ o ∈ S', o ≠ P.rpar) ∧
      S.count P.lpar + ts.count P.lpar = S'.count P.lpar + ts.count P.rpar
  | [], S, hS, _ => ⟨[], S, fun O sink out => rfl, by simp, hS, by simp⟩
  | a :: ts, S, hS, hb => by
    have ha : a = P.rpar → P.lpar ∈ S := by
      rintro rfl
      have := hb [P.rpar] ts rfl
      simpa [hP.ne.symm] using this
    obtain ⟨A, S', h1, h2, h3, h4⟩ := step_out hP S a hS ha
    have hc : ∀ (l : List T) x, (a :: l).count x = [a].count x + l.count x := fun l x => by
      rw [← List.singleton_append, List.count_append]
    have hb' : NoStrayClose P (S'.count P.lpar) ts := by
      rintro u v rfl
      have := hb (a :: u) v rfl
      rw [hc u, hc u] at this
      omega
    obtain ⟨A', S'', k1, k2, k3, k4⟩ := foldlM_out hP ts S' h3 hb'
    refine ⟨A ++ A', S'', fun O sink out => ?_, ?_, k3, ?_⟩
    · simp only [List.foldlM_cons, h1, bind_assoc, ok_bind', k1, List.foldlM_append]
    · rw [List.append_assoc]
      refine (List.Perm.append_left A k2).trans ?_
      rw [← List.append_assoc]
      refine (List.Perm.append_right _ h2).trans ?_
      rw [List.append_assoc, ← List.filter_append]
      exact List.Perm.refl _
    · rw [hc ts, hc ts]; omega

/-- Whatever receives the output, it receives the same tokens, in the same order: those of the expression but the parentheses. -/
theorem run_out {P : OpTable T} (hP : P.Sane) {ts : List T} (hb : NoStrayClose P 0 ts) (hc : ts.count P.lpar = ts.count P.rpar) :
    ∃ A : List T, A.Perm (ts.filter (nonPar P)) ∧ ∀ (O : Type) (sink : O → T → Except PyErr O) (out : O), run P sink ts out = A.foldlM sink out := by
  obtain ⟨A, S', h1, h2, h3, h4⟩ := foldlM_out hP ts [] (by simp) (by simpa using hb)
  have h5 : S'.count P.lpar = 0 := by simp at h4; omega
  have h6 : S'.filter (nonPar P) = S' := List.filter_eq_self.2 fun o ho => by
    have : o ≠ P.lpar := by rintro rfl; have := List.count_pos_iff.2 ho; omega
    simp [nonPar, this, h3 o ho]
  rw [h6] at h2
  exact ⟨A ++ S', by simpa using h2, fun O sink out => by simp only [run, h1, bind_assoc, ok_bind', List.foldlM_append]⟩

end ShuntingYard

namespace RegexText
open Thompson Nfa

/-! ## How many automata wait on the stack -/

/-- What a token adds to the number of automata on the stack. -/
def wt (t : List Char) : Int :=
  if t = ['.'] ∨ t = ['|'] then -1
  else if t ∈ [['*'], ['+'], ['?'], ['('], [')']] ∨ t.head? = some '{' then 0
  else 1

/-- The sum for a list of tokens. -/
def total (ts : List (List Char)) : Int := (ts.map wt).sum

theorem total_append (l l' : List (List Char)) : total (l ++ l') = total l + total l' := by simp [total]

theorem total_perm {l l' : List (List Char)} (h : l.Perm l') : total l = total l' := by
  induction h with
  | nil => rfl
  | cons x _ ih => simp only [total, List.map_cons, List.sum_cons] at ih ⊢; omega
  | swap x y l => simp only [total, List.map_cons, List.sum_cons]; omega
  | trans _ _ h1 h2 => exact h1.trans h2

theorem total_filter (ts : List (List Char)) : total (ts.filter (ShuntingYard.nonPar reTable)) = total ts := by
  induction ts with
  | nil => rfl
  | cons t ts ih =>
    have e : total (t :: ts) = wt t + total ts := rfl
    by_cases h : ShuntingYard.nonPar reTable t = true
    · rw [List.filter_cons_of_pos h, e, ← ih]; rfl
    · rw [List.filter_cons_of_neg h, ih, e]
      have : t = ['('] ∨ t = [')'] := by
        simp only [ShuntingYard.nonPar, decide_eq_true_eq, not_and_or, not_not] at h
        exact h
      rcases this with rfl | rfl <;> simp [wt]

theorem onPushOutput_length {eps : Char} {st st' : List (Frag Char)} {k : Tok Char} (h : onPushOutput eps st k = .ok st') :
    (st'.length : Int) = st.length + (match k with | .cat => -1 | .alt => -1 | .lit _ => 1 | .chars _ => 1 | _ => 0) := by
  have bind_ok : ∀ {X Y : Type} {x : Except PyErr X} {f : X → Except PyErr Y} {y : Y}, (x >>= f) = .ok y → ∃ a, f a = .ok y := by
    intro X Y x f y h
    cases x with
    | error e => cases h
    | ok a => exact ⟨a, h⟩
  cases k with
  | cat =>
    rcases st with _ | ⟨x2, _ | ⟨x1, st⟩⟩ <;> simp only [onPushOutput] at h <;> first | cases h | skip
    obtain ⟨a, h⟩ := bind_ok h
    cases h; simp
  | alt =>
    rcases st with _ | ⟨x2, _ | ⟨x1, st⟩⟩ <;> simp only [onPushOutput] at h <;> first | cases h | skip
    obtain ⟨a, h⟩ := bind_ok h
    cases h; simp
  | opt => rcases st with _ | ⟨x, st⟩ <;> cases h; simp
  | star => rcases st with _ | ⟨x, st⟩ <;> cases h; simp
  | plus => rcases st with _ | ⟨x, st⟩ <;> cases h; simp
  | rep m n =>
    rcases st with _ | ⟨x, st⟩ <;> simp only [onPushOutput] at h <;> first | cases h | skip
    obtain ⟨a, h⟩ := bind_ok h
    cases h; simp
  | lit a => cases h; simp
  | chars cs => cases h; simp

theorem onPushText_length {C : ReClasses} {order : List Char → List Char} {wa : List Char} {st st' : List (Frag Char)} {t : List Char}
    (ht : t ≠ ['('] ∧ t ≠ [')']) (h : onPushText C order wa st t = .ok st') : (st'.length : Int) = st.length + wt t := by
  unfold onPushText at h
  by_cases h1 : t = ['.']
  · rw [if_pos h1] at h; subst h1; exact onPushOutput_length h
  rw [if_neg h1] at h
  by_cases h2 : t = ['|']
  · rw [if_pos h2] at h; subst h2; exact onPushOutput_length h
  rw [if_neg h2] at h
  by_cases h3 : t = ['?']
  · rw [if_pos h3] at h; subst h3; exact onPushOutput_length h
  rw [if_neg h3] at h
  by_cases h4 : t = ['*']
  · rw [if_pos h4] at h; subst h4; exact onPushOutput_length h
  rw [if_neg h4] at h
  by_cases h5 : t = ['+']
  · rw [if_pos h5] at h; subst h5; exact onPushOutput_length h
  rw [if_neg h5] at h
  have hw : wt t = if t.head? = some '{' then 0 else 1 := by simp [wt, h1, h2, h3, h4, h5, ht.1, ht.2]
  rw [hw]
  have bind_ok : ∀ {X Y : Type} {x : Except PyErr X} {f : X → Except PyErr Y} {y : Y}, (x >>= f) = .ok y → ∃ a, f a = .ok y := by
    intro X Y x f y h
    cases x with
    | error e => cases h
    | ok a => exact ⟨a, h⟩
  cases t with
  | nil => cases h
  | cons c t =>
    simp only at h
    by_cases k1 : c = '{'
    · rw [if_pos k1] at h
      subst k1
      cases st with
      | nil => cases h
      | cons x st =>
        obtain ⟨a, h⟩ := bind_ok h
        simpa using onPushOutput_length h
    rw [if_neg k1] at h
    rw [if_neg (by simpa using k1)]
    by_cases k2 : c = '['
    · rw [if_pos k2] at h
      obtain ⟨a, h⟩ := bind_ok h
      exact onPushOutput_length h
    rw [if_neg k2] at h
    by_cases k3 : c = '\\'
    · rw [if_pos k3] at h
      obtain ⟨a, h⟩ := bind_ok h
      exact onPushOutput_length h
    rw [if_neg k3] at h
    exact onPushOutput_length h

/-- The token is accepted on some stack. -/
def Good (C : ReClasses) (order : List Char → List Char) (wa : List Char) (t : List Char) : Prop :=
  ∃ st st', onPushText C order wa st t = .ok st'

theorem foldlM_length {C : ReClasses} {order : List Char → List Char} {wa : List Char} : ∀ (ts : List (List Char)) {st st' : List (Frag Char)},
    (∀ t ∈ ts, t ≠ ['('] ∧ t ≠ [')']) → ts.foldlM (onPushText C order wa) st = .ok st' →
    (st'.length : Int) = st.length + total ts ∧ ∀ t ∈ ts, Good C order wa t
  | [], st, st', _, h => by cases h; simp [total]
  | t :: ts, st, st', hn, h => by
    rw [List.foldlM_cons] at h
    cases h1 : onPushText C order wa st t with
    | error e => rw [h1] at h; cases h
    | ok st1 =>
      rw [h1] at h
      have k1 := onPushText_length (hn t (by simp)) h1
      obtain ⟨k2, k3⟩ := foldlM_length ts (fun t ht => hn t (by simp [ht])) h
      refine ⟨?_, ?_⟩
      · have e : total (t :: ts) = wt t + total ts := rfl
        rw [k2, k1, e]; omega
      · intro u hu
        rcases List.mem_cons.1 hu with rfl | hu
        · exact ⟨st, st1, h1⟩
        · exact k3 u hu

/-! ## The pieces of a text -/

theorem take_until {d : Char} : ∀ (cs : List Char), (cs.takeWhile (· ≠ d)).length < cs.length →
    cs.take ((cs.takeWhile (· ≠ d)).length + 1) = cs.takeWhile (· ≠ d) ++ [d] ∧ d ∉ cs.takeWhile (· ≠ d)
  | [], h => by simp at h
  | c :: cs, h => by
    by_cases hc : c = d
    · subst hc; simp
    · have e : (c :: cs).takeWhile (· ≠ d) = c :: cs.takeWhile (· ≠ d) := by simp [hc]
      rw [e] at h ⊢
      obtain ⟨h1, h2⟩ := take_until cs (by simpa using h)
      refine ⟨by simpa using h1, ?_⟩
      intro hm
      rcases List.mem_cons.1 hm with rfl | hm
      · exact hc rfl
      · exact h2 hm

/-- What the pieces of a text are. -/
def Piece.Form (C : ReClasses) : Piece → Prop
  | .chr c => c ∉ singles
  | .tok m => (∃ c ∈ singles, m = [c]) ∨ (∃ body, '}' ∉ body ∧ repContent C body = true ∧ m = '{' :: (body ++ ['}'])) ∨
      (∃ body, ']' ∉ body ∧ m = '[' :: (body ++ [']'])) ∨ ∃ c ∈ escapable, m = ['\\', c]

theorem matchAt_form {C : ReClasses} {c : Char} {cs : List Char} : (matchAt C (c :: cs) = none → c ∉ singles) ∧
    ∀ n, matchAt C (c :: cs) = some (n + 1) → (Piece.tok ((c :: cs).take (n + 1))).Form C := by
  unfold matchAt
  by_cases h1 : c ∈ singles
  · simp only [h1, if_true]
    refine ⟨by simp, fun n hn => ?_⟩
    have : n = 0 := by simpa using hn.symm
    subst this
    exact .inl ⟨c, h1, by simp⟩
  · simp only [h1, if_false]
    refine ⟨fun _ => not_false, fun n hn => ?_⟩
    by_cases h2 : c = '{'
    · simp only [h2, if_true] at hn
      split at hn
      · rename_i hb
        have : n = (cs.takeWhile (· ≠ '}')).length + 1 := by simpa using hn.symm
        subst this
        obtain ⟨k1, k2⟩ := take_until cs hb.1
        exact .inr (.inl ⟨_, k2, hb.2, by rw [List.take_succ_cons, k1, h2]⟩)
      · cases hn
    · simp only [h2, if_false] at hn
      by_cases h3 : c = '['
      · simp only [h3, if_true] at hn
        split at hn
        · rename_i hb
          have : n = (cs.takeWhile (· ≠ ']')).length + 1 := by simpa using hn.symm
          subst this
          obtain ⟨k1, k2⟩ := take_until cs hb
          exact .inr (.inr (.inl ⟨_, k2, by rw [List.take_succ_cons, k1, h3]⟩))
        · cases hn
      · simp only [h3, if_false] at hn
        by_cases h4 : c = '\\'
        · simp only [h4, if_true] at hn
          split at hn
          · rename_i d ds
            split at hn
            · rename_i hd
              have : n = 1 := by simpa using hn.symm
              subst this
              exact .inr (.inr (.inr ⟨d, hd, by simp [h4]⟩))
            · cases hn
          · cases hn
        · simp only [h4, if_false] at hn
          cases hn

theorem pieces_form (C : ReClasses) : ∀ (s : List Char) (skip : Nat), ∀ p ∈ pieces C s skip, p.Form C
  | [], skip, p, h => by simp [pieces] at h
  | c :: cs, skip + 1, p, h => pieces_form C cs skip p h
  | c :: cs, 0, p, h => by
    simp only [pieces] at h
    split at h
    · rename_i n hn
      rcases List.mem_cons.1 h with rfl | h
      · exact matchAt_form.2 n hn
      · exact pieces_form C cs _ p h
    · rename_i hn
      rcases List.mem_cons.1 h with rfl | h
      · refine (matchAt_form (C := C) (cs := cs)).1 ?_
        cases hm : matchAt C (c :: cs) with
        | none => rfl
        | some k =>
          have := matchAt_le hm
          obtain ⟨j, rfl⟩ : ∃ j, k = j + 1 := ⟨k - 1, by omega⟩
          exact absurd hm (hn j)
      · exact pieces_form C cs _ p h

/-! ## The pieces of a text whose tokens are accepted -/

theorem takeWhile_last {p : Char → Bool} {x : Char} (hx : p x = false) (l : List Char) :
    (l ++ [x]).takeWhile p = l.takeWhile p ∧ (l ++ [x]).dropWhile p = l.dropWhile p ++ [x] := by
  induction l with
  | nil => simp [hx]
  | cons c l ih =>
    by_cases h : p c = true
    · simp only [List.cons_append, List.takeWhile_cons_of_pos h, List.dropWhile_cons_of_pos h, ih, true_and]
    · simp only [List.cons_append, List.takeWhile_cons_of_neg h, List.dropWhile_cons_of_neg h, true_and]

theorem all_takeWhile (p : Char → Bool) (l : List Char) : (l.takeWhile p).all p = true := by
  induction l with
  | nil => rfl
  | cons c l ih =>
    by_cases h : p c = true
    · rw [List.takeWhile_cons_of_pos h]; simp only [List.all_cons, h, ih, Bool.and_self]
    · rw [List.takeWhile_cons_of_neg h]; rfl

theorem mem_of_mem_dropWhile {p : Char → Bool} {l : List Char} {x : Char} (h : x ∈ l.dropWhile p) : x ∈ l :=
  (List.dropWhile_suffix p).subset h

/-- A repetition whose bounds are read is one of the grammar. -/
theorem repForm_of_parse {C : ReClasses} (hC : C.Sound) {body : List Char} {r : Nat × Option Nat} (hb : '}' ∉ body)
    (hr : repContent C body = true) (h : parseRepetition C ('{' :: (body ++ ['}'])) = .ok r) :
    ∃ f : RepForm, f.WF C ∧ f.text = '{' :: (body ++ ['}']) := by
  obtain ⟨hs, hd⟩ := hC.brace
  simp only [parseRepetition, (takeWhile_last hs _).2, (takeWhile_last hd _).1, (takeWhile_last hd _).2] at h
  have hne : (body.dropWhile C.space).takeWhile C.digit ≠ [] := by
    intro he
    simp [repContent, he] at hr
  have e : body = body.takeWhile C.space ++ ((body.dropWhile C.space).takeWhile C.digit ++
      (((body.dropWhile C.space).dropWhile C.digit).takeWhile C.space ++ ((body.dropWhile C.space).dropWhile C.digit).dropWhile C.space)) := by
    rw [List.takeWhile_append_dropWhile, List.takeWhile_append_dropWhile, List.takeWhile_append_dropWhile]
  have hsub : ∀ x ∈ ((body.dropWhile C.space).dropWhile C.digit).dropWhile C.space, x ∈ body := fun x hx =>
    mem_of_mem_dropWhile (mem_of_mem_dropWhile (mem_of_mem_dropWhile hx))
  have a1 := all_takeWhile C.space body
  have a2 := all_takeWhile C.digit (body.dropWhile C.space)
  have a3 := all_takeWhile C.space ((body.dropWhile C.space).dropWhile C.digit)
  generalize ((body.dropWhile C.space).dropWhile C.digit).dropWhile C.space = w at *
  generalize ((body.dropWhile C.space).dropWhile C.digit).takeWhile C.space = w3 at *
  generalize (body.dropWhile C.space).takeWhile C.digit = w2 at *
  generalize body.takeWhile C.space = w1 at *
  cases w with
  | nil =>
    refine ⟨.exact w1 w2 w3, ⟨a1, a2, a3, hne⟩, ?_⟩
    rw [e]; simp [RepForm.text]
  | cons c w =>
    by_cases hc : c = ','
    · subst hc
      simp only [List.cons_append, (takeWhile_last hs _).2, (takeWhile_last hd _).1, (takeWhile_last hd _).2] at h
      have e' : w = w.takeWhile C.space ++ ((w.dropWhile C.space).takeWhile C.digit ++
          (((w.dropWhile C.space).dropWhile C.digit).takeWhile C.space ++ ((w.dropWhile C.space).dropWhile C.digit).dropWhile C.space)) := by
        rw [List.takeWhile_append_dropWhile, List.takeWhile_append_dropWhile, List.takeWhile_append_dropWhile]
      have hsub' : ∀ x ∈ ((w.dropWhile C.space).dropWhile C.digit).dropWhile C.space, x ∈ w := fun x hx =>
        mem_of_mem_dropWhile (mem_of_mem_dropWhile (mem_of_mem_dropWhile hx))
      have b1 := all_takeWhile C.space w
      have b2 := all_takeWhile C.digit (w.dropWhile C.space)
      have b3 := all_takeWhile C.space ((w.dropWhile C.space).dropWhile C.digit)
      generalize ((w.dropWhile C.space).dropWhile C.digit).dropWhile C.space = v at *
      generalize ((w.dropWhile C.space).dropWhile C.digit).takeWhile C.space = v3 at *
      generalize (w.dropWhile C.space).takeWhile C.digit = v2 at *
      generalize w.takeWhile C.space = v1 at *
      cases v with
      | nil =>
        refine ⟨.range w1 w2 w3 v1 v2 v3, ⟨a1, a2, a3, hne, b1, b2, b3, ?_⟩, ?_⟩
        · by_cases hv : v2 = []
          · exact .inl hv
          · right
            simp only [List.nil_append] at h
            by_contra hlt
            simp [hne, hv, Nat.lt_of_not_le hlt] at h
        · rw [e, e']; simp [RepForm.text]
      | cons d v =>
        exfalso
        have : d ≠ '}' := fun hd => hb (hsub _ (List.mem_cons_of_mem _ (hsub' _ (by simp [hd]))))
        simp only [List.cons_append] at h
        split at h
        · rename_i heq; cases heq; exact this rfl
        · cases h
    · exfalso
      have : c ≠ '}' := fun hd => hb (hsub _ (by simp [hd]))
      simp only [List.cons_append] at h
      split at h
      · rename_i heq; cases heq; exact this rfl
      · rename_i heq; cases heq; exact hc rfl
      · cases h

/-- The six kinds of pieces, and what the visitor does with them. -/
inductive Kind (C : ReClasses) (st : CatState) (p : Piece) : Prop
  | atom : ReAtom p.text → wt p.text = 1 → catPiece st p = ⟨st.expression ++ (if st.needsCat then [['.']] else []) ++ [p.text], true⟩ →
      p.text ≠ ['('] → p.text ≠ [')'] → Kind C st p
  | lpar : p.text = ['('] → catPiece st p = ⟨st.expression ++ (if st.needsCat then [['.']] else []) ++ [p.text], false⟩ → Kind C st p
  | rpar : p.text = [')'] → catPiece st p = ⟨st.expression ++ [p.text], true⟩ → Kind C st p
  | suffix : ReSuffix C p.text → wt p.text = 0 → catPiece st p = ⟨st.expression ++ [p.text], true⟩ →
      p.text ≠ ['('] → p.text ≠ [')'] → Kind C st p
  | alt : p.text = ['|'] → catPiece st p = ⟨st.expression ++ [p.text], false⟩ → Kind C st p
  | dot : p.text = ['.'] → catPiece st p = ⟨st.expression ++ [p.text], true⟩ → Kind C st p

theorem catPiece_text (st : CatState) (p : Piece) : p.text ∈ (catPiece st p).expression := by
  cases p <;> simp [catPiece, catChar, catTok, Piece.text]

theorem kind {C : ReClasses} (hC : C.Sound) {order : List Char → List Char} {wa : List Char} {st : CatState} {p : Piece} (hf : p.Form C)
    (hg : p.text = ['('] ∨ p.text = [')'] ∨ Good C order wa p.text) : Kind C st p := by
  have ok_of_good : ∀ {t : List Char}, t ≠ ['('] → t ≠ [')'] → (t = ['('] ∨ t = [')'] ∨ Good C order wa t) → Good C order wa t := by
    intro t h1 h2 h
    rcases h with h | h | h
    · exact absurd h h1
    · exact absurd h h2
    · exact h
  have bind_ok : ∀ {X Y : Type} {x : Except PyErr X} {f : X → Except PyErr Y} {y : Y}, (x >>= f) = .ok y → ∃ a, x = .ok a := by
    intro X Y x f y h
    cases x with
    | error e => cases h
    | ok a => exact ⟨a, rfl⟩
  cases p with
  | chr c =>
    have hc : c ∉ singles := hf
    simp only [singles, List.mem_cons, List.not_mem_nil, or_false, not_or] at hc
    obtain ⟨c1, c2, c3, c4, c5, c6, c7⟩ := hc
    obtain ⟨st0, st1, h⟩ := ok_of_good (t := [c]) (by simpa using c6) (by simpa using c7) hg
    have n1 : c ≠ '{' := by
      rintro rfl
      simp only [onPushText, List.cons.injEq, and_true, if_false, if_true, Char.reduceEq] at h
      cases st0 with
      | nil => cases h
      | cons x st0 => obtain ⟨a, ha⟩ := bind_ok h; simp [parseRepetition] at ha
    have n2 : c ≠ '[' := by
      rintro rfl
      simp only [onPushText, List.cons.injEq, and_true, if_false, if_true, Char.reduceEq] at h
      obtain ⟨a, ha⟩ := bind_ok h; simp [parseBracket, parseBracketWith] at ha
    have n3 : c ≠ '\\' := by
      rintro rfl
      simp only [onPushText, List.cons.injEq, and_true, if_false, if_true, Char.reduceEq] at h
      obtain ⟨a, ha⟩ := bind_ok h; simp [parseEscaped] at ha
    refine .atom (.lit ?_) ?_ rfl (by simpa [Piece.text] using c6) (by simpa [Piece.text] using c7)
    · simp only [List.mem_cons, List.not_mem_nil, or_false, not_or]
      exact ⟨c1, c2, c3, c4, c5, c6, c7, n2, n1, n3⟩
    · simp [wt, Piece.text, c1, c2, c3, c4, c5, c6, c7, n1]
  | tok m =>
    rcases hf with ⟨c, hc, rfl⟩ | ⟨body, hb, hr, rfl⟩ | ⟨body, hb, rfl⟩ | ⟨c, hc, rfl⟩
    · simp only [singles, List.mem_cons, List.not_mem_nil, or_false] at hc
      rcases hc with rfl | rfl | rfl | rfl | rfl | rfl | rfl
      · exact .suffix .star (by simp [wt, Piece.text]) (by simp [catPiece, catTok, Piece.text]) (by simp [Piece.text]) (by simp [Piece.text])
      · exact .suffix .plus (by simp [wt, Piece.text]) (by simp [catPiece, catTok, Piece.text]) (by simp [Piece.text]) (by simp [Piece.text])
      · exact .suffix .opt (by simp [wt, Piece.text]) (by simp [catPiece, catTok, Piece.text]) (by simp [Piece.text]) (by simp [Piece.text])
      · exact .dot rfl (by simp [catPiece, catTok, Piece.text])
      · exact .alt rfl (by simp [catPiece, catTok, Piece.text])
      · exact .lpar rfl (by simp [catPiece, catTok, Piece.text])
      · exact .rpar rfl (by simp [catPiece, catTok, Piece.text])
    · obtain ⟨st0, st1, h⟩ := ok_of_good (by simp [Piece.text]) (by simp [Piece.text]) hg
      have hs : ReSuffix C ('{' :: (body ++ ['}'])) := by
        simp only [onPushText, Piece.text, List.cons.injEq, if_false, if_true, Char.reduceEq, false_and] at h
        cases st0 with
        | nil => cases h
        | cons x st0 =>
          obtain ⟨a, ha⟩ := bind_ok h
          obtain ⟨f, k1, k2⟩ := repForm_of_parse hC hb hr ha
          exact k2 ▸ .rep k1
      exact .suffix hs (by simp [wt, Piece.text]) (by simp [catPiece, catTok, Piece.text]) (by simp [Piece.text]) (by simp [Piece.text])
    · obtain ⟨st0, st1, h⟩ := ok_of_good (by simp [Piece.text]) (by simp [Piece.text]) hg
      have hne : body ≠ [] := by
        rintro rfl
        simp only [onPushText, Piece.text, List.cons.injEq, if_false, if_true, Char.reduceEq, false_and] at h
        obtain ⟨a, ha⟩ := bind_ok h
        simp [parseBracket, parseBracketWith] at ha
      exact .atom (.cls hb hne) (by simp [wt, Piece.text]) (by simp [catPiece, catTok, Piece.text]) (by simp [Piece.text]) (by simp [Piece.text])
    · exact .atom (.esc ((by decide : ∀ c ∈ escapable, c ∈ escapes) c hc)) (by simp [wt, Piece.text]) (by simp [catPiece, catTok, Piece.text]) (by simp [Piece.text]) (by simp [Piece.text])

/-! ## The beginnings of the texts of the grammar -/

/-- Branches already complete, with the bar that follows. -/
def Head (C : ReClasses) (h : List (List Char)) : Prop := h = [] ∨ ∃ A, ReSyntax C 0 A ∧ h = A ++ [['|']]

/-- Up to the last open parenthesis, at depth `d`. -/
inductive Base (C : ReClasses) : Nat → List (List Char) → Prop
  | zero : Base C 0 []
  | succ {d : Nat} {u h B : List (List Char)} : Base C d u → Head C h → (B = [] ∨ ReSyntax C 1 B) → Base C (d + 1) (u ++ h ++ B ++ [['(']])

/-- The beginning of a text; `b` tells that it ends with a factor. -/
def Pre (C : ReClasses) (b : Bool) (d : Nat) (l : List (List Char)) : Prop :=
  ∃ u h B f, Base C d u ∧ Head C h ∧ (if b then (B = [] ∨ ReSyntax C 1 B) ∧ ReSyntax C 2 f else B = [] ∧ f = []) ∧ l = u ++ h ++ B ++ f

theorem join {C : ReClasses} {B f : List (List Char)} (hB : B = [] ∨ ReSyntax C 1 B) (hf : ReSyntax C 2 f) : ReSyntax C 1 (B ++ f) := by
  rcases hB with rfl | hB
  · exact .factor (by simpa using hf)
  · exact .cat hB hf

theorem close {C : ReClasses} {h B : List (List Char)} (hh : Head C h) (hB : ReSyntax C 1 B) : ReSyntax C 0 (h ++ B) := by
  rcases hh with rfl | ⟨A, hA, rfl⟩
  · exact .branch (by simpa using hB)
  · exact .alt hA hB

theorem Pre.split {C : ReClasses} {b : Bool} {d : Nat} {l : List (List Char)} (h : Pre C b d l) :
    ∃ u h B, Base C d u ∧ Head C h ∧ (B = [] ∨ ReSyntax C 1 B) ∧ l = u ++ h ++ B := by
  obtain ⟨u, h, B, f, h1, h2, h3, rfl⟩ := h
  cases b with
  | true => exact ⟨u, h, B ++ f, h1, h2, .inr (join h3.1 h3.2), by simp⟩
  | false => obtain ⟨rfl, rfl⟩ := h3; exact ⟨u, h, [], h1, h2, .inl rfl, by simp⟩

theorem Pre.atom {C : ReClasses} {b : Bool} {d : Nat} {l : List (List Char)} {p : List Char} (h : Pre C b d l) (hp : ReAtom p) :
    Pre C true d (l ++ [p]) := by
  obtain ⟨u, k, B, h1, h2, h3, rfl⟩ := h.split
  exact ⟨u, k, B, [p], h1, h2, ⟨h3, .atom hp⟩, rfl⟩

theorem Pre.lpar {C : ReClasses} {b : Bool} {d : Nat} {l : List (List Char)} (h : Pre C b d l) : Pre C false (d + 1) (l ++ [['(']]) := by
  obtain ⟨u, h, B, h1, h2, h3, rfl⟩ := h.split
  exact ⟨_, [], [], [], .succ h1 h2 h3, .inl rfl, ⟨rfl, rfl⟩, by simp⟩

theorem Pre.whole {C : ReClasses} {d : Nat} {l : List (List Char)} (h : Pre C true d l) : ∃ u A, Base C d u ∧ ReSyntax C 0 A ∧ l = u ++ A := by
  obtain ⟨u, h, B, f, h1, h2, h3, rfl⟩ := h
  exact ⟨u, h ++ (B ++ f), h1, close h2 (join h3.1 h3.2), by simp⟩

theorem Pre.rpar {C : ReClasses} {d : Nat} {l : List (List Char)} (h : Pre C true (d + 1) l) : Pre C true d (l ++ [[')']]) := by
  obtain ⟨u, A, h1, h2, rfl⟩ := h.whole
  cases h1 with
  | succ k1 k2 k3 => exact ⟨_, _, _, _, k1, k2, ⟨k3, .group h2⟩, by simp⟩

theorem Pre.suffix {C : ReClasses} {d : Nat} {l : List (List Char)} {p : List Char} (h : Pre C true d l) (hp : ReSuffix C p) :
    Pre C true d (l ++ [p]) := by
  obtain ⟨u, h, B, f, h1, h2, h3, rfl⟩ := h
  exact ⟨u, h, B, f ++ [p], h1, h2, ⟨h3.1, .suffix h3.2 hp⟩, by simp⟩

theorem Pre.alt {C : ReClasses} {d : Nat} {l : List (List Char)} (h : Pre C true d l) : Pre C false d (l ++ [['|']]) := by
  obtain ⟨u, A, h1, h2, rfl⟩ := h.whole
  exact ⟨u, A ++ [['|']], [], [], h1, .inr ⟨A, h2, rfl⟩, ⟨rfl, rfl⟩, by simp⟩

/-- The tokens of the pieces read so far hold at most one automaton too many, and exactly one (or none) only if the pieces are the beginning of a text
of the grammar. -/
theorem pre_inv {C : ReClasses} : ∀ ps : List Piece,
    (∀ u v p, ps = u ++ p :: v → Kind C (u.foldl catPiece {}) p) →
    (∀ u v, (ps.foldl catPiece {}).expression = u ++ v → u.count [')'] ≤ u.count ['(']) →
    total (ps.foldl catPiece {}).expression ≤ (if (ps.foldl catPiece {}).needsCat then 1 else 0) ∧
    (total (ps.foldl catPiece {}).expression = (if (ps.foldl catPiece {}).needsCat then 1 else 0) →
      ∃ d, Pre C (ps.foldl catPiece {}).needsCat d (ps.map Piece.text) ∧
        d + (ps.foldl catPiece {}).expression.count [')'] = (ps.foldl catPiece {}).expression.count ['(']) := by
  intro ps
  induction ps using List.reverseRecOn with
  | nil =>
    intro _ _
    refine ⟨by simp [total], fun _ => ⟨0, ⟨[], [], [], [], .zero, .inl rfl, ⟨rfl, rfl⟩, rfl⟩, rfl⟩⟩
  | append_singleton ps p ih =>
    intro hk hb
    have e1 : (ps ++ [p]).foldl catPiece {} = catPiece (ps.foldl catPiece {}) p := by simp
    have e2 : (ps ++ [p]).map Piece.text = ps.map Piece.text ++ [p.text] := by simp
    rw [e1] at hb
    rw [e1, e2]
    have hkp := hk ps [] p rfl
    have ih := ih (fun u v q hq => hk u (v ++ [p]) q (by simp [hq]))
    generalize ps.foldl catPiece {} = st at hb hkp ih ⊢
    generalize ps.map Piece.text = l at ih ⊢
    have hpre : ∃ w, (catPiece st p).expression = st.expression ++ w := by
      cases p <;> simp [catPiece, catChar, catTok]
    have ih := ih (fun u v huv => by
      obtain ⟨w, hw⟩ := hpre
      exact hb u (v ++ w) (by rw [hw, huv, List.append_assoc]))
    obtain ⟨hle, heq⟩ := ih
    have t1 : ∀ t, total [t] = wt t := by intro t; simp [total]
    have tdot : total [['.']] = -1 := by simp [total, wt]
    rcases hkp with ⟨ha, hw, he, n1, n2⟩ | ⟨ht, he⟩ | ⟨ht, he⟩ | ⟨hs, hw, he, n1, n2⟩ | ⟨ht, he⟩ | ⟨ht, he⟩
    · have hcat : total (if st.needsCat then [['.']] else []) = -(if st.needsCat then 1 else 0) := by
        cases st.needsCat <;> simp [total, wt]
      have hT : total (catPiece st p).expression = total st.expression - (if st.needsCat then 1 else 0) + 1 := by
        rw [he]; simp only [total_append, t1, hw, hcat]; omega
      have hN : (catPiece st p).needsCat = true := by rw [he]
      rw [hT, hN]
      refine ⟨by simp only [if_true]; omega, fun h => ?_⟩
      obtain ⟨d, h1, h2⟩ := heq (by simp only [if_true] at h; omega)
      refine ⟨d, h1.atom ha, ?_⟩
      rw [he]
      cases st.needsCat <;> simp [List.count_append, n1, n2, h2]
    · have hcat : total (if st.needsCat then [['.']] else []) = -(if st.needsCat then 1 else 0) := by
        cases st.needsCat <;> simp [total, wt]
      have hT : total (catPiece st p).expression = total st.expression - (if st.needsCat then 1 else 0) := by
        rw [he, ht]; simp only [total_append, t1, hcat, show wt ['('] = 0 by simp [wt]]; omega
      have hN : (catPiece st p).needsCat = false := by rw [he]
      rw [hT, hN]
      refine ⟨by simp only [Bool.false_eq_true, if_false]; omega, fun h => ?_⟩
      obtain ⟨d, h1, h2⟩ := heq (by simp only [Bool.false_eq_true, if_false] at h; omega)
      refine ⟨d + 1, ht ▸ h1.lpar, ?_⟩
      rw [he, ht]
      cases st.needsCat <;> simp [List.count_append] <;> omega
    · have hT : total (catPiece st p).expression = total st.expression := by
        rw [he, ht]; simp only [total_append, t1, show wt [')'] = 0 by simp [wt]]; omega
      have hN : (catPiece st p).needsCat = true := by rw [he]
      rw [hT, hN]
      have hle' : total st.expression ≤ 1 := by revert hle; cases st.needsCat <;> simp; omega
      refine ⟨by simpa using hle', fun h => ?_⟩
      have hn : st.needsCat = true := by
        cases hn : st.needsCat with
        | true => rfl
        | false => rw [hn] at hle; simp only [Bool.false_eq_true, if_false, if_true] at hle h; omega
      obtain ⟨d, h1, h2⟩ := heq (by rw [hn]; simpa using h)
      have := hb _ [] (List.append_nil _).symm
      rw [he, ht] at this
      simp only [List.count_append, List.count_cons, List.count_nil] at this
      simp at this
      obtain ⟨d, rfl⟩ : ∃ e, d = e + 1 := ⟨d - 1, by omega⟩
      rw [hn] at h1
      refine ⟨d, ht ▸ h1.rpar, ?_⟩
      rw [he, ht]
      simp [List.count_append]; omega
    · have hT : total (catPiece st p).expression = total st.expression := by
        rw [he]; simp only [total_append, t1, hw]; omega
      have hN : (catPiece st p).needsCat = true := by rw [he]
      rw [hT, hN]
      have hle' : total st.expression ≤ 1 := by revert hle; cases st.needsCat <;> simp; omega
      refine ⟨by simpa using hle', fun h => ?_⟩
      have hn : st.needsCat = true := by
        cases hn : st.needsCat with
        | true => rfl
        | false => rw [hn] at hle; simp only [Bool.false_eq_true, if_false, if_true] at hle h; omega
      obtain ⟨d, h1, h2⟩ := heq (by rw [hn]; simpa using h)
      rw [hn] at h1
      refine ⟨d, h1.suffix hs, ?_⟩
      rw [he]
      simp [List.count_append, n1, n2, h2]
    · have hT : total (catPiece st p).expression = total st.expression - 1 := by
        rw [he, ht]; simp only [total_append, t1, show wt ['|'] = -1 by simp [wt]]; omega
      have hN : (catPiece st p).needsCat = false := by rw [he]
      rw [hT, hN]
      have hle' : total st.expression ≤ 1 := by revert hle; cases st.needsCat <;> simp; omega
      refine ⟨by simp only [Bool.false_eq_true, if_false]; omega, fun h => ?_⟩
      simp only [Bool.false_eq_true, if_false] at h
      have hn : st.needsCat = true := by
        cases hn : st.needsCat with
        | true => rfl
        | false => rw [hn] at hle; simp only [Bool.false_eq_true, if_false] at hle; omega
      obtain ⟨d, h1, h2⟩ := heq (by rw [hn]; simp only [if_true]; omega)
      rw [hn] at h1
      refine ⟨d, ht ▸ h1.alt, ?_⟩
      rw [he, ht]
      simp [List.count_append, h2]
    · have hT : total (catPiece st p).expression = total st.expression - 1 := by
        rw [he, ht]; simp only [total_append, t1, show wt ['.'] = -1 by simp [wt]]; omega
      have hN : (catPiece st p).needsCat = true := by rw [he]
      rw [hT, hN]
      have hle' : total st.expression ≤ 1 := by revert hle; cases st.needsCat <;> simp; omega
      exact ⟨by simp only [if_true]; omega, fun h => by simp only [if_true] at h; omega⟩

/-! ## From the tokens to the text -/

theorem expression_grows (st : CatState) (ps : List Piece) : ∃ w, (ps.foldl catPiece st).expression = st.expression ++ w := by
  induction ps generalizing st with
  | nil => exact ⟨[], by simp⟩
  | cons p ps ih =>
    obtain ⟨w, hw⟩ := ih (catPiece st p)
    have : ∃ w, (catPiece st p).expression = st.expression ++ w := by
      cases p <;> simp [catPiece, catChar, catTok]
    obtain ⟨w', hw'⟩ := this
    exact ⟨w' ++ w, by rw [List.foldl_cons, hw, hw', List.append_assoc]⟩

theorem text_mem_tokens {C : ReClasses} {s : List Char} {p : Piece} (h : p ∈ pieces C s 0) : p.text ∈ tokenizerRe C s := by
  obtain ⟨u, v, e⟩ := List.append_of_mem h
  rw [tokenizerRe_eq, e, List.foldl_append, List.foldl_cons]
  obtain ⟨w, hw⟩ := expression_grows (catPiece (u.foldl catPiece {}) p) v
  rw [hw]
  exact List.mem_append_left _ (catPiece_text _ _)

/-- The tokens are the pieces and the dots added between them. -/
theorem tokens_from {C : ReClasses} {s : List Char} {t : List Char} (h : t ∈ tokenizerRe C s) :
    t = ['.'] ∨ ∃ p ∈ pieces C s 0, p.text = t := by
  rw [tokenizerRe_eq] at h
  have key : ∀ (ps : List Piece) (st : CatState), t ∈ (ps.foldl catPiece st).expression →
      t ∈ st.expression ∨ t = ['.'] ∨ ∃ p ∈ ps, p.text = t := by
    intro ps
    induction ps with
    | nil => intro st h; exact .inl h
    | cons p ps ih =>
      intro st h
      rcases ih _ h with h | h | ⟨q, hq, e⟩
      · have : t ∈ st.expression ∨ t = ['.'] ∨ t = p.text := by
          cases p with
          | chr c =>
            simp only [catPiece, catChar, List.mem_append, List.mem_singleton] at h
            rcases h with (h | h) | h
            · exact .inl h
            · cases hn : st.needsCat <;> simp [hn] at h; exact .inr (.inl h)
            · exact .inr (.inr h)
          | tok m =>
            simp only [catPiece, catTok, List.mem_append, List.mem_singleton] at h
            rcases h with (h | h) | h
            · exact .inl h
            · split at h
              · exact .inr (.inl (by simpa using h))
              · simp at h
            · exact .inr (.inr h)
        rcases this with h | h | h
        · exact .inl h
        · exact .inr (.inl h)
        · exact .inr (.inr ⟨p, by simp, h.symm⟩)
      · exact .inr (.inl h)
      · exact .inr (.inr ⟨q, by simp [hq], e⟩)
  rcases key _ _ h with h | h
  · simp at h
  · exact h

/-- One automaton from tokens which are all accepted, with balanced parentheses: a text of the grammar. -/
theorem wellWritten_of_total {C : ReClasses} (hC : C.Sound) {order : List Char → List Char} {wa s : List Char}
    (hg : ∀ t ∈ tokenizerRe C s, t = ['('] ∨ t = [')'] ∨ Good C order wa t)
    (hb : ∀ u v, tokenizerRe C s = u ++ v → u.count [')'] ≤ u.count ['('])
    (hc : (tokenizerRe C s).count ['('] = (tokenizerRe C s).count [')']) :
    total (tokenizerRe C s) ≤ 1 ∧ (total (tokenizerRe C s) = 1 → WellWritten C s) := by
  have hk : ∀ u v p, pieces C s 0 = u ++ p :: v → Kind C (u.foldl catPiece {}) p := by
    intro u v p e
    have hp : p ∈ pieces C s 0 := by rw [e]; simp
    exact kind hC (pieces_form C s 0 p hp) (hg _ (text_mem_tokens hp))
  rw [tokenizerRe_eq] at hb hc ⊢
  obtain ⟨h1, h2⟩ := pre_inv (pieces C s 0) hk hb
  generalize hst : (pieces C s 0).foldl catPiece {} = st at *
  have hle : total st.expression ≤ 1 := by revert h1; cases st.needsCat <;> simp; omega
  refine ⟨hle, fun h => ?_⟩
  have hn : st.needsCat = true := by
    cases hn : st.needsCat with
    | true => rfl
    | false => rw [hn] at h1; simp only [Bool.false_eq_true, if_false] at h1; omega
  obtain ⟨d, k1, k2⟩ := h2 (by rw [hn, h]; rfl)
  have hd : d = 0 := by omega
  subst hd
  rw [hn] at k1
  obtain ⟨u, A, k3, k4, k5⟩ := k1.whole
  cases k3
  refine ⟨A, ?_, k4⟩
  rw [List.nil_append] at k5
  rw [← k5, pieces_flatten, List.drop_zero]

/-- The balance of the parentheses of a text that is compiled. -/
theorem noStrayClose_of_ok {C : ReClasses} {order : List Char → List Char} {wa : List Char} {ts : List (List Char)} {r : List (Frag Char)}
    (h : ShuntingYard.run reTable (onPushText C order wa) ts [] = .ok r) (u v : List (List Char)) (e : ts = u ++ v) :
    u.count [')'] ≤ u.count ['('] := by
  by_contra hlt
  obtain ⟨e', he⟩ := ShuntingYard.run_unbalanced (P := reTable) sane (sink := onPushText C order wa) (v := v) (out := [])
    (u := u) (by
      have h' : u.count ['('] < u.count [')'] := by omega
      convert h' <;> rfl)
  rw [e, he] at h
  cases h

/-- The tokens sent to the visitor, for balanced parentheses. -/
theorem run_tokens {C : ReClasses} {order : List Char → List Char} {wa : List Char} {ts : List (List Char)}
    (hb : ∀ u v, ts = u ++ v → u.count [')'] ≤ u.count ['(']) (hc : ts.count ['('] = ts.count [')']) :
    ∃ A : List (List Char), A.Perm (ts.filter (ShuntingYard.nonPar reTable)) ∧ (∀ t ∈ A, t ≠ ['('] ∧ t ≠ [')']) ∧
      ShuntingYard.run reTable (onPushText C order wa) ts [] = A.foldlM (onPushText C order wa) [] := by
  obtain ⟨A, h1, h2⟩ := ShuntingYard.run_out (P := reTable) sane (ts := ts)
    (fun u v e => by have := hb u v e; rw [Nat.zero_add]; convert this <;> rfl) (by convert hc <;> rfl)
  refine ⟨A, h1, ?_, h2 _ _ _⟩
  intro t ht
  have := (List.mem_filter.1 (h1.mem_iff.1 ht)).2
  simp only [ShuntingYard.nonPar, decide_eq_true_eq] at this
  exact this

theorem accepted {C : ReClasses} (hC : C.Sound) {order : List Char → List Char} {wa s : List Char} {x : Frag Char} (hs : s ≠ [])
    (hc : (tokenizerRe C s).count ['('] = (tokenizerRe C s).count [')']) (h : compileText C order wa s = .ok x) : WellWritten C s := by
  unfold compileText at h
  rw [if_neg (by simpa using hs)] at h
  cases hr : ShuntingYard.run reTable (onPushText C order wa) (tokenizerRe C s) [] with
  | error e => rw [hr] at h; cases h
  | ok r =>
    have hb := noStrayClose_of_ok hr
    obtain ⟨A, h1, h2, h3⟩ := run_tokens (C := C) (order := order) (wa := wa) hb hc
    rw [h3] at hr
    obtain ⟨k1, k2⟩ := foldlM_length A h2 hr
    rw [h3, hr] at h
    have hr1 : r.length = 1 := by
      rcases r with _ | ⟨y, _ | ⟨z, r⟩⟩
      · cases h
      · rfl
      · cases h
    rw [hr1, total_perm h1, total_filter] at k1
    refine (wellWritten_of_total hC (order := order) (wa := wa) ?_ hb hc).2 (by simpa using k1.symm)
    intro t ht
    by_cases hp : ShuntingYard.nonPar reTable t = true
    · exact .inr (.inr (k2 t (h1.mem_iff.2 (List.mem_filter.2 ⟨ht, hp⟩))))
    · simp only [ShuntingYard.nonPar, decide_eq_true_eq, not_and_or, not_not] at hp
      rcases hp with hp | hp
      · exact .inl hp
      · exact .inr (.inl hp)

/-! ## Missing operands -/

/-- A token that is not a repetition, a class or an escape sequence is accepted unless an operand is missing. -/
theorem onPushText_simple {C : ReClasses} {order : List Char → List Char} {wa : List Char} {st : List (Frag Char)} {t : List Char}
    (h0 : t ≠ []) (ht : ∀ c ∈ t, c ≠ '{' ∧ c ≠ '[' ∧ c ≠ '\\') (hst : ∀ x ∈ st, x.1.Single x.2.1 x.2.2) :
    (∃ st', onPushText C order wa st t = .ok st' ∧ (∀ x ∈ st', x.1.Single x.2.1 x.2.2) ∧ st' ≠ []) ∨
      (st.length < 2 ∧ onPushText C order wa st t = .error .indexError) := by
  unfold onPushText
  by_cases h1 : t = ['.']
  · rw [if_pos h1]
    rcases st with _ | ⟨⟨g2, q2, f2⟩, _ | ⟨⟨g1, q1, f1⟩, st⟩⟩
    · exact .inr ⟨by simp, rfl⟩
    · exact .inr ⟨by simp, rfl⟩
    · have s1 : g1.Single q1 f1 := hst (g1, q1, f1) (by simp)
      have s2 : g2.Single q2 f2 := hst (g2, q2, f2) (by simp)
      obtain ⟨g, ρ, e, hS, _⟩ := concatenation_spec s1.wf s1.lt (fun x a y hT => s1.T_closed x a y hT) s1.q0_mem s1.f_mem
        (fun x hx => (s1.fin x).1 hx) s2
      refine .inl ⟨(g, q1, ρ f2) :: st, by simp only [onPushOutput, e]; rfl, ?_, by simp⟩
      intro x hx
      rcases List.mem_cons.1 hx with rfl | hx
      · exact hS
      · exact hst x (by simp [hx])
  rw [if_neg h1]
  by_cases h2 : t = ['|']
  · rw [if_pos h2]
    rcases st with _ | ⟨⟨g2, q2, f2⟩, _ | ⟨⟨g1, q1, f1⟩, st⟩⟩
    · exact .inr ⟨by simp, rfl⟩
    · exact .inr ⟨by simp, rfl⟩
    · have s1 : g1.Single q1 f1 := hst (g1, q1, f1) (by simp)
      have s2 : g2.Single q2 f2 := hst (g2, q2, f2) (by simp)
      obtain ⟨g, q, f, ρ, e, hS, _⟩ := alternation_spec s1 s2
      refine .inl ⟨(g, q, f) :: st, by simp only [onPushOutput, e]; rfl, ?_, by simp⟩
      intro x hx
      rcases List.mem_cons.1 hx with rfl | hx
      · exact hS
      · exact hst x (by simp [hx])
  rw [if_neg h2]
  by_cases h3 : t = ['?']
  · rw [if_pos h3]
    rcases st with _ | ⟨⟨g, q, f⟩, st⟩
    · exact .inr ⟨by simp, rfl⟩
    · have s1 : g.Single q f := hst (g, q, f) (by simp)
      obtain ⟨g', e, hS, _⟩ := zeroOrOne_spec s1
      refine .inl ⟨(g', q, f) :: st, by simp only [onPushOutput, e], ?_, by simp⟩
      intro x hx
      rcases List.mem_cons.1 hx with rfl | hx
      · exact hS
      · exact hst x (by simp [hx])
  rw [if_neg h3]
  by_cases h4 : t = ['*']
  · rw [if_pos h4]
    rcases st with _ | ⟨⟨g, q, f⟩, st⟩
    · exact .inr ⟨by simp, rfl⟩
    · have s1 : g.Single q f := hst (g, q, f) (by simp)
      obtain ⟨g', e, hS, _⟩ := zeroOrMore_spec s1
      refine .inl ⟨(g', g.lastVertexId, g.lastVertexId + 1) :: st, by simp only [onPushOutput, e], ?_, by simp⟩
      intro x hx
      rcases List.mem_cons.1 hx with rfl | hx
      · exact hS
      · exact hst x (by simp [hx])
  rw [if_neg h4]
  by_cases h5 : t = ['+']
  · rw [if_pos h5]
    rcases st with _ | ⟨⟨g, q, f⟩, st⟩
    · exact .inr ⟨by simp, rfl⟩
    · have s1 : g.Single q f := hst (g, q, f) (by simp)
      obtain ⟨g', e, hS, _⟩ := oneOrMore_spec s1
      refine .inl ⟨(g', g.lastVertexId, g.lastVertexId + 1) :: st, by simp only [onPushOutput, e], ?_, by simp⟩
      intro x hx
      rcases List.mem_cons.1 hx with rfl | hx
      · exact hS
      · exact hst x (by simp [hx])
  rw [if_neg h5]
  cases t with
  | nil => exact absurd rfl h0
  | cons c t =>
    obtain ⟨n1, n2, n3⟩ := ht c (by simp)
    simp only [n1, n2, n3, if_false]
    refine .inl ⟨literal 'ε' c :: st, rfl, ?_, by simp⟩
    intro x hx
    rcases List.mem_cons.1 hx with rfl | hx
    · exact (bracket_spec 'ε' [c]).1
    · exact hst x hx

theorem foldlM_simple {C : ReClasses} {order : List Char → List Char} {wa : List Char} : ∀ (ts : List (List Char)) {st : List (Frag Char)},
    (∀ t ∈ ts, t ≠ [] ∧ ∀ c ∈ t, c ≠ '{' ∧ c ≠ '[' ∧ c ≠ '\\') → (∀ x ∈ st, x.1.Single x.2.1 x.2.2) →
    (∃ st', ts.foldlM (onPushText C order wa) st = .ok st' ∧ (st' = [] → ts = [] ∧ st = [])) ∨
      ts.foldlM (onPushText C order wa) st = .error .indexError
  | [], st, _, _ => .inl ⟨st, rfl, fun h => ⟨rfl, h⟩⟩
  | t :: ts, st, ht, hst => by
    rw [List.foldlM_cons]
    obtain ⟨t1, t2⟩ := ht t (by simp)
    rcases onPushText_simple (C := C) (order := order) (wa := wa) t1 t2 hst with ⟨st', e, k1, k2⟩ | ⟨_, e⟩
    · rw [e]
      rcases foldlM_simple ts (fun u hu => ht u (by simp [hu])) k1 with ⟨st2, e2, k3⟩ | e2
      · exact .inl ⟨st2, e2, fun h => absurd (k3 h).2 k2⟩
      · exact .inr e2
    · rw [e]; exact .inr rfl

theorem missing_operand {C : ReClasses} (hC : C.Sound) (order : List Char → List Char) (wa : List Char) {s : List Char} (hs : s ≠ [])
    (hp : ∀ c ∈ s, c ≠ '{' ∧ c ≠ '[' ∧ c ≠ '\\') (hb : ∀ u v, tokenizerRe C s = u ++ v → u.count [')'] ≤ u.count ['('])
    (hc : (tokenizerRe C s).count ['('] = (tokenizerRe C s).count [')']) (hw : ¬ WellWritten C s) :
    compileText C order wa s = .error .indexError ∨ (compileText C order wa s = .error .assertionError ∧ ∀ c ∈ s, c = '(' ∨ c = ')') := by
  have hsub : ∀ p ∈ pieces C s 0, p.text ≠ [] ∧ ∀ c ∈ p.text, c ∈ s := by
    intro p h
    refine ⟨pieces_ne C s 0 p h, fun c hc => ?_⟩
    have e := pieces_flatten C s 0
    rw [List.drop_zero] at e
    rw [← e]
    exact List.mem_flatten.2 ⟨p.text, List.mem_map.2 ⟨p, h, rfl⟩, hc⟩
  have htok : ∀ t ∈ tokenizerRe C s, t ≠ [] ∧ ∀ c ∈ t, c ≠ '{' ∧ c ≠ '[' ∧ c ≠ '\\' := by
    intro t ht
    rcases tokens_from ht with rfl | ⟨p, h, rfl⟩
    · simp
    · exact ⟨(hsub p h).1, fun c hc => hp c ((hsub p h).2 c hc)⟩
  have hgood : ∀ t ∈ tokenizerRe C s, t = ['('] ∨ t = [')'] ∨ Good C order wa t := by
    intro t ht
    refine .inr (.inr ⟨[literal 'ε' 'a', literal 'ε' 'a'], ?_⟩)
    have hS : (literal 'ε' 'a').1.Single (literal 'ε' 'a').2.1 (literal 'ε' 'a').2.2 := (bracket_spec 'ε' ['a']).1
    rcases onPushText_simple (C := C) (order := order) (wa := wa) (st := [literal 'ε' 'a', literal 'ε' 'a']) (htok t ht).1 (htok t ht).2
      (by intro x hx; have : x = literal 'ε' 'a' := by simpa using hx
          subst this; exact hS) with ⟨st', e, _⟩ | ⟨h, _⟩
    · exact ⟨st', e⟩
    · simp at h
  obtain ⟨k1, k2⟩ := wellWritten_of_total hC hgood hb hc
  obtain ⟨A, a1, a2, a3⟩ := run_tokens (C := C) (order := order) (wa := wa) hb hc
  have hA : ∀ t ∈ A, t ∈ tokenizerRe C s := fun t ht => (List.mem_filter.1 (a1.mem_iff.1 ht)).1
  have hpar : A = [] → ∀ c ∈ s, c = '(' ∨ c = ')' := by
    intro h c hcs
    subst h
    have e := pieces_flatten C s 0
    rw [List.drop_zero] at e
    rw [← e] at hcs
    obtain ⟨t, ht, hct⟩ := List.mem_flatten.1 hcs
    obtain ⟨p, hpp, rfl⟩ := List.mem_map.1 ht
    have : ¬ ShuntingYard.nonPar reTable p.text = true := by
      intro hn
      have := a1.mem_iff.2 (List.mem_filter.2 ⟨text_mem_tokens hpp, hn⟩)
      simp at this
    simp only [ShuntingYard.nonPar, decide_eq_true_eq, not_and_or, not_not] at this
    rcases this with h | h
    · change p.text = ['('] at h; rw [h] at hct; simp at hct; exact .inl hct
    · change p.text = [')'] at h; rw [h] at hct; simp at hct; exact .inr hct
  unfold compileText
  rw [if_neg (by simpa using hs), a3]
  rcases foldlM_simple (C := C) (order := order) (wa := wa) A (st := []) (fun t ht => htok t (hA t ht)) (by simp) with ⟨st', e, h⟩ | e
  · rw [e]
    obtain ⟨b1, _⟩ := foldlM_length A a2 e
    rw [total_perm a1, total_filter] at b1
    have hne : total (tokenizerRe C s) ≠ 1 := fun h => hw (k2 h)
    have hl : st'.length = 0 := by
      have : (st'.length : Int) = total (tokenizerRe C s) := by simpa using b1
      omega
    have hnil : st' = [] := List.length_eq_zero_iff.1 hl
    subst hnil
    exact .inr ⟨rfl, hpar (h rfl).1⟩
  · rw [e]
    exact .inl rfl

end RegexText
end PyBGL
