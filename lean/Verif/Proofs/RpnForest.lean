import Verif.Proofs.Rpn
import Verif.Proofs.RegexSyntax

/-!
# What the RPN deques accept
-/

namespace PyBGL

/-! ## The output of the shunting yard, whatever the parentheses -/

namespace ShuntingYard
variable {T : Type} [DecidableEq T]

theorem closeParen_none {O : Type} {P : OpTable T} {sink : O → T → Except PyErr O} : ∀ (S : List T) (out : O), P.lpar ∉ S →
    closeParen P sink S out = (do let _ ← S.foldlM sink out; .error .indexError)
  | [], out, _ => rfl
  | o :: S, out, h => by
    simp only [List.mem_cons, not_or] at h
    rw [closeParen, if_neg (Ne.symm h.1)]
    simp only [List.foldlM_cons, bind_assoc]
    congr; funext out'
    exact closeParen_none S out' h.2

/-- The first closing parenthesis that closes nothing. -/
theorem first_stray {P : OpTable T} (hP : P.Sane) : ∀ {ts : List T}, ¬ NoStrayClose P 0 ts →
    ∃ u v, ts = u ++ P.rpar :: v ∧ NoStrayClose P 0 u ∧ u.count P.rpar = u.count P.lpar := by
  intro ts
  induction ts using List.reverseRecOn with
  | nil => intro h; exact absurd (fun u v e => by obtain ⟨rfl, rfl⟩ := List.append_eq_nil_iff.1 e.symm; simp) h
  | append_singleton ts a ih =>
    intro h
    by_cases hts : NoStrayClose P 0 ts
    · have h0 : ts.count P.rpar ≤ 0 + ts.count P.lpar := hts ts [] (by simp)
      by_cases hc : (ts ++ [a]).count P.rpar ≤ 0 + (ts ++ [a]).count P.lpar
      · exfalso; apply h
        intro u v e
        rcases List.eq_nil_or_concat v with rfl | ⟨v, b, rfl⟩
        · rw [List.append_nil] at e; rw [← e]; exact hc
        · rw [List.concat_eq_append, ← List.append_assoc] at e
          exact hts u v (List.append_inj' e rfl).1
      · rw [List.count_append, List.count_append] at hc
        by_cases ha : a = P.rpar
        · subst ha
          refine ⟨ts, [], rfl, hts, ?_⟩
          simp [hP.ne.symm] at hc
          omega
        · simp [ha] at hc
          omega
    · obtain ⟨u, v, rfl, h1, h2⟩ := ih hts
      exact ⟨u, v ++ [a], by simp, h1, h2⟩

theorem run_stray {P : OpTable T} (hP : P.Sane) {ts : List T} (h : ¬ NoStrayClose P 0 ts) :
    ∃ A : List T, ∀ (O : Type) (sink : O → T → Except PyErr O) (out : O),
      run P sink ts out = (do let _ ← A.foldlM sink out; .error .indexError) := by
  obtain ⟨u, v, rfl, h1, h2⟩ := first_stray hP h
  obtain ⟨A, S', k1, k2, k3, k4⟩ := foldlM_out hP u [] (by simp) (by simpa using h1)
  have hS : P.lpar ∉ S' := by
    have : S'.count P.lpar = 0 := by simp at k4; omega
    exact List.count_eq_zero.1 this
  refine ⟨A ++ S', fun O sink out => ?_⟩
  have hstep : ∀ out', step P sink (S', out') P.rpar = (do let _ ← S'.foldlM sink out'; .error .indexError) := by
    intro out'
    rw [step, if_neg hP.ne.symm, if_pos rfl]
    exact closeParen_none S' out' hS
  simp only [run, List.foldlM_append, List.foldlM_cons, k1, bind_assoc, ok_bind', hstep]
  rfl

theorem run_all {P : OpTable T} (hP : P.Sane) {ts : List T} (hb : NoStrayClose P 0 ts) :
    ∃ A : List T, A.Perm (ts.filter (nonPar P) ++ List.replicate (ts.count P.lpar - ts.count P.rpar) P.lpar) ∧
      ∀ (O : Type) (sink : O → T → Except PyErr O) (out : O), run P sink ts out = A.foldlM sink out := by
  obtain ⟨A, S', h1, h2, h3, h4⟩ := foldlM_out hP ts [] (by simp) (by simpa using hb)
  refine ⟨A ++ S', ?_, fun O sink out => by simp only [run, h1, bind_assoc, ok_bind', List.foldlM_append]⟩
  have hS : S'.Perm (S'.filter (nonPar P) ++ List.replicate (S'.count P.lpar) P.lpar) := by
    have e := (List.filter_append_perm (nonPar P) S').symm
    have e2 : S'.filter (fun x => !nonPar P x) = List.replicate (S'.count P.lpar) P.lpar := by
      rw [← List.filter_eq]
      apply List.filter_congr
      intro x hx
      simp [nonPar, h3 x hx]
    rw [e2] at e
    exact e
  have h5 : S'.count P.lpar = ts.count P.lpar - ts.count P.rpar := by simp at h4; omega
  rw [h5] at hS
  refine (List.Perm.append_left A hS).trans ?_
  rw [← List.append_assoc]
  exact List.Perm.append_right _ (by simpa using h2)

end ShuntingYard

/-! ## Postfix texts -/

namespace Expr
variable {T : Type} [DecidableEq T]

theorem Arity.over {P : OpTable T} : ∀ {e : Expr T}, e.Arity P.ops → (∀ a ∈ e.rpn, a ≠ P.lpar ∧ a ≠ P.rpar) → e.Over P
  | .leaf a, h, hp => ⟨h, hp a (by simp [rpn])⟩
  | .un o e, h, hp => ⟨h.1, h.2.over fun a ha => hp a (by simp [rpn, ha])⟩
  | .bin o l r, h, hp => ⟨h.1, h.2.1.over fun a ha => hp a (by simp [rpn, ha]), h.2.2.over fun a ha => hp a (by simp [rpn, ha])⟩

/-- Any list of tokens is the postfix text of a sequence of trees, or lacks operands. -/
theorem forest {ops : Dict T Op} (hcard : ∀ a p, ops.get? a = some p → p.cardinality = 1 ∨ p.cardinality = 2) (A : List T) :
    (∃ es : List (Expr T), (∀ e ∈ es, e.Arity ops) ∧ A = es.flatMap rpn) ∨
    ∃ (es : List (Expr T)) (a : T) (p : Op) (B : List T), (∀ e ∈ es, e.Arity ops) ∧ A = es.flatMap rpn ++ a :: B ∧
      ops.get? a = some p ∧ es.length < p.cardinality := by
  induction A using List.reverseRecOn with
  | nil => exact .inl ⟨[], by simp, rfl⟩
  | append_singleton A x ih =>
    rcases ih with ⟨es, h1, rfl⟩ | ⟨es, a, p, B, h1, rfl, h2, h3⟩
    · cases hx : ops.get? x with
      | none =>
        refine .inl ⟨es ++ [.leaf x], ?_, by simp [rpn]⟩
        intro e he
        rcases List.mem_append.1 he with he | he
        · exact h1 e he
        · obtain rfl := List.mem_singleton.1 he
          exact hx
      | some p =>
        by_cases hl : es.length < p.cardinality
        · exact .inr ⟨es, x, p, [], h1, rfl, hx, hl⟩
        · left
          rcases hcard x p hx with hc | hc
          · rcases List.eq_nil_or_concat es with rfl | ⟨es, e, rfl⟩
            · simp [hc] at hl
            · rw [List.concat_eq_append] at h1 ⊢
              refine ⟨es ++ [.un x e], ?_, by simp [rpn]⟩
              intro e' he
              rcases List.mem_append.1 he with he | he
              · exact h1 e' (by simp [he])
              · obtain rfl := List.mem_singleton.1 he
                exact ⟨⟨p, hx, hc⟩, h1 e (by simp)⟩
          · rcases List.eq_nil_or_concat es with rfl | ⟨es, r, rfl⟩
            · simp [hc] at hl
            · rcases List.eq_nil_or_concat es with rfl | ⟨es, l, rfl⟩
              · simp [hc] at hl
              · simp only [List.concat_eq_append] at h1 ⊢
                refine ⟨es ++ [.bin x l r], ?_, by simp [rpn]⟩
                intro e' he
                rcases List.mem_append.1 he with he | he
                · exact h1 e' (by simp [he])
                · obtain rfl := List.mem_singleton.1 he
                  exact ⟨⟨p, hx, hc⟩, h1 l (by simp), h1 r (by simp)⟩
    · exact .inr ⟨es, a, p, B ++ [x], h1, by simp, h2, h3⟩

end Expr

namespace Rpn
variable {T U S : Type} [DecidableEq T]
open ShuntingYard (ok_bind')

omit [DecidableEq T] in
theorem popArgs_short : ∀ (n : Nat) (D vs : List U), D.length < n → popArgs n D vs = .error .indexError
  | 0, D, vs, h => by simp at h
  | n + 1, [], vs, _ => rfl
  | n + 1, v :: D, vs, h => by rw [popArgs]; exact popArgs_short n D (v :: vs) (by simpa using h)

theorem append_short {ops : Dict T Op} {h : RpnHooks T U S} {a : T} {p : Op} {D : List U} {s : S} (ha : ops.get? a = some p)
    (hl : D.length < p.cardinality) : append ops h (D, s) a = (do let _ ← h.onAppend a s; .error .indexError) := by
  simp only [append, ha, popArgs_short _ _ _ hl]
  rfl

/-- A deque that has received the postfix texts of `k` trees holds `k` items. -/
theorem feed_length {ops : Dict T Op} {h : RpnHooks T U S} : ∀ {es : List (Expr T)}, (∀ e ∈ es, e.Arity ops) →
    ∀ {D : List U} {s : S} {r : List U × S}, (es.flatMap Expr.rpn).foldlM (append ops h) (D, s) = .ok r →
      r.1.length = es.length + D.length
  | [], _, D, s, r, hr => by
    simp [pure, Except.pure] at hr
    subst hr; simp
  | e :: es, he, D, s, r, hr => by
    rw [List.flatMap_cons, List.foldlM_append, feed_arity (he e (by simp)), bind_assoc] at hr
    obtain ⟨x, hx, hr⟩ := (except_bind_ok).1 hr
    rw [ok_bind'] at hr
    have := feed_length (fun e' h' => he e' (by simp [h'])) hr
    simp at this ⊢; omega

/-- What an RPN deque accepts is the postfix text of a sequence of trees. -/
theorem forest_of_ok {ops : Dict T Op} (hcard : ∀ a p, ops.get? a = some p → p.cardinality = 1 ∨ p.cardinality = 2)
    {h : RpnHooks T U S} {A : List T} {s : S} {r : List U × S} (hr : A.foldlM (append ops h) ([], s) = .ok r) :
    ∃ es : List (Expr T), (∀ e ∈ es, e.Arity ops) ∧ A = es.flatMap Expr.rpn ∧ r.1.length = es.length := by
  rcases Expr.forest hcard A with ⟨es, h1, rfl⟩ | ⟨es, a, p, B, h1, rfl, h2, h3⟩
  · exact ⟨es, h1, rfl, by simpa using feed_length h1 hr⟩
  · exfalso
    rw [List.foldlM_append] at hr
    obtain ⟨x, hx, hr⟩ := (except_bind_ok).1 hr
    have hl := feed_length h1 hx
    rw [List.foldlM_cons] at hr
    obtain ⟨y, hy, hr⟩ := (except_bind_ok).1 hr
    obtain ⟨x1, x2⟩ := x
    rw [append_short h2 (by simp at hl; omega)] at hy
    obtain ⟨z, _, hz⟩ := (except_bind_ok).1 hy
    cases hz

end Rpn

namespace Ast
variable {T : Type} [DecidableEq T]
open ShuntingYard (ok_bind')

/-- The AST deque accepts every sequence of trees. -/
theorem feed_ok {ops : Dict T Op} : ∀ {es : List (Expr T)}, (∀ e ∈ es, e.Arity ops) → ∀ (D : List Nat) (n : Nat)
    (adj : Dict Nat (Dict Nat (List Nat))) (sym : Dict Nat T), Dict.keys adj = List.range' 0 n → Dict.keys sym = List.range' 0 n →
    ∃ r, (es.flatMap Expr.rpn).foldlM (Rpn.append ops hooks) (D, ⟨⟨n, adj⟩, sym⟩) = .ok r
  | [], _, D, n, adj, sym, _, _ => ⟨_, rfl⟩
  | e :: es, he, D, n, adj, sym, h1, h2 => by
    have q1 : Dict.keys (adj ++ treeAdj n e) = List.range' 0 (n + e.size) := by
      rw [keys_append, h1, keys_treeAdj, range_app]
    have q2 : Dict.keys (sym ++ treeSym n e) = List.range' 0 (n + e.size) := by
      rw [keys_append, h2, keys_treeSym, range_app]
    obtain ⟨r, hr⟩ := feed_ok (es := es) (fun e' h' => he e' (by simp [h'])) ((n + e.size - 1) :: D) (n + e.size) _ _ q1 q2
    refine ⟨r, ?_⟩
    rw [List.flatMap_cons, List.foldlM_append, Rpn.feed_arity (he e (by simp)), eval_arity (he e (by simp)) n adj sym h1 h2,
      ok_bind', ok_bind']
    exact hr

/-- Anything else misses an operand. -/
theorem feed_cases {ops : Dict T Op} (hcard : ∀ a p, ops.get? a = some p → p.cardinality = 1 ∨ p.cardinality = 2) (A : List T) :
    (∃ es : List (Expr T), (∀ e ∈ es, e.Arity ops) ∧ A = es.flatMap Expr.rpn ∧
      ∃ r, A.foldlM (Rpn.append ops hooks) ([], Ast.empty) = .ok r ∧ r.1.length = es.length) ∨
    A.foldlM (Rpn.append ops hooks) ([], (Ast.empty : Ast T)) = .error .indexError := by
  rcases Expr.forest hcard A with ⟨es, h1, rfl⟩ | ⟨es, a, p, B, h1, rfl, h2, h3⟩
  · obtain ⟨r, hr⟩ := feed_ok h1 [] 0 [] [] rfl rfl
    exact .inl ⟨es, h1, rfl, r, hr, by simpa using Rpn.feed_length h1 hr⟩
  · right
    obtain ⟨⟨D, t⟩, hr⟩ := feed_ok h1 [] 0 [] [] rfl rfl
    have hl := Rpn.feed_length h1 hr
    have hr' : (es.flatMap Expr.rpn).foldlM (Rpn.append ops hooks) ([], (Ast.empty : Ast T)) = .ok (D, t) := hr
    rw [List.foldlM_append, hr', ok_bind', List.foldlM_cons, Rpn.append_short h2 (by simp at hl; omega)]
    rfl

end Ast

namespace Alg
variable {K : Type} [DecidableEq K]
open ShuntingYard (ok_bind')

theorem card : ∀ a p, (table : OpTable (AlgTok K)).ops.get? a = some p → p.cardinality = 1 ∨ p.cardinality = 2 := by
  intro a p h
  cases a <;> simp [table, Dict.get?] at h <;> subst h <;> simp

/-- The unary plus is never accepted. -/
theorem noUplus_of_eval {R : Arith K} : ∀ {e : Expr (AlgTok K)} {r : AlgVal K × Unit},
    Rpn.eval table.ops (hooks R) e () = .ok r → e.NoUplus
  | .leaf a, r, _ => trivial
  | .un o e, r, h => by
    rw [Rpn.eval] at h
    obtain ⟨x, hx, h⟩ := (except_bind_ok).1 h
    refine ⟨?_, noUplus_of_eval hx⟩
    rintro rfl
    rw [hooks_append, ok_bind'] at h
    simp only [table, Dict.get?] at h
    simp [hooks, onOperation] at h
    cases h
  | .bin o l r, r', h => by
    rw [Rpn.eval] at h
    obtain ⟨x, hx, h⟩ := (except_bind_ok).1 h
    obtain ⟨y, hy, h⟩ := (except_bind_ok).1 h
    exact ⟨noUplus_of_eval hx, noUplus_of_eval hy⟩

/-- The deque receives the outcomes of the trees, one after the other. -/
theorem feed_outcome {R : Arith K} : ∀ {es : List (Expr (AlgTok K))}, (∀ e ∈ es, e.Arity table.ops) → ∀ {D : List (AlgVal K)},
    (es.flatMap Expr.rpn).foldlM (Rpn.append table.ops (hooks R)) (D, ()) =
      (do let xs ← es.mapM (Expr.outcome R); .ok (xs.reverse ++ D, ()))
  | [], _, D => rfl
  | e :: es, he, D => by
    rw [List.flatMap_cons, List.foldlM_append, Rpn.feed_arity (he e (by simp)), eval_outcome (he e (by simp)), List.mapM_cons]
    cases e.outcome R with
    | error x => rfl
    | ok x =>
      simp only [ok_bind']
      rw [feed_outcome (fun e' h' => he e' (by simp [h']))]
      cases es.mapM (Expr.outcome R) with
      | error y => rfl
      | ok xs => simp only [ok_bind', pure, Except.pure, List.reverse_cons, List.append_assoc, List.singleton_append]

omit [DecidableEq K] in
theorem length_mapM {R : Arith K} : ∀ {es : List (Expr (AlgTok K))} {xs : List (AlgVal K)}, es.mapM (Expr.outcome R) = .ok xs →
    xs.length = es.length
  | [], xs, h => by cases h; rfl
  | e :: es, xs, h => by
    rw [List.mapM_cons] at h
    obtain ⟨x, _, h⟩ := (except_bind_ok).1 h
    obtain ⟨ys, hy, h⟩ := (except_bind_ok).1 h
    cases h
    simp [length_mapM hy]

end Alg

end PyBGL
