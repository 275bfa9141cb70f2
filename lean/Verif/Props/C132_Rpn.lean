import Verif.Proofs.RpnForest
import Verif.Props.C35_C37_Expr

/-!
# C86, C132: what `shunting_yard_postfix`, `shunting_yard_ast` and `shunting_yard_compute` do with any list of tokens
-/

namespace PyBGL
variable {T : Type} [DecidableEq T]

/-- **C86.** `shunting_yard_postfix` into a plain `deque`, for every list of tokens: `IndexError` if some closing parenthesis
closes nothing; otherwise each token which is not a parenthesis is output once, and so is `"("` for each parenthesis left open. -/
theorem C86_postfix_partial {P : OpTable T} (hP : P.Sane) (ts : List T) :
    ((∃ u v, ts = u ++ v ∧ u.count P.lpar < u.count P.rpar) → ShuntingYard.postfixOf P ts = .error .indexError) ∧
    ((∀ u v, ts = u ++ v → u.count P.rpar ≤ u.count P.lpar) → ∃ A : List T, ShuntingYard.postfixOf P ts = .ok A ∧
      A.Perm ((ts.filter fun a => a ≠ P.lpar ∧ a ≠ P.rpar) ++ List.replicate (ts.count P.lpar - ts.count P.rpar) P.lpar)) := by
  constructor
  · rintro ⟨u, v, rfl, h⟩
    obtain ⟨A, hA⟩ := ShuntingYard.run_stray hP (ts := u ++ v) (fun hb => by have := hb u v rfl; omega)
    rw [ShuntingYard.postfixOf, hA, ShuntingYard.foldlM_plain]
    rfl
  · intro h
    obtain ⟨A, h1, h2⟩ := ShuntingYard.run_all hP (ts := ts) (fun u v e => by have := h u v e; omega)
    refine ⟨A, ?_, h1⟩
    rw [ShuntingYard.postfixOf, h2, ShuntingYard.foldlM_plain, List.nil_append]

example : ShuntingYard.postfixOf Alg.table [.num (1 : Int), .rpar, .add] = .error .indexError := by decide
example : ShuntingYard.postfixOf Alg.table [.lpar, .num (1 : Int), .add, .lpar, .num 2] =
    .ok [.num 1, .num 2, .lpar, .add, .lpar] := by decide

/-- The English statement of C132, for `shunting_yard_ast`. -/
def C132_statement : Prop :=
  ∀ ts : List (AlgTok Int), (∃ r, shuntingYardAst Alg.table ts = .ok r) →
    ∃ i : Infix (AlgTok Int), i.expr.Over Alg.table ∧ i.text Alg.table = ts

omit [DecidableEq T] in
theorem text_ne_nil (P : OpTable T) : ∀ i : Infix T, i.text P ≠ []
  | .leaf _ => by simp [Infix.text]
  | .paren _ => by simp [Infix.text]
  | .pre _ _ => by simp [Infix.text]
  | .post _ _ => by simp [Infix.text]
  | .imm _ _ => by simp [Infix.text]
  | .bin _ _ _ => by simp [Infix.text]

/-- **C132 is false:** the tokens `1 2 +` are accepted, though they are not an infix expression. -/
theorem C132_infix_counterexample : ¬ C132_statement := by
  intro h
  obtain ⟨i, h1, h2⟩ := h [.num 1, .num 2, .add] (by
    refine ⟨(⟨⟨3, [(0, []), (1, []), (2, [(0, [0]), (1, [0])])]⟩, [(0, .num 1), (1, .num 2), (2, .add)]⟩, 2), ?_⟩
    rfl)
  cases i with
  | leaf a => simp [Infix.text] at h2
  | paren e => simp [Infix.text, Alg.table] at h2
  | pre o e =>
    simp only [Infix.text, List.cons.injEq] at h2
    obtain ⟨⟨p, hp, _⟩, _⟩ := h1
    rw [h2.1] at hp
    simp [Alg.table, Dict.get?] at hp
  | post o e =>
    have h3 := congrArg List.getLast? h2
    simp [Infix.text] at h3
    obtain ⟨⟨p, hp, hc⟩, _⟩ := h1
    subst h3
    simp [Alg.table, Dict.get?] at hp
    subst hp; simp at hc
  | imm o e =>
    have h3 := congrArg List.getLast? h2
    simp [Infix.text] at h3
    obtain ⟨⟨p, hp, hc⟩, _⟩ := h1
    subst h3
    simp [Alg.table, Dict.get?] at hp
    subst hp; simp at hc
  | bin o l r =>
    simp only [Infix.text] at h2
    obtain ⟨⟨p, hp, hc⟩, _⟩ := h1
    have n1 := text_ne_nil Alg.table l
    have n2 := text_ne_nil Alg.table r
    rcases hl : l.text Alg.table with _ | ⟨x, _ | ⟨y, _ | ⟨z, w⟩⟩⟩
    · exact n1 hl
    · rw [hl] at h2
      simp at h2
      rw [h2.2.1] at hp
      simp [Alg.table, Dict.get?] at hp
    · rw [hl] at h2
      simp at h2
      exact n2 h2.2.2.2
    · rw [hl] at h2
      simp at h2

/-- **C132, partial.** `shunting_yard_ast` for every list of tokens, when the operators of the table take one or two operands.
If `shunting_yard_postfix` outputs the postfix form of a tree, this tree is returned. If it outputs the postfix forms of no tree
or of several trees one after the other, `AssertionError` is raised. In any other case (an operator misses an operand, or a
closing parenthesis closes nothing), `IndexError` is raised. -/
theorem C132_ast_partial {P : OpTable T} (hP : P.Sane) (hcard : ∀ a p, P.ops.get? a = some p → p.cardinality = 1 ∨ p.cardinality = 2)
    (ts : List T) :
    (∀ e : Expr T, e.Arity P.ops → ShuntingYard.postfixOf P ts = .ok e.rpn →
      ∃ t root, shuntingYardAst P ts = .ok (t, root) ∧ t.Represents root e ∧ t.g.vertices = List.range e.size ∧
        t.g.numEdges + 1 = e.size) ∧
    (∀ es : List (Expr T), (∀ e ∈ es, e.Arity P.ops) → es.length ≠ 1 → ShuntingYard.postfixOf P ts = .ok (es.flatMap Expr.rpn) →
      shuntingYardAst P ts = .error .assertionError) ∧
    ((¬ ∃ es : List (Expr T), (∀ e ∈ es, e.Arity P.ops) ∧ ShuntingYard.postfixOf P ts = .ok (es.flatMap Expr.rpn)) →
      shuntingYardAst P ts = .error .indexError) := by
  by_cases hb : ShuntingYard.NoStrayClose P 0 ts
  · obtain ⟨A, h1, h2⟩ := ShuntingYard.run_all hP hb
    have hpost : ShuntingYard.postfixOf P ts = .ok A := by
      rw [ShuntingYard.postfixOf, h2, ShuntingYard.foldlM_plain, List.nil_append]
    rw [shuntingYardAst, h2, hpost]
    refine ⟨?_, ?_, ?_⟩
    · intro e he hA
      simp only [Except.ok.injEq] at hA
      subst hA
      have := Ast.eval_arity he 0 [] [] (by simp [Dict.keys]) (by simp [Dict.keys])
      rw [Rpn.feed_arity he, Ast.empty, Graph.empty, this]
      refine ⟨_, _, rfl, Ast.represents e 0 (a₁ := []) (a₂ := []) (s₁ := []) (s₂ := []) (by simp) (by simp)
        (by simp [Dict.keys]) (by simp [Dict.keys]), ?_, Ast.numEdges_tree e 0⟩
      show Dict.keys (Ast.treeAdj 0 e) = _
      rw [Ast.keys_treeAdj, List.range_eq_range']
    · intro es hes hl hA
      simp only [Except.ok.injEq] at hA
      subst hA
      obtain ⟨r, hr⟩ := Ast.feed_ok hes [] 0 [] [] rfl rfl
      have hlen := Rpn.feed_length hes hr
      have hr' : (es.flatMap Expr.rpn).foldlM (Rpn.append P.ops Ast.hooks) ([], (Ast.empty : Ast T)) = .ok r := hr
      rw [hr', ShuntingYard.ok_bind']
      obtain ⟨D, t⟩ := r
      rcases D with _ | ⟨x, _ | ⟨y, D⟩⟩
      · rfl
      · simp at hlen; omega
      · rfl
    · intro hno
      rcases Ast.feed_cases hcard A with ⟨es, k1, k2, _⟩ | h
      · exact absurd ⟨es, k1, by rw [k2]⟩ hno
      · rw [h]; rfl
  · obtain ⟨A, hA⟩ := ShuntingYard.run_stray hP hb
    have hpost : ShuntingYard.postfixOf P ts = .error .indexError := by
      rw [ShuntingYard.postfixOf, hA, ShuntingYard.foldlM_plain]; rfl
    refine ⟨fun e _ h => ?_, fun es _ _ h => ?_, fun _ => ?_⟩
    · rw [hpost] at h; cases h
    · rw [hpost] at h; cases h
    · rw [shuntingYardAst, hA]
      rcases Ast.feed_cases hcard A with ⟨es, k1, k2, r, hr, _⟩ | h
      · rw [hr]; rfl
      · rw [h]; rfl

/-- **C132, partial.** `shunting_yard_compute` on tokens with balanced parentheses returns a value if and only if
`shunting_yard_postfix` outputs the postfix form of an expression without unary plus which has a value; this value is returned. -/
theorem C132_compute_partial {K : Type} [DecidableEq K] (R : Arith K) {ts : List (AlgTok K)} (hc : ts.count .lpar = ts.count .rpar)
    (x : AlgVal K) :
    Alg.compute R ts = .ok x ↔ ∃ (e : Expr (AlgTok K)) (v : K), e.Over Alg.table ∧ e.NoUplus ∧
      ShuntingYard.postfixOf Alg.table ts = .ok e.rpn ∧ e.value R = .ok v ∧ x = .num v := by
  by_cases hb : ShuntingYard.NoStrayClose Alg.table 0 ts
  · obtain ⟨A, h1, h2⟩ := ShuntingYard.run_all Alg.table_sane hb
    have hpost : ShuntingYard.postfixOf Alg.table ts = .ok A := by
      rw [ShuntingYard.postfixOf, h2, ShuntingYard.foldlM_plain, List.nil_append]
    have hz : ts.count (Alg.table : OpTable (AlgTok K)).lpar - ts.count (Alg.table : OpTable (AlgTok K)).rpar = 0 := by
      have : ts.count (Alg.table : OpTable (AlgTok K)).lpar = ts.count (Alg.table : OpTable (AlgTok K)).rpar := hc
      omega
    rw [hz] at h1
    have hA : ∀ a ∈ A, a ≠ (Alg.table : OpTable (AlgTok K)).lpar ∧ a ≠ (Alg.table : OpTable (AlgTok K)).rpar := by
      intro a ha
      have := h1.mem_iff.1 ha
      rw [List.replicate_zero, List.append_nil] at this
      exact of_decide_eq_true (List.mem_filter.1 this).2
    rw [Alg.compute, h2, hpost]
    constructor
    · intro h
      obtain ⟨r, hr, h⟩ := (except_bind_ok).1 h
      obtain ⟨es, k1, k2, k3⟩ := Rpn.forest_of_ok Alg.card hr
      obtain ⟨q, hq, h⟩ := (except_bind_ok).1 h
      obtain ⟨D, s⟩ := r
      rcases D with _ | ⟨y, _ | ⟨z, D⟩⟩
      · cases hq
      · simp at k3
        obtain ⟨e, rfl⟩ := List.length_eq_one_iff.1 k3.symm
        have ea : e.Arity Alg.table.ops := k1 e (by simp)
        simp at k2
        subst k2
        have eo := ea.over hA
        rw [Rpn.feed_arity ea] at hr
        obtain ⟨w, hw, hr⟩ := (except_bind_ok).1 hr
        have en := Alg.noUplus_of_eval hw
        rw [Alg.eval_value eo en] at hw
        obtain ⟨v, hv, hw⟩ := (except_bind_ok).1 hw
        refine ⟨e, v, eo, en, rfl, hv, ?_⟩
        cases hw; cases hr; cases hq; cases h
        rfl
      · cases hq
    · rintro ⟨e, v, eo, en, hA', hv, rfl⟩
      simp only [Except.ok.injEq] at hA'
      subst hA'
      rw [Rpn.feed eo, Alg.eval_value eo en, hv]
      rfl
  · obtain ⟨A, hA⟩ := ShuntingYard.run_stray Alg.table_sane hb
    have hpost : ShuntingYard.postfixOf Alg.table ts = .error .indexError := by
      rw [ShuntingYard.postfixOf, hA, ShuntingYard.foldlM_plain]; rfl
    constructor
    · intro h
      rw [Alg.compute, hA] at h
      obtain ⟨r, hr, h⟩ := (except_bind_ok).1 h
      obtain ⟨q, hq, hr⟩ := (except_bind_ok).1 hr
      cases hr
    · rintro ⟨e, v, _, _, h, _⟩
      rw [hpost] at h; cases h

/-- **C132.** `shunting_yard_compute` for every list of tokens, with its exceptions. `shunting_yard_postfix` outputs the postfix
forms of trees one after the other, up to the first operator which misses an operand, if any. Their values are computed in this
order. Then: with a missing operand, `IndexError` is raised; with one tree, its value is returned; with none or several,
`AssertionError` is raised. If a closing parenthesis closes nothing, an exception is raised. -/
theorem C132_compute_exact {K : Type} [DecidableEq K] (R : Arith K) (ts : List (AlgTok K)) :
    (∃ es : List (Expr (AlgTok K)), (∀ e ∈ es, e.Arity Alg.table.ops) ∧
      ((ShuntingYard.postfixOf Alg.table ts = .ok (es.flatMap Expr.rpn) ∧ Alg.compute R ts = (do
          let xs ← es.mapM (Expr.outcome R)
          match xs with
          | [x] => .ok x
          | _ => .error .assertionError)) ∨
       (∃ a p B, (Alg.table : OpTable (AlgTok K)).ops.get? a = some p ∧ es.length < p.cardinality ∧
          ShuntingYard.postfixOf Alg.table ts = .ok (es.flatMap Expr.rpn ++ a :: B) ∧ Alg.compute R ts = (do
          let _ ← es.mapM (Expr.outcome R)
          .error .indexError)))) ∨
    ((∃ u v, ts = u ++ v ∧ u.count .lpar < u.count .rpar) ∧ ∃ err, Alg.compute R ts = .error err) := by
  by_cases hb : ShuntingYard.NoStrayClose Alg.table 0 ts
  · left
    obtain ⟨A, h1, h2⟩ := ShuntingYard.run_all Alg.table_sane hb
    have hpost : ShuntingYard.postfixOf Alg.table ts = .ok A := by
      rw [ShuntingYard.postfixOf, h2, ShuntingYard.foldlM_plain, List.nil_append]
    rcases Expr.forest Alg.card A with ⟨es, k1, rfl⟩ | ⟨es, a, p, B, k1, rfl, k2, k3⟩
    · refine ⟨es, k1, .inl ⟨hpost, ?_⟩⟩
      rw [Alg.compute, h2, Alg.feed_outcome k1]
      cases he : es.mapM (Expr.outcome R) with
      | error e => rfl
      | ok xs =>
        simp only [ShuntingYard.ok_bind', List.append_nil]
        rcases xs with _ | ⟨x, _ | ⟨y, xs⟩⟩
        · rfl
        · rfl
        · have hl : (x :: y :: xs).reverse.length = xs.length + 2 := by simp
          rcases hr : (x :: y :: xs).reverse with _ | ⟨z, _ | ⟨w, zs⟩⟩
          · rw [hr] at hl; simp at hl
          · rw [hr] at hl; simp at hl
          · rfl
    · refine ⟨es, k1, .inr ⟨a, p, B, k2, k3, hpost, ?_⟩⟩
      rw [Alg.compute, h2, List.foldlM_append, Alg.feed_outcome k1]
      cases he : es.mapM (Expr.outcome R) with
      | error e => rfl
      | ok xs =>
        have hl := Alg.length_mapM he
        simp only [ShuntingYard.ok_bind', List.append_nil, List.foldlM_cons]
        rw [Rpn.append_short k2 (by simpa [hl] using k3)]
        rfl
  · right
    refine ⟨?_, ?_⟩
    · by_contra hno
      refine hb fun u v e => ?_
      by_contra hlt
      exact hno ⟨u, v, e, by
        have : ¬ u.count (.rpar : AlgTok K) ≤ 0 + u.count .lpar := hlt
        omega⟩
    · obtain ⟨A, hA⟩ := ShuntingYard.run_stray Alg.table_sane hb
      rw [Alg.compute, hA]
      cases A.foldlM (Rpn.append Alg.table.ops (Alg.hooks R)) ([], ()) with
      | error e => exact ⟨e, rfl⟩
      | ok r => exact ⟨_, rfl⟩

/-- The hypotheses on the table hold for algebraic expressions; `1 2 + 3`, `1 +`, and `(1)(2)+`. -/
example : ∀ a p, (Alg.table : OpTable (AlgTok Int)).ops.get? a = some p → p.cardinality = 1 ∨ p.cardinality = 2 := Alg.card
example : ShuntingYard.postfixOf Alg.table [.num (1 : Int), .num 2, .add, .num 3] =
    .ok ([.leaf (.num 1), .bin .add (.leaf (.num 2)) (.leaf (.num 3))].flatMap Expr.rpn) := by decide
example : ShuntingYard.postfixOf Alg.table [.num (1 : Int), .add] = .ok [.num 1, .add] := by decide
example : ShuntingYard.postfixOf Alg.table [.lpar, .num (1 : Int), .rpar, .lpar, .num 2, .rpar, .add] =
    .ok (Expr.bin .add (.leaf (.num 1)) (.leaf (.num 2))).rpn := by decide

/-- An opening parenthesis left open is an operand: `(` alone is accepted, and returned. -/
example (R : Arith Int) : Alg.compute R [.lpar] = .ok (.text ['(']) := rfl

/-- Two of them are concatenated: `()+((` returns the string `"(("`, and `1+((` raises `AssertionError`, not `TypeError`. -/
example (R : Arith Int) : (do Alg.compute R (← Alg.tokens [.op .lpar, .op .rpar, .op .add, .op .lpar, .op .lpar])) =
    .ok (.text ['(', '(']) := rfl
example (R : Arith Int) : (do Alg.compute R (← Alg.tokens [.text 1, .op .add, .op .lpar, .op .lpar])) =
    .error .assertionError := rfl

end PyBGL
