import Verif.Proofs.Rpn

/-!
# C35–C37, C81: infix expressions, RPN, tokenisation
-/

namespace PyBGL
variable {T : Type} [DecidableEq T]

/-- **C35.** Infix text with all its parentheses. -/
theorem C35_full {P : OpTable T} (hP : P.Sane) {e : Expr T} (ho : e.Over P) :
    ShuntingYard.postfixOf P (e.full.text P) = .ok e.rpn := by
  have h := ShuntingYard.run_text hP (sink := ShuntingYard.plainSink) (e := e.full)
    (by rw [ShuntingYard.full_expr]; exact ho) (ShuntingYard.full_enough P e) []
  rw [ShuntingYard.full_expr, ShuntingYard.foldlM_plain] at h
  simpa [ShuntingYard.postfixOf] using h

/-- **C35.** Infix text with parentheses only where precedence and associativity require, for every operator table
(the operators of a same precedence may have distinct associativities). -/
theorem C35_minimal {P : OpTable T} (hP : P.Sane) {e : Expr T} (ho : e.Over P) :
    ShuntingYard.postfixOf P ((e.minimal P).text P) = .ok e.rpn := by
  have h := ShuntingYard.run_text hP (sink := ShuntingYard.plainSink) (e := e.minimal P)
    (by rw [ShuntingYard.minimal_expr]; exact ho) (ShuntingYard.minimal_enough P e) []
  rw [ShuntingYard.minimal_expr, ShuntingYard.foldlM_plain] at h
  simpa [ShuntingYard.postfixOf] using h

/-- **C35.** Any infix text which has at least the required parentheses, with prefix and postfix unary operators. -/
theorem C35_enough {P : OpTable T} (hP : P.Sane) {i : Infix T} (ho : i.expr.Over P) (he : i.Enough P) :
    ShuntingYard.postfixOf P (i.text P) = .ok i.expr.rpn := by
  have h := ShuntingYard.run_text hP (sink := ShuntingYard.plainSink) ho he []
  rw [ShuntingYard.foldlM_plain] at h
  simpa [ShuntingYard.postfixOf] using h

/-- **C35.** The output sink and the visitor receive the tokens of the postfix form, in order. -/
theorem C35_sink {O : Type} {P : OpTable T} (hP : P.Sane) {i : Infix T} (ho : i.expr.Over P) (he : i.Enough P)
    (sink : O → T → Except PyErr O) (out : O) : ShuntingYard.run P sink (i.text P) out = i.expr.rpn.foldlM sink out :=
  ShuntingYard.run_text hP ho he out

/-- The postfix form determines the expression: `C35` leaves no ambiguity. -/
theorem C35_rpn_injective {P : OpTable T} {e e' : Expr T} (ho : e.Over P) (ho' : e'.Over P) (h : e.rpn = e'.rpn) :
    e = e' := by
  -- the RPN deque rebuilds the tree
  let hk : RpnHooks T (Expr T) Unit :=
    { onAppend := fun a s => .ok (.leaf a, s)
      onOperation := fun a _ _ vs s =>
        match vs with
        | [x] => .ok (.un a x, s)
        | [x, y] => .ok (.bin a x y, s)
        | _ => .error .valueError }
  have key : ∀ e : Expr T, e.Over P → Rpn.eval P.ops hk e () = .ok (e, ()) := by
    intro e
    induction e with
    | leaf a => intro _; rfl
    | un o e ih =>
      rintro ⟨⟨p, hp, _⟩, ho⟩
      simp [Rpn.eval, ih ho, hp, hk, ShuntingYard.ok_bind']
    | bin o l r ihl ihr =>
      rintro ⟨⟨p, hp, _⟩, hl, hr⟩
      simp only [Rpn.eval, ihl hl, ihr hr, hp, ShuntingYard.ok_bind']
      simp only [hk, ShuntingYard.ok_bind']
  have h1 := Rpn.feed (h := hk) ho [] ()
  have h2 := Rpn.feed (h := hk) ho' [] ()
  rw [key _ ho, h] at h1
  rw [key _ ho', h1] at h2
  simpa [ShuntingYard.ok_bind'] using h2

/-- `(1 - 2) - 3 * (4 + 5)` over the algebraic table. -/
def sampleExpr : Expr (AlgTok Int) :=
  .bin .sub (.bin .sub (.leaf (.num 1)) (.leaf (.num 2)))
    (.bin .mul (.leaf (.num 3)) (.bin .add (.leaf (.num 4)) (.leaf (.num 5))))

example : (Alg.table : OpTable (AlgTok Int)).Sane := Alg.table_sane
example : sampleExpr.Over Alg.table := by
  simp [sampleExpr, Expr.Over, Alg.table, Dict.get?]
example : (sampleExpr.minimal Alg.table).text Alg.table =
    [.num 1, .sub, .num 2, .sub, .num 3, .mul, .lpar, .num 4, .add, .num 5, .rpar] := by decide
example : sampleExpr.rpn = [.num 1, .num 2, .sub, .num 3, .num 4, .num 5, .add, .mul, .sub] := by decide

/-- **C36.** An RPN deque fed with the postfix form of a tree ends up with exactly one more item, the one computed for
the root: `on_append` and `on_operation` have been called in postfix order with the items of the children. -/
theorem C36_rpn {U S : Type} {P : OpTable T} {h : RpnHooks T U S} {e : Expr T} (ho : e.Over P) (s : S) :
    (do Rpn.single (← e.rpn.foldlM (Rpn.append P.ops h) ([], s))) =
      (do let x ← Rpn.eval P.ops h e s; .ok (x.2, x.1)) := by
  rw [Rpn.feed ho]
  simp [Rpn.single, ShuntingYard.ok_bind']

/-- **C36.** `shunting_yard_ast` returns the AST of the expression: the root represents the expression, there is one vertex
per node, numbered in postfix order, and there are no other edges than those of the tree. -/
theorem C36_ast {P : OpTable T} (hP : P.Sane) {i : Infix T} (ho : i.expr.Over P) (he : i.Enough P) :
    ∃ t root, shuntingYardAst P (i.text P) = .ok (t, root) ∧ t.Represents root i.expr ∧
      t.g.vertices = List.range i.expr.size ∧ t.g.numEdges + 1 = i.expr.size ∧
      ∀ (k : Nat) a, i.expr.rpn[k]? = some a → t.symbol k = .ok a := by
  have h1 : shuntingYardAst P (i.text P) =
      .ok (⟨⟨i.expr.size, Ast.treeAdj 0 i.expr⟩, Ast.treeSym 0 i.expr⟩, 0 + i.expr.size - 1) := by
    rw [shuntingYardAst, ShuntingYard.run_text hP ho he, Rpn.feed ho]
    have := Ast.eval_tree ho 0 [] [] (by simp [Dict.keys]) (by simp [Dict.keys])
    rw [Ast.empty, Graph.empty, this]
    simp [Rpn.single, ShuntingYard.ok_bind']
  refine ⟨_, _, h1, Ast.represents i.expr 0 (a₁ := []) (a₂ := []) (s₁ := []) (s₂ := []) (by simp) (by simp)
    (by simp [Dict.keys]) (by simp [Dict.keys]), ?_, ?_, ?_⟩
  · show Dict.keys (Ast.treeAdj 0 i.expr) = _
    rw [Ast.keys_treeAdj, List.range_eq_range']
  · exact Ast.numEdges_tree i.expr 0
  · intro k a hk
    have hv := Ast.values_treeSym i.expr 0
    have hkeys := Ast.keys_treeSym i.expr 0
    rw [← hv] at hk
    simp only [Dict.values, List.getElem?_map, Option.map_eq_some_iff] at hk
    obtain ⟨p, hp, rfl⟩ := hk
    have hk' : (Dict.keys (Ast.treeSym 0 i.expr))[k]? = some p.1 := by simp [Dict.keys, hp]
    rw [hkeys] at hk'
    have hlt : k < i.expr.size := by
      have := (List.getElem?_eq_some_iff.1 hk').1
      simpa using this
    have hpk : p.1 = k := by
      rw [List.getElem?_range' (by simpa using hlt)] at hk'
      simp at hk'; omega
    have hnd : Dict.NodupKeys (Ast.treeSym 0 i.expr) := by
      show (Dict.keys (Ast.treeSym 0 i.expr)).Nodup
      rw [hkeys]; exact List.nodup_range'
    have hmem : (k, p.2) ∈ Ast.treeSym 0 i.expr := by
      rw [← hpk]; exact List.mem_of_getElem? hp
    exact Dict.getE_of_get? (Dict.get?_of_mem hnd hmem)

/-- The English statement of C36 for `shunting_yard_compute`. -/
def C36_statement : Prop :=
  ∀ (R : Arith Int) (i : Infix (AlgTok Int)), i.expr.Over Alg.table → i.Enough Alg.table →
    Alg.compute R (i.text Alg.table) = (i.expr.value R).map .num

/-- **C36 is false for the unary plus:** `+3` raises `ValueError`, since `RpnDequeAlg.on_operation` tests `"u-"` twice
and never `"u+"`. -/
theorem C36_compute_counterexample : ¬ C36_statement := by
  intro h
  have := h ⟨fun x y => .ok (x + y), fun x y => .ok (x - y), fun x y => .ok (x * y), fun x y => .ok (x / y),
    fun x _ => .ok x, fun x => .ok (-x)⟩ (.pre .uplus (.leaf (.num 3))) (by simp [Infix.expr, Expr.Over, Alg.table, Dict.get?])
    (by simp [Infix.Enough, Infix.head?])
  revert this
  decide

/-- **C36, partial.** `shunting_yard_compute` returns the value of the expression, or raises what the arithmetic raises,
unless the unary plus occurs. Missing: expressions with a unary plus, for which the statement is false. -/
theorem C36_compute_partial {K : Type} [DecidableEq K] (R : Arith K) {i : Infix (AlgTok K)} (ho : i.expr.Over Alg.table)
    (he : i.Enough Alg.table) (hn : i.expr.NoUplus) :
    Alg.compute R (i.text Alg.table) = (i.expr.value R).map .num := by
  rw [Alg.compute, ShuntingYard.run_text Alg.table_sane ho he, Rpn.feed ho, Alg.eval_value ho hn]
  cases i.expr.value R <;> simp [Rpn.single, ShuntingYard.ok_bind', Except.map] <;> rfl

/-- The required parentheses: `2 ^ -3` needs some, without them the operator `^` is applied before its second operand
is known and `IndexError` is raised. -/
example : Alg.compute ⟨fun x y => .ok (x + y), fun x y => .ok (x - y), fun x y => .ok (x * y), fun x y => .ok (x / y),
    fun x _ => .ok x, fun x => .ok (-x)⟩ [.num (2 : Int), .pow, .uminus, .num 3] = .error .indexError := by decide

example : Alg.compute ⟨fun x y => .ok (x + y), fun x y => .ok (x - y), fun x y => .ok (x * y), fun x y => .ok (x / y),
    fun x _ => .ok x, fun x => .ok (-x)⟩ ((sampleExpr.minimal Alg.table).text Alg.table) = .ok (.num (-28)) := by decide

/-- **C81.** `tokenizer_alg` tells the unary operators from the binary ones: the tokens found in the written form of an
infix expression are the expected ones. -/
theorem C81_tokenizer {K : Type} [DecidableEq K] {i : Infix (AlgTok K)} (ho : i.expr.Over Alg.table) (hn : i.NoPost) :
    Alg.tokens ((i.text Alg.table).map AlgTok.written) = .ok (i.text Alg.table) := by
  rw [Alg.tokens, Alg.read_chunks ho hn]
  simp [ShuntingYard.ok_bind']

/-- **C81.** From the written form to the value. -/
theorem C81_compute {K : Type} [DecidableEq K] (R : Arith K) {i : Infix (AlgTok K)} (ho : i.expr.Over Alg.table)
    (he : i.Enough Alg.table) (hp : i.NoPost) (hn : i.expr.NoUplus) :
    (do Alg.compute R (← Alg.tokens ((i.text Alg.table).map AlgTok.written))) = (i.expr.value R).map .num := by
  rw [C81_tokenizer ho hp]
  exact C36_compute_partial R ho he hn

/-- `-1 - -(2 + 3)`. -/
example : ((Infix.bin .sub (.pre .uminus (.leaf (.num (1 : Int))))
    (.paren (.pre .uminus (.paren (.bin .add (.leaf (.num 2)) (.leaf (.num 3))))))) : Infix (AlgTok Int)).Enough Alg.table := by
  simp [Infix.Enough, Infix.head?]; decide

/-- **C37.** The chunks concatenate to the input string. -/
theorem C37_concat {C : Type} (s : List C) {spans : List (Nat × Nat)} (h : SpansFrom s.length 0 spans) :
    ((tokenize s spans).map (·.chunk)).flatten = s := by
  simpa [tokenize] using tokenizeFrom_concat s spans 0 h

/-- **C37.** The chunks are not empty and carry their true position. -/
theorem C37_chunks {C : Type} (s : List C) (spans : List (Nat × Nat)) :
    ∀ ev ∈ tokenize s spans, ev.chunk ≠ [] ∧
      match ev with
      | .unmatched c i (some j) => c = (s.take j).drop i
      | .unmatched c i none => c = s.drop i
      | .matched c i j => c = (s.take j).drop i := by
  intro ev hev
  have := mem_tokenizeFrom s spans 0 ev hev
  exact this

/-- **C37.** The matched chunks are the non-empty matches of the tokenizer. -/
theorem C37_matched {C : Type} (s : List C) {spans : List (Nat × Nat)} (h : SpansFrom s.length 0 spans) :
    (tokenize s spans).filterMap TokenizeEvent.span? = spans.filter fun p => p.1 < p.2 :=
  tokenizeFrom_matched s spans 0 h

example : tokenize [1, 2, 3, 4, 5] [(1, 2), (2, 2), (2, 3)] =
    [.unmatched [1] 0 (some 1), .matched [2] 1 2, .matched [3] 2 3, .unmatched [4, 5] 3 none] := by decide
example : SpansFrom 5 0 [(1, 2), (2, 2), (2, 3)] := by simp [SpansFrom]

end PyBGL
