import Verif.Proofs.ShuntingYard

/-!
# Proofs about the RPN deques
-/

namespace PyBGL
namespace Rpn
variable {T U S : Type} [DecidableEq T]
open ShuntingYard (ok_bind')

/-- Evaluation of a tree through the hooks, in postfix order. -/
def eval (ops : Dict T Op) (h : RpnHooks T U S) : Expr T → S → Except PyErr (U × S)
  | .leaf a, s => h.onAppend a s
  | .un o e, s => do
    let x ← eval ops h e s
    let u ← h.onAppend o x.2
    match ops.get? o with
    | some op => h.onOperation o op u.1 [x.1] u.2
    | none => .error .keyError
  | .bin o l r, s => do
    let x ← eval ops h l s
    let y ← eval ops h r x.2
    let u ← h.onAppend o y.2
    match ops.get? o with
    | some op => h.onOperation o op u.1 [x.1, y.1] u.2
    | none => .error .keyError

theorem _root_.PyBGL.Expr.Over.arity {P : OpTable T} : ∀ {e : Expr T}, e.Over P → e.Arity P.ops
  | .leaf _, h => h.1
  | .un _ _, h => ⟨h.1, h.2.arity⟩
  | .bin _ _ _, h => ⟨h.1, h.2.1.arity, h.2.2.arity⟩

theorem feed_arity {ops : Dict T Op} {h : RpnHooks T U S} : ∀ {e : Expr T}, e.Arity ops → ∀ (D : List U) (s : S),
    e.rpn.foldlM (append ops h) (D, s) = (do let x ← eval ops h e s; .ok (x.1 :: D, x.2))
  | .leaf a, ho, D, s => by
    simp only [Expr.Arity] at ho
    simp [Expr.rpn, append, ho, eval]
  | .un o e, ho, D, s => by
    obtain ⟨⟨p, hp, hc⟩, ho⟩ := ho
    simp [Expr.rpn, List.foldlM_append, feed_arity ho, append, hp, hc, popArgs, eval, ok_bind']
  | .bin o l r, ho, D, s => by
    obtain ⟨⟨p, hp, hc⟩, hl, hr⟩ := ho
    simp [Expr.rpn, List.foldlM_append, feed_arity hl, feed_arity hr, append, hp, hc, popArgs, eval, ok_bind']

theorem feed {P : OpTable T} {h : RpnHooks T U S} {e : Expr T} (ho : e.Over P) (D : List U) (s : S) :
    e.rpn.foldlM (append P.ops h) (D, s) = (do let x ← eval P.ops h e s; .ok (x.1 :: D, x.2)) := feed_arity ho.arity D s

end Rpn

/-! ## The value of an algebraic expression -/

namespace Alg
variable {K : Type} [DecidableEq K]
open ShuntingYard (ok_bind')

theorem table_sane : (table : OpTable (AlgTok K)).Sane := ⟨by simp [table], by simp [table, Dict.get?], by simp [table, Dict.get?]⟩

theorem leaf_num {a : AlgTok K} (h : (Expr.leaf a).Over (table : OpTable (AlgTok K))) : ∃ x, a = .num x := by
  obtain ⟨h1, h2, h3⟩ := h
  cases a <;> simp_all [table, Dict.get?]

theorem un_op {o : AlgTok K} {p : Op} (h : (table : OpTable (AlgTok K)).ops.get? o = some p) (hc : p.cardinality = 1) :
    o = .uplus ∨ o = .uminus := by
  cases o <;> simp [table, Dict.get?] at h ⊢ <;> subst h <;> simp at hc

theorem bin_op {o : AlgTok K} {p : Op} (h : (table : OpTable (AlgTok K)).ops.get? o = some p) (hc : p.cardinality = 2) :
    o = .add ∨ o = .sub ∨ o = .mul ∨ o = .div ∨ o = .pow := by
  cases o <;> simp [table, Dict.get?] at h ⊢ <;> subst h <;> simp at hc

theorem hooks_append (R : Arith K) (a : AlgTok K) (s : Unit) : (hooks R).onAppend a s = .ok (a.item, s) := rfl

theorem hooks_operation (R : Arith K) (a : AlgTok K) (op : Op) (u : AlgVal K) (vs : List (AlgVal K)) (s : Unit) :
    (hooks R).onOperation a op u vs s = (do let u ← onOperation R a op vs; .ok (u, s)) := rfl

/-- The deque computes the outcome of the tree. -/
theorem eval_outcome {R : Arith K} : ∀ {e : Expr (AlgTok K)}, e.Arity table.ops →
    Rpn.eval table.ops (hooks R) e () = (do let x ← e.outcome R; .ok (x, ()))
  | .leaf a, _ => rfl
  | .un o e, ho => by
    obtain ⟨⟨p, hp, hc⟩, ho⟩ := ho
    have ih := eval_outcome (R := R) ho
    simp only [Rpn.eval, ih, bind_assoc, ok_bind', Expr.outcome, hooks_append, hooks_operation, hp]
    cases e.outcome R with
    | error x => rfl
    | ok x =>
      simp only [ok_bind', onOperation, hc, List.length_cons, List.length_nil, Nat.zero_add, if_true]
      rcases un_op hp hc with rfl | rfl
      · rfl
      · cases x <;> rfl
  | .bin o l r, ho => by
    obtain ⟨⟨p, hp, hc⟩, hl, hr⟩ := ho
    have ihl := eval_outcome (R := R) hl
    have ihr := eval_outcome (R := R) hr
    simp only [Rpn.eval, ihl, ihr, bind_assoc, ok_bind', Expr.outcome, hooks_append, hooks_operation, hp]
    cases l.outcome R with
    | error x => rfl
    | ok x =>
      simp only [ok_bind']
      cases r.outcome R with
      | error y => rfl
      | ok y =>
        simp only [ok_bind', onOperation, hc, List.length_cons, List.length_nil, Nat.zero_add, if_true]
        rcases bin_op hp hc with rfl | rfl | rfl | rfl | rfl <;> cases x <;> cases y <;> rfl

/-- Without parentheses nor unary plus, the outcome is the value. -/
theorem outcome_value {R : Arith K} : ∀ {e : Expr (AlgTok K)}, e.Over table → e.NoUplus → e.outcome R = (e.value R).map .num
  | .leaf a, ho, _ => by
    obtain ⟨x, rfl⟩ := leaf_num ho
    rfl
  | .un o e, ho, hn => by
    obtain ⟨⟨p, hp, hc⟩, ho⟩ := ho
    rcases un_op hp hc with rfl | rfl
    · exact absurd rfl hn.1
    · rw [Expr.outcome, outcome_value ho hn.2, Expr.value]
      cases e.value R <;> rfl
  | .bin o l r, ho, hn => by
    obtain ⟨⟨p, hp, hc⟩, hl, hr⟩ := ho
    rw [Expr.outcome, outcome_value hl hn.1, outcome_value hr hn.2]
    rcases bin_op hp hc with rfl | rfl | rfl | rfl | rfl <;> rw [Expr.value] <;> cases l.value R <;> cases r.value R <;> rfl

theorem eval_value {R : Arith K} {e : Expr (AlgTok K)} (ho : e.Over table) (hn : e.NoUplus) :
    Rpn.eval table.ops (hooks R) e () = (do let x ← e.value R; .ok (.num x, ())) := by
  rw [eval_outcome ho.arity, outcome_value ho hn]
  cases e.value R <;> rfl

/-! ### Tokens -/

theorem read_chunks : ∀ {e : Infix (AlgTok K)}, e.expr.Over table → e.NoPost → ∀ acc,
    ((e.text table).map AlgTok.written).foldlM onChunk (acc, true) = .ok ((e.text table).reverse ++ acc, false)
  | .leaf a, ho, _, acc => by
    obtain ⟨x, rfl⟩ := leaf_num ho
    rfl
  | .paren e, ho, hn, acc => by
    have := read_chunks (e := e) ho hn (.lpar :: acc)
    simp only [Infix.text, List.map_append, List.map_cons, List.foldlM_cons, List.foldlM_append, List.cons_append,
      List.map_nil, List.foldlM_nil]
    have h1 : onChunk (acc, true) (AlgTok.written (table : OpTable (AlgTok K)).lpar) = .ok (.lpar :: acc, true) := rfl
    rw [h1, ok_bind', this, ok_bind']
    simp [table, AlgTok.written, onChunk, ok_bind']
  | .pre o e, ho, hn, acc => by
    obtain ⟨⟨p, hp, hc⟩, ho⟩ := ho
    have := read_chunks (e := e) ho hn (o :: acc)
    have h1 : onChunk (acc, true) (AlgTok.written o) = .ok (o :: acc, true) := by
      rcases un_op hp hc with rfl | rfl <;> rfl
    simp only [Infix.text, List.map_cons, List.foldlM_cons, h1, ok_bind', this]
    simp
  | .bin o l r, ho, hn, acc => by
    obtain ⟨⟨p, hp, hc⟩, hl, hr⟩ := ho
    have h1 := read_chunks (e := l) hl hn.1 acc
    have h3 := read_chunks (e := r) hr hn.2 (o :: ((l.text table).reverse ++ acc))
    have h2 : ∀ acc, onChunk (acc, false) (AlgTok.written o) = .ok (o :: acc, true) := by
      rcases bin_op hp hc with rfl | rfl | rfl | rfl | rfl <;> intro acc <;> simp [onChunk, AlgTok.written]
    simp only [Infix.text, List.map_append, List.map_cons, List.foldlM_append, List.foldlM_cons, h1, ok_bind', h2, h3]
    simp

end Alg

/-! ## The AST -/

namespace Ast
variable {T : Type} [DecidableEq T]
open ShuntingYard (ok_bind')

/-- The adjacencies of the tree of an expression whose vertices are numbered from `n`. -/
def treeAdj : Nat → Expr T → Dict Nat (Dict Nat (List Nat))
  | n, .leaf _ => [(n, [])]
  | n, .un _ e => treeAdj n e ++ [(n + e.size, [(n + e.size - 1, [0])])]
  | n, .bin _ l r => treeAdj n l ++ treeAdj (n + l.size) r ++
    [(n + l.size + r.size, [(n + l.size - 1, [0]), (n + l.size + r.size - 1, [0])])]

/-- The symbols of the tree of an expression whose vertices are numbered from `n`. -/
def treeSym : Nat → Expr T → Dict Nat T
  | n, .leaf a => [(n, a)]
  | n, .un o e => treeSym n e ++ [(n + e.size, o)]
  | n, .bin o l r => treeSym n l ++ treeSym (n + l.size) r ++ [(n + l.size + r.size, o)]

theorem range_app (n k : Nat) : List.range' 0 n ++ List.range' n k = List.range' 0 (n + k) := by
  have := List.range'_append (s := 0) (m := n) (n := k) (step := 1)
  simpa using this

theorem size_pos (e : Expr T) : 0 < e.size := by cases e <;> simp [Expr.size]

theorem keys_append {K V : Type} (d d' : Dict K V) : Dict.keys (d ++ d') = Dict.keys d ++ Dict.keys d' := by
  simp [Dict.keys]

theorem keys_treeAdj : ∀ (e : Expr T) (n : Nat), Dict.keys (treeAdj n e) = List.range' n e.size
  | .leaf a, n => rfl
  | .un o e, n => by
    rw [treeAdj, keys_append, keys_treeAdj e, Expr.size, List.range'_concat]; simp [Dict.keys]
  | .bin o l r, n => by
    rw [treeAdj, keys_append, keys_append, keys_treeAdj l, keys_treeAdj r, Expr.size, List.range'_concat,
      ← List.range'_append]
    simp [Dict.keys, Nat.add_assoc]

theorem keys_treeSym : ∀ (e : Expr T) (n : Nat), Dict.keys (treeSym n e) = List.range' n e.size
  | .leaf a, n => rfl
  | .un o e, n => by
    rw [treeSym, keys_append, keys_treeSym e, Expr.size, List.range'_concat]; simp [Dict.keys]
  | .bin o l r, n => by
    rw [treeSym, keys_append, keys_append, keys_treeSym l, keys_treeSym r, Expr.size, List.range'_concat,
      ← List.range'_append]
    simp [Dict.keys, Nat.add_assoc]

/-- The symbols, in the order of the vertices, form the postfix form. -/
theorem values_treeSym : ∀ (e : Expr T) (n : Nat), Dict.values (treeSym n e) = e.rpn
  | .leaf a, n => rfl
  | .un o e, n => by
    have := values_treeSym e n
    simp only [Dict.values] at this
    simp [treeSym, Dict.values, Expr.rpn, this]
  | .bin o l r, n => by
    have h1 := values_treeSym l n
    have h2 := values_treeSym r (n + l.size)
    simp only [Dict.values] at h1 h2
    simp [treeSym, Dict.values, Expr.rpn, h1, h2]

theorem set_last {K V : Type} [DecidableEq K] (d : Dict K V) (k : K) (v w : V) (h : k ∉ Dict.keys d) :
    Dict.set (d ++ [(k, v)]) k w = d ++ [(k, w)] := by
  induction d with
  | nil => simp [Dict.set]
  | cons p d ih =>
    simp only [Dict.keys, List.map_cons, List.mem_cons, not_or] at h
    have : ¬ p.1 = k := fun e => h.1 e.symm
    simp [Dict.set, this, ih h.2]

theorem addEdge_last (adj : Dict Nat (Dict Nat (List Nat))) (n u v : Nat) (vs : Dict Nat (List Nat))
    (h : u ∉ Dict.keys adj) (hv : v ∉ Dict.keys vs) :
    Graph.addEdge ⟨n, adj ++ [(u, vs)]⟩ u v = .ok (⟨u, v, 0⟩, ⟨n, adj ++ [(u, vs ++ [(v, [0])])]⟩) := by
  have h1 : Dict.get? (adj ++ [(u, vs)]) u = some vs := by
    rw [Dict.get?_append, (Dict.get?_eq_none_iff _ _).2 h]; simp
  simp only [Graph.addEdge, Dict.getE_of_get? h1, ok_bind', (Dict.get?_eq_none_iff _ _).2 hv, set_last _ _ _ _ h,
    Dict.set_of_not_mem _ _ _ hv]

theorem eval_arity {ops : Dict T Op} : ∀ {e : Expr T}, e.Arity ops → ∀ (n : Nat) (adj : Dict Nat (Dict Nat (List Nat)))
    (sym : Dict Nat T), Dict.keys adj = List.range' 0 n → Dict.keys sym = List.range' 0 n →
    Rpn.eval ops hooks e ⟨⟨n, adj⟩, sym⟩ =
      .ok (n + e.size - 1, ⟨⟨n + e.size, adj ++ treeAdj n e⟩, sym ++ treeSym n e⟩)
  | .leaf a, ho, n, adj, sym, h1, h2 => by
    have k1 : n ∉ Dict.keys adj := by rw [h1]; simp
    have k2 : n ∉ Dict.keys sym := by rw [h2]; simp
    simp [Rpn.eval, hooks, addVertex, Graph.addVertex, Expr.size, treeAdj, treeSym, Dict.set_of_not_mem _ _ _ k1,
      Dict.set_of_not_mem _ _ _ k2]
  | .un o e, ho, n, adj, sym, h1, h2 => by
    obtain ⟨⟨p, hp, hc⟩, ho⟩ := ho
    have ih := eval_arity ho n adj sym h1 h2
    have q1 : Dict.keys (adj ++ treeAdj n e) = List.range' 0 (n + e.size) := by
      rw [keys_append, h1, keys_treeAdj, range_app]
    have q2 : Dict.keys (sym ++ treeSym n e) = List.range' 0 (n + e.size) := by
      rw [keys_append, h2, keys_treeSym, range_app]
    have k1 : n + e.size ∉ Dict.keys (adj ++ treeAdj n e) := by rw [q1]; simp
    have k2 : n + e.size ∉ Dict.keys (sym ++ treeSym n e) := by rw [q2]; simp
    simp only [Rpn.eval, ih, ok_bind', hp]
    simp only [hooks, ok_bind', addVertex, Graph.addVertex, Dict.set_of_not_mem _ _ _ k1, Dict.set_of_not_mem _ _ _ k2,
      addEdges]
    rw [addEdge_last _ _ _ _ _ k1 (by simp [Dict.keys])]
    simp [ok_bind', Expr.size, treeAdj, treeSym, Nat.add_assoc]
  | .bin o l r, ho, n, adj, sym, h1, h2 => by
    obtain ⟨⟨p, hp, hc⟩, hl, hr⟩ := ho
    have ih := eval_arity hl n adj sym h1 h2
    have q1 : Dict.keys (adj ++ treeAdj n l) = List.range' 0 (n + l.size) := by
      rw [keys_append, h1, keys_treeAdj, range_app]
    have q2 : Dict.keys (sym ++ treeSym n l) = List.range' 0 (n + l.size) := by
      rw [keys_append, h2, keys_treeSym, range_app]
    have ih' := eval_arity hr (n + l.size) _ _ q1 q2
    have q1' : Dict.keys (adj ++ treeAdj n l ++ treeAdj (n + l.size) r) = List.range' 0 (n + l.size + r.size) := by
      rw [keys_append, q1, keys_treeAdj, range_app]
    have q2' : Dict.keys (sym ++ treeSym n l ++ treeSym (n + l.size) r) = List.range' 0 (n + l.size + r.size) := by
      rw [keys_append, q2, keys_treeSym, range_app]
    have k1 : n + l.size + r.size ∉ Dict.keys (adj ++ treeAdj n l ++ treeAdj (n + l.size) r) := by rw [q1']; simp
    have k2 : n + l.size + r.size ∉ Dict.keys (sym ++ treeSym n l ++ treeSym (n + l.size) r) := by rw [q2']; simp
    have e1 := size_pos l
    have e2 := size_pos r
    simp only [Rpn.eval, ih, ih', ok_bind', hp]
    simp only [hooks, ok_bind', addVertex, Graph.addVertex, Dict.set_of_not_mem _ _ _ k1, Dict.set_of_not_mem _ _ _ k2,
      addEdges]
    rw [addEdge_last _ _ _ _ _ k1 (by simp [Dict.keys])]
    simp only [ok_bind']
    rw [addEdge_last _ _ _ _ _ k1 (by simp [Dict.keys]; omega)]
    simp only [ok_bind', Expr.size, treeAdj, treeSym, List.append_assoc, List.nil_append, List.singleton_append,
      ← Nat.add_assoc, Nat.add_sub_cancel]

theorem eval_tree {P : OpTable T} {e : Expr T} (ho : e.Over P) (n : Nat) (adj : Dict Nat (Dict Nat (List Nat)))
    (sym : Dict Nat T) (h1 : Dict.keys adj = List.range' 0 n) (h2 : Dict.keys sym = List.range' 0 n) :
    Rpn.eval P.ops hooks e ⟨⟨n, adj⟩, sym⟩ =
      .ok (n + e.size - 1, ⟨⟨n + e.size, adj ++ treeAdj n e⟩, sym ++ treeSym n e⟩) := eval_arity ho.arity n adj sym h1 h2

/-- The tree of an expression, seen from a larger AST. -/
theorem represents {t : Ast T} : ∀ (e : Expr T) (n : Nat) {a₁ a₂ : Dict Nat (Dict Nat (List Nat))} {s₁ s₂ : Dict Nat T},
    t.g.adj = a₁ ++ treeAdj n e ++ a₂ → t.sym = s₁ ++ treeSym n e ++ s₂ →
    Dict.keys a₁ = List.range' 0 n → Dict.keys s₁ = List.range' 0 n → t.Represents (n + e.size - 1) e
  | .leaf a, n, a₁, a₂, s₁, s₂, h1, h2, h3, h4 => by
    have k1 : n ∉ Dict.keys a₁ := by rw [h3]; simp
    have k2 : n ∉ Dict.keys s₁ := by rw [h4]; simp
    simp [Represents, symbol, children, Graph.outEdges, h1, h2, treeAdj, treeSym, Dict.getE, Dict.getD, Dict.get?_append,
      (Dict.get?_eq_none_iff _ _).2 k1, (Dict.get?_eq_none_iff _ _).2 k2, Expr.size]
  | .un o e, n, a₁, a₂, s₁, s₂, h1, h2, h3, h4 => by
    have q1 : Dict.keys (a₁ ++ treeAdj n e) = List.range' 0 (n + e.size) := by
      rw [keys_append, h3, keys_treeAdj, range_app]
    have q2 : Dict.keys (s₁ ++ treeSym n e) = List.range' 0 (n + e.size) := by
      rw [keys_append, h4, keys_treeSym, range_app]
    have k1 : n + e.size ∉ Dict.keys (a₁ ++ treeAdj n e) := by rw [q1]; simp
    have k2 : n + e.size ∉ Dict.keys (s₁ ++ treeSym n e) := by rw [q2]; simp
    have hr := represents e n (a₂ := [(n + e.size, [(n + e.size - 1, [0])])] ++ a₂) (s₂ := [(n + e.size, o)] ++ s₂)
      (by rw [h1]; simp [treeAdj]) (by rw [h2]; simp [treeSym]) h3 h4
    have g1 : t.g.adj.get? (n + e.size) = some [(n + e.size - 1, [0])] := by
      rw [h1, treeAdj, ← List.append_assoc, List.append_assoc, Dict.get?_append,
        (Dict.get?_eq_none_iff _ _).2 k1]; simp
    have g2 : t.sym.get? (n + e.size) = some o := by
      rw [h2, treeSym, ← List.append_assoc, List.append_assoc, Dict.get?_append,
        (Dict.get?_eq_none_iff _ _).2 k2]; simp
    have hs : n + (Expr.un o e).size - 1 = n + e.size := by simp only [Expr.size]; omega
    rw [hs]
    refine ⟨by simp [symbol, Dict.getE, g2], n + e.size - 1, ?_, hr⟩
    simp [children, Graph.outEdges, Dict.getD, g1]
  | .bin o l r, n, a₁, a₂, s₁, s₂, h1, h2, h3, h4 => by
    have q1 : Dict.keys (a₁ ++ treeAdj n l) = List.range' 0 (n + l.size) := by
      rw [keys_append, h3, keys_treeAdj, range_app]
    have q2 : Dict.keys (s₁ ++ treeSym n l) = List.range' 0 (n + l.size) := by
      rw [keys_append, h4, keys_treeSym, range_app]
    have q1' : Dict.keys (a₁ ++ treeAdj n l ++ treeAdj (n + l.size) r) = List.range' 0 (n + l.size + r.size) := by
      rw [keys_append, q1, keys_treeAdj, range_app]
    have q2' : Dict.keys (s₁ ++ treeSym n l ++ treeSym (n + l.size) r) = List.range' 0 (n + l.size + r.size) := by
      rw [keys_append, q2, keys_treeSym, range_app]
    have k1 : n + l.size + r.size ∉ Dict.keys (a₁ ++ treeAdj n l ++ treeAdj (n + l.size) r) := by rw [q1']; simp
    have k2 : n + l.size + r.size ∉ Dict.keys (s₁ ++ treeSym n l ++ treeSym (n + l.size) r) := by rw [q2']; simp
    have hl := represents l n (a₁ := a₁) (s₁ := s₁) (a₂ := treeAdj (n + l.size) r ++
        [(n + l.size + r.size, [(n + l.size - 1, [0]), (n + l.size + r.size - 1, [0])])] ++ a₂)
      (s₂ := treeSym (n + l.size) r ++ [(n + l.size + r.size, o)] ++ s₂)
      (by rw [h1]; simp [treeAdj]) (by rw [h2]; simp [treeSym]) h3 h4
    have hr := represents r (n + l.size) (a₁ := a₁ ++ treeAdj n l) (s₁ := s₁ ++ treeSym n l)
      (a₂ := [(n + l.size + r.size, [(n + l.size - 1, [0]), (n + l.size + r.size - 1, [0])])] ++ a₂)
      (s₂ := [(n + l.size + r.size, o)] ++ s₂)
      (by rw [h1]; simp [treeAdj]) (by rw [h2]; simp [treeSym]) q1 q2
    have g1 : t.g.adj.get? (n + l.size + r.size) = some [(n + l.size - 1, [0]), (n + l.size + r.size - 1, [0])] := by
      have : t.g.adj = (a₁ ++ treeAdj n l ++ treeAdj (n + l.size) r) ++
          ([(n + l.size + r.size, [(n + l.size - 1, [0]), (n + l.size + r.size - 1, [0])])] ++ a₂) := by
        rw [h1]; simp [treeAdj]
      rw [this, Dict.get?_append, (Dict.get?_eq_none_iff _ _).2 k1]; simp
    have g2 : t.sym.get? (n + l.size + r.size) = some o := by
      have : t.sym = (s₁ ++ treeSym n l ++ treeSym (n + l.size) r) ++ ([(n + l.size + r.size, o)] ++ s₂) := by
        rw [h2]; simp [treeSym]
      rw [this, Dict.get?_append, (Dict.get?_eq_none_iff _ _).2 k2]; simp
    have hs : n + (Expr.bin o l r).size - 1 = n + l.size + r.size := by simp only [Expr.size]; omega
    rw [hs]
    refine ⟨by simp [symbol, Dict.getE, g2], n + l.size - 1, n + l.size + r.size - 1, ?_, hl, hr⟩
    simp [children, Graph.outEdges, Dict.getD, g1]

theorem numEdges_tree : ∀ (e : Expr T) (n : Nat),
    ((treeAdj n e).flatMap fun p => p.2.flatMap fun q => q.2.map fun k => (⟨p.1, q.1, k⟩ : EdgeDesc Nat)).length + 1 = e.size
  | .leaf a, n => rfl
  | .un o e, n => by
    have := numEdges_tree e n
    simp only [treeAdj, List.flatMap_append, List.length_append, Expr.size]
    simp at this ⊢; omega
  | .bin o l r, n => by
    have h1 := numEdges_tree l n
    have h2 := numEdges_tree r (n + l.size)
    simp only [treeAdj, List.flatMap_append, List.length_append, Expr.size]
    simp at h1 h2 ⊢; omega

end Ast

/-! ## `tokenize` -/

theorem slice_append_drop {C : Type} (s : List C) {i j : Nat} (h : i ≤ j) : slice s i j ++ s.drop j = s.drop i := by
  have : s.drop i = (s.take j ++ s.drop j).drop i := by rw [List.take_append_drop]
  rw [this, slice]
  by_cases hj : j ≤ s.length
  · rw [List.drop_append_of_le_length (by rw [List.length_take]; omega)]
  · have h1 : s.drop j = [] := List.drop_eq_nil_of_le (by omega)
    simp [h1]

theorem tokenizeFrom_concat {C : Type} (s : List C) : ∀ (spans : List (Nat × Nat)) (start : Nat),
    SpansFrom s.length start spans → ((tokenizeFrom s start spans).map (·.chunk)).flatten = s.drop start
  | [], start, _ => by
    simp only [tokenizeFrom]
    split
    · rename_i h; simp only [List.isEmpty_iff] at h; simp [h]
    · simp [TokenizeEvent.chunk]
  | (i, j) :: spans, start, h => by
    obtain ⟨h1, h2, h3⟩ := h
    have ih := tokenizeFrom_concat s spans j h3
    simp only [tokenizeFrom, List.map_append, List.flatten_append, ih]
    have e1 : ((if (slice s start i).isEmpty then [] else [TokenizeEvent.unmatched (slice s start i) start (some i)]).map
        (·.chunk)).flatten = slice s start i := by
      split
      · rename_i h; simp only [List.isEmpty_iff] at h; simp [h]
      · simp [TokenizeEvent.chunk]
    have e2 : ((if (slice s i j).isEmpty then [] else [TokenizeEvent.matched (slice s i j) i j]).map
        (·.chunk)).flatten = slice s i j := by
      split
      · rename_i h; simp only [List.isEmpty_iff] at h; simp [h]
      · simp [TokenizeEvent.chunk]
    rw [e1, e2, List.append_assoc, slice_append_drop s h2, slice_append_drop s h1]

theorem mem_tokenizeFrom {C : Type} (s : List C) : ∀ (spans : List (Nat × Nat)) (start : Nat) (ev : TokenizeEvent C),
    ev ∈ tokenizeFrom s start spans → ev.chunk ≠ [] ∧
      match ev with
      | .unmatched c i (some j) => c = slice s i j
      | .unmatched c i none => c = s.drop i
      | .matched c i j => c = slice s i j
  | [], start, ev, h => by
    simp only [tokenizeFrom] at h
    split at h
    · simp at h
    · rename_i hc
      simp only [List.mem_singleton] at h; subst h
      exact ⟨by simpa [TokenizeEvent.chunk] using hc, rfl⟩
  | (i, j) :: spans, start, ev, h => by
    simp only [tokenizeFrom, List.mem_append] at h
    rcases h with (h | h) | h
    · split at h
      · simp at h
      · rename_i hc
        simp only [List.mem_singleton] at h; subst h
        exact ⟨by simpa [TokenizeEvent.chunk] using hc, rfl⟩
    · split at h
      · simp at h
      · rename_i hc
        simp only [List.mem_singleton] at h; subst h
        exact ⟨by simpa [TokenizeEvent.chunk] using hc, rfl⟩
    · exact mem_tokenizeFrom s spans j ev h

theorem spansFrom_le {n : Nat} : ∀ {spans : List (Nat × Nat)} {start : Nat}, SpansFrom n start spans → start ≤ n
  | [], _, h => h
  | (i, j) :: _, _, h => by
    have := spansFrom_le h.2.2
    have := h.1; have := h.2.1; omega

theorem tokenizeFrom_matched {C : Type} (s : List C) : ∀ (spans : List (Nat × Nat)) (start : Nat),
    SpansFrom s.length start spans → (tokenizeFrom s start spans).filterMap TokenizeEvent.span? =
      spans.filter fun p => p.1 < p.2
  | [], start, _ => by
    simp only [tokenizeFrom]
    split <;> simp [TokenizeEvent.span?]
  | (i, j) :: spans, start, h => by
    have hl := spansFrom_le h.2.2
    have ih := tokenizeFrom_matched s spans j h.2.2
    have hlen : (slice s i j).length = j - i := by simp [slice]; omega
    simp only [tokenizeFrom, List.filterMap_append, ih]
    have e1 : (if (slice s start i).isEmpty then [] else
        [TokenizeEvent.unmatched (slice s start i) start (some i)]).filterMap TokenizeEvent.span? = [] := by
      split <;> simp [TokenizeEvent.span?]
    rw [e1]
    by_cases hij : i < j
    · have : (slice s i j).isEmpty = false := by
        cases hs : slice s i j with
        | nil => rw [hs] at hlen; simp at hlen; omega
        | cons => rfl
      simp [this, TokenizeEvent.span?, hij]
    · have : (slice s i j).isEmpty = true := by
        cases hs : slice s i j with
        | nil => rfl
        | cons => rw [hs] at hlen; simp at hlen; omega
      simp [this, hij]

end PyBGL
