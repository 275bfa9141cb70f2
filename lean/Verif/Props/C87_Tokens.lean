import Verif.Props.C87_AlgText

/-!
# C87: the tokens of an algebraic expression, whatever the text

The other theorems of C87 speak of the texts of expressions. This one gives the outcome of `tokenizer_alg` for every sequence of numbers and operators.
-/

namespace PyBGL
open Alg (Chunk)

/-- The token that `c` stands for if `before` comes just before it: a sign that begins the text or follows an operator, or an opening parenthesis, is unary; no
other operator may be found there. -/
def readChunk {K : Type} (before : Option (Chunk K)) (c : Chunk K) : Option (AlgTok K) :=
  match c, before with
  | .text x, _ => some (.num x)
  | .op .lpar, _ => some .lpar
  | .op .rpar, _ => some .rpar
  | .op a, some (.text _) => some a
  | .op a, some (.op .rpar) => some a
  | .op .add, _ => some .uplus
  | .op .sub, _ => some .uminus
  | .op _, _ => none

namespace Alg
variable {K : Type} [DecidableEq K]

/-- Whether a sign that follows `before` is unary. -/
def opens : Option (Chunk K) → Bool
  | none => true
  | some (.text _) => false
  | some (.op a) => decide (a ≠ .rpar)

theorem foldlM_onChunk (chunks : List (Chunk K)) : ∀ (before : Option (Chunk K)) (acc : List (AlgTok K)),
    (do let s ← chunks.foldlM onChunk (acc, opens before); .ok s.1.reverse : Except PyErr (List (AlgTok K))) =
      match (List.zipWith readChunk (before :: chunks.map some) chunks).mapM id with
      | some l => .ok (acc.reverse ++ l)
      | none => .error .runtimeError := by
  induction chunks with
  | nil => intro before acc; simp [pure, Except.pure, bind, Except.bind]
  | cons c chunks ih =>
    intro before acc
    rw [List.foldlM_cons, List.map_cons, List.zipWith_cons_cons, List.mapM_cons]
    have key : (∃ x, readChunk before c = some x ∧ onChunk (acc, opens before) c = .ok (x :: acc, opens (some c))) ∨
        (readChunk before c = none ∧ onChunk (acc, opens before) c = .error .runtimeError) := by
      rcases c with x | a
      · exact .inl ⟨_, rfl, rfl⟩
      · rcases before with _ | (y | a')
        · cases a <;> simp [readChunk, onChunk, opens]
        · cases a <;> simp [readChunk, onChunk, opens]
        · by_cases h : a' = .rpar
          · subst h
            cases a <;> simp [readChunk, onChunk, opens]
          · cases a <;> cases a' <;> simp_all [readChunk, onChunk, opens]
    rcases key with ⟨x, h1, h2⟩ | ⟨h1, h2⟩
    · rw [h1, h2]
      have := ih (some c) (x :: acc) 
      simp only [bind, Except.bind, id] at this ⊢
      rw [this]
      cases hm : (List.zipWith readChunk (some c :: chunks.map some) chunks).mapM id <;> simp
    · rw [h1, h2]
      rfl

end Alg

/-- **C87** (`tokenizer_alg`): the tokens of any sequence of numbers and operators. Each of them is read according to the one that comes before it; `RuntimeError` is
raised if and only if an operator other than a sign or a parenthesis begins the text or follows an operator or an opening parenthesis. -/
theorem C87_tokens_exact {K : Type} [DecidableEq K] (chunks : List (Chunk K)) :
    Alg.tokens chunks = match (List.zipWith readChunk (none :: chunks.map some) chunks).mapM id with
      | some l => .ok l
      | none => .error .runtimeError := by
  have := Alg.foldlM_onChunk chunks none []
  unfold Alg.tokens
  exact this

example : Alg.tokens ([.op .sub, .text 1, .op .sub, .op .lpar, .op .add, .text 2, .op .rpar, .op .sub, .op .sub, .text 3] : List (Chunk Int)) =
    .ok [.uminus, .num 1, .sub, .lpar, .uplus, .num 2, .rpar, .sub, .uminus, .num 3] := by decide

example : Alg.tokens ([.text 1, .op .add, .op .mul, .text 2] : List (Chunk Int)) = .error .runtimeError := by decide

end PyBGL
