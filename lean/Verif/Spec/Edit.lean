/-!
# Edit operations, edit scripts and alignments
-/

namespace PyBGL

/-- One edit operation somewhere in a word. -/
inductive EditStep {A : Type} : List A → List A → Prop
  | insert (u v : List A) (c : A) : EditStep (u ++ v) (u ++ c :: v)
  | delete (u v : List A) (c : A) : EditStep (u ++ c :: v) (u ++ v)
  | substitute (u v : List A) (c d : A) : EditStep (u ++ c :: v) (u ++ d :: v)

/-- One insertion or deletion somewhere in a word. -/
inductive IndelStep {A : Type} : List A → List A → Prop
  | insert (u v : List A) (c : A) : IndelStep (u ++ v) (u ++ c :: v)
  | delete (u v : List A) (c : A) : IndelStep (u ++ c :: v) (u ++ v)

/-- `Steps R n x y`: `n` steps of `R` lead from `x` to `y`. -/
inductive Steps {X : Type} (R : X → X → Prop) : Nat → X → X → Prop
  | refl (x : X) : Steps R 0 x x
  | tail {n : Nat} {x y z : X} (h : Steps R n x y) (s : R y z) : Steps R (n + 1) x z

/-- `Align sub swap n x y`: an alignment of cost `n` of `x` and `y`, reading both words from left to right;
every symbol is matched, deleted, inserted, substituted (if `sub`) or belongs to one transposition of two
adjacent symbols (if `swap`). -/
inductive Align {A : Type} (sub swap : Prop) : Nat → List A → List A → Prop
  | nil : Align sub swap 0 [] []
  | keep {n : Nat} {x y : List A} (a : A) (h : Align sub swap n x y) : Align sub swap n (a :: x) (a :: y)
  | del {n : Nat} {x y : List A} (a : A) (h : Align sub swap n x y) : Align sub swap (n + 1) (a :: x) y
  | ins {n : Nat} {x y : List A} (b : A) (h : Align sub swap n x y) : Align sub swap (n + 1) x (b :: y)
  | subst {n : Nat} {x y : List A} (hs : sub) (a b : A) (h : Align sub swap n x y) :
      Align sub swap (n + 1) (a :: x) (b :: y)
  | transpose {n : Nat} {x y : List A} (hs : swap) (a b : A) (h : Align sub swap n x y) :
      Align sub swap (n + 1) (a :: b :: x) (b :: a :: y)

/-- `n` is the least element of `P`. -/
def IsLeastNat (P : Nat → Prop) (n : Nat) : Prop := P n ∧ ∀ m, P m → n ≤ m

/-- A metric with natural values. -/
structure IsMetric {X : Type} (d : X → X → Nat) : Prop where
  zero_iff : ∀ x y, d x y = 0 ↔ x = y
  symm : ∀ x y, d x y = d y x
  triangle : ∀ x y z, d x z ≤ d x y + d y z

end PyBGL
