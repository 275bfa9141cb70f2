import Verif.Model.Heap

/-!
# Stable priority queues (specification)

The contents of a queue are listed in the order in which they were inserted.
-/

namespace PyBGL

/-- A total preorder. -/
structure TotalPreorder {κ : Type} (le : κ → κ → Prop) : Prop where
  total : ∀ x y, le x y ∨ le y x
  trans : ∀ x y z, le x y → le y z → le x z

/-- The operations `<` and `==` of the keys are those of the preorder `le`. -/
structure KeyOrd.Of {κ : Type} (o : KeyOrd κ) (le : κ → κ → Prop) : Prop where
  lt : ∀ x y, o.lt x y = true ↔ ¬ le y x
  eq : ∀ x y, o.eq x y = true ↔ le x y ∧ le y x

section
variable {κ α : Type} (le : κ → κ → Prop) (key : α → κ)

/-- `x` is the first of the elements of `xs` whose key is minimal, and `xs'` is what remains. -/
def FirstMin (xs : List α) (x : α) (xs' : List α) : Prop :=
  ∃ pre post, xs = pre ++ x :: post ∧ xs' = pre ++ post ∧ (∀ y ∈ pre, ¬ le (key y) (key x)) ∧ ∀ y ∈ post, le (key x) (key y)

/-- `ys` is the list `xs` sorted by increasing keys, elements of equivalent keys being kept in their order. -/
def StableSort (xs ys : List α) : Prop :=
  ys.Perm xs ∧ ys.Pairwise (fun x y => le (key x) (key y)) ∧
    ∀ (k : κ) (p : α → Bool), (∀ x, p x = true ↔ le (key x) k ∧ le k (key x)) → ys.filter p = xs.filter p

/-- The methods of `Heap` that modify it. -/
inductive HeapOp (α : Type) where
  | push (x : α)
  | pop
  deriving Repr

/-- `Queue xs ops outs ys`: from the contents `xs`, the calls `ops` return the elements `outs` and lead to the contents `ys`. -/
inductive Queue : List α → List (HeapOp α) → List α → List α → Prop
  | nil (xs : List α) : Queue xs [] [] xs
  | push {xs ops outs ys} (x : α) (h : Queue (xs ++ [x]) ops outs ys) : Queue xs (.push x :: ops) outs ys
  | pop {xs xs' ops outs ys} {x : α} (hx : FirstMin le key xs x xs') (h : Queue xs' ops outs ys) : Queue xs (.pop :: ops) (x :: outs) ys

end

/-- The calls `ops` on a heap: the elements returned by `pop`, and the heap afterwards. -/
def Heap.run {κ α : Type} (o : KeyOrd κ) (key : α → κ) (h : Heap κ α) : List (HeapOp α) → Except PyErr (List α × Heap κ α)
  | [] => .ok ([], h)
  | .push x :: ops => (h.push o key x).run o key ops
  | .pop :: ops =>
    match h.pop o with
    | .error e => .error e
    | .ok (x, h) =>
      match h.run o key ops with
      | .error e => .error e
      | .ok (outs, h) => .ok (x :: outs, h)

/-- The number of elements after each call is never negative: no `pop` on an empty heap. -/
def NoUnderflow {α : Type} : Nat → List (HeapOp α) → Prop
  | _, [] => True
  | n, .push _ :: ops => NoUnderflow (n + 1) ops
  | n, .pop :: ops => 0 < n ∧ NoUnderflow (n - 1) ops

end PyBGL
