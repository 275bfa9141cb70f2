import Verif.Prelude.Py

/-!
# Model of `heap.py`

`Heap` rests on the module `heapq` of the standard library, which is not part of /repo; its algorithms (CPython, Lib/heapq.py) are modelled too, so
that nothing about them is assumed.
-/

namespace PyBGL

/-! ## `heapq` -/

namespace Heapq
variable {α : Type}

/-- The loop of `heapq._siftdown` (CPython, Lib/heapq.py), which stops after at most `pos` iterations; `x` is `newitem`. -/
def siftdownLoop (lt : α → α → Bool) (start : Nat) (x : α) : Nat → List α → Nat → List α × Nat
  | 0, l, pos => (l, pos)
  | fuel + 1, l, pos =>
    if start < pos then
      match l[(pos - 1) / 2]? with
      | none => (l, pos)
      | some parent => if lt x parent then siftdownLoop lt start x fuel (l.set pos parent) ((pos - 1) / 2) else (l, pos)
    else (l, pos)

/-- `heapq._siftdown(heap, startpos, pos)`. -/
def siftdown (lt : α → α → Bool) (l : List α) (start pos : Nat) : List α :=
  match l[pos]? with
  | none => l
  | some x => (siftdownLoop lt start x pos l pos).1.set (siftdownLoop lt start x pos l pos).2 x

/-- The loop of `heapq._siftup`, which stops after at most `len(heap)` iterations. -/
def siftupLoop (lt : α → α → Bool) : Nat → List α → Nat → List α × Nat
  | 0, l, pos => (l, pos)
  | fuel + 1, l, pos =>
    match l[2 * pos + 1]? with
    | none => (l, pos)
    | some left =>
      match l[2 * pos + 2]? with
      | none => siftupLoop lt fuel (l.set pos left) (2 * pos + 1)
      | some right =>
        if lt left right then siftupLoop lt fuel (l.set pos left) (2 * pos + 1) else siftupLoop lt fuel (l.set pos right) (2 * pos + 2)

/-- `heapq._siftup(heap, pos)`. -/
def siftup (lt : α → α → Bool) (l : List α) (pos : Nat) : List α :=
  match l[pos]? with
  | none => l
  | some x => siftdown lt ((siftupLoop lt l.length l pos).1.set (siftupLoop lt l.length l pos).2 x) pos (siftupLoop lt l.length l pos).2

/-- `heapq.heapify`. -/
def heapify (lt : α → α → Bool) (l : List α) : List α := (List.range (l.length / 2)).reverse.foldl (siftup lt) l

/-- `heapq.heappush`. -/
def heappush (lt : α → α → Bool) (l : List α) (x : α) : List α := siftdown lt (l ++ [x]) 0 l.length

/-- `heapq.heappop`. -/
def heappop (lt : α → α → Bool) (l : List α) : Except PyErr (α × List α) :=
  match l.getLast? with
  | none => .error .indexError
  | some last =>
    match l.dropLast with
    | [] => .ok (last, [])
    | x :: rest => .ok (x, siftup lt (last :: rest) 0)

end Heapq

/-! ## `Comparable` and `Heap` -/

/-- What `heapq` observes of the keys: `<` and `==`. -/
structure KeyOrd (κ : Type) where
  lt : κ → κ → Bool
  eq : κ → κ → Bool

/-- `Comparable(_, preorder)`: `__lt__` and `__eq__`, heap.py:35-72. -/
def KeyOrd.comparable {κ : Type} (preorder : κ → κ → Bool) : KeyOrd κ where
  lt x y := !preorder y x
  eq x y := preorder x y && preorder y x

/-- Plain Python numbers. -/
def KeyOrd.nat : KeyOrd Nat where
  lt x y := decide (x < y)
  eq x y := decide (x = y)

section
variable {κ α : Type}

/-- `x < y` for the tuples `(to_comparable(element), index, element)` of heap.py:178, 197-201. The index differs from one tuple to the other, so
that the elements themselves are never compared. -/
def entryLt (o : KeyOrd κ) (x y : κ × Nat × α) : Bool := if o.eq x.1 y.1 then decide (x.2.1 < y.2.1) else o.lt x.1 y.1

/-- A `Heap`, heap.py:144-186. `to_comparable` is handed to the methods below, because it may read variables that change. -/
structure Heap (κ α : Type) where
  data : List (κ × Nat × α)
  index : Nat

namespace Heap

/-- `Heap(elements, to_comparable)`, heap.py:150-186. -/
def make (o : KeyOrd κ) (key : α → κ) (xs : List α) : Heap κ α where
  data := Heapq.heapify (entryLt o) (xs.zipIdx.map fun p => (key p.1, p.2, p.1))
  index := xs.length

/-- `push`, heap.py:188-203. -/
def push (o : KeyOrd κ) (key : α → κ) (h : Heap κ α) (x : α) : Heap κ α where
  data := Heapq.heappush (entryLt o) h.data (key x, h.index, x)
  index := h.index + 1

/-- The body of the loop of `decrease_key`, heap.py:206-209: the list is read while it is being modified. -/
def decreaseAt [DecidableEq α] (o : KeyOrd κ) (key : α → κ) (x : α) (h : Heap κ α) (i : Nat) : Heap κ α :=
  match h.data[i]? with
  | none => h
  | some (_, index, y) => if x = y then { h with data := Heapq.heapify (entryLt o) (h.data.set i (key x, index, x)) } else h

/-- `decrease_key`, heap.py:205-209. -/
def decreaseKey [DecidableEq α] (o : KeyOrd κ) (key : α → κ) (h : Heap κ α) (x : α) : Heap κ α :=
  (List.range h.data.length).foldl (decreaseAt o key x) h

/-- `pop`, heap.py:211-218. -/
def pop (o : KeyOrd κ) (h : Heap κ α) : Except PyErr (α × Heap κ α) :=
  match Heapq.heappop (entryLt o) h.data with
  | .error e => .error e
  | .ok (e, data) => .ok (e.2.2, { h with data := data })

/-- `__iter__`, heap.py:220-227: `heapq.nsmallest(len(l), l)` is `sorted(l)`, a stable sort. -/
def iter (o : KeyOrd κ) (h : Heap κ α) : List α := (h.data.mergeSort fun x y => !entryLt o y x).map (·.2.2)

/-- `__len__`, heap.py:258-266. -/
def len (h : Heap κ α) : Nat := h.data.length

/-- `__bool__`, heap.py:247-256. -/
def nonempty (h : Heap κ α) : Bool := !h.data.isEmpty

end Heap
end
end PyBGL
