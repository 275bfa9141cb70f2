import Verif.Model.Heap
import Verif.Prelude.PyM

/-!
# `heap.py` with comparisons that may have side effects or raise

The comparison of two entries is a method `lt x y : PyM S Bool` of the rest of the world `S`: it may count its calls, depend on them, or raise. It is supposed not to
touch the heap itself. The algorithms are those of the extension module of CPython (Modules/_heapqmodule.c), which is what `import heapq` loads: they move entries by
swapping them, whereas Lib/heapq.py keeps the entry that moves in a variable; this matters when a comparison raises. The function `cache_friendly_heapify`, used above
2500 elements, is not modelled: it makes the same calls to `siftup` in another order.
-/

namespace PyBGL
namespace Heapq
variable {α S : Type}

/-- `arr[i], arr[j] = arr[j], arr[i]`, where these positions hold `x` and `y`. -/
def swapAt (l : List α) (i : Nat) (x : α) (j : Nat) (y : α) : List α := (l.set i y).set j x

/-- `siftdown`, Modules/_heapqmodule.c; it stops after at most `pos` iterations. -/
def siftdownM (lt : α → α → PyM S Bool) (start : Nat) : Nat → Nat → PyM (List α × S) Unit
  | 0, _ => PyM.pure ()
  | fuel + 1, pos => fun s =>
    if start < pos then
      match s.1[pos]?, s.1[(pos - 1) / 2]? with
      | some x, some parent =>
        match lt x parent s.2 with
        | (.error e, w) => (.error e, s.1, w)
        | (.ok false, w) => (.ok (), s.1, w)
        | (.ok true, w) => siftdownM lt start fuel ((pos - 1) / 2) (swapAt s.1 pos x ((pos - 1) / 2) parent, w)
      | _, _ => (.error .indexError, s)
    else (.ok (), s)

/-- The loop of `siftup`, Modules/_heapqmodule.c, which goes down to a leaf and returns its position; it stops after at most `len(heap)` iterations. -/
def siftupLoopM (lt : α → α → PyM S Bool) : Nat → Nat → PyM (List α × S) Nat
  | 0, pos => PyM.pure pos
  | fuel + 1, pos => fun s =>
    match s.1[pos]?, s.1[2 * pos + 1]? with
    | some x, some left =>
      match s.1[2 * pos + 2]? with
      | none => siftupLoopM lt fuel (2 * pos + 1) (swapAt s.1 pos x (2 * pos + 1) left, s.2)
      | some right =>
        match lt left right s.2 with
        | (.error e, w) => (.error e, s.1, w)
        | (.ok true, w) => siftupLoopM lt fuel (2 * pos + 1) (swapAt s.1 pos x (2 * pos + 1) left, w)
        | (.ok false, w) => siftupLoopM lt fuel (2 * pos + 2) (swapAt s.1 pos x (2 * pos + 2) right, w)
    | _, _ => (.ok pos, s)

/-- `siftup`, Modules/_heapqmodule.c. -/
def siftupM (lt : α → α → PyM S Bool) (pos : Nat) : PyM (List α × S) Unit := fun s =>
  PyM.bind (siftupLoopM lt s.1.length pos) (fun leaf => siftdownM lt pos leaf leaf) s

/-- `heapq.heapify`. -/
def heapifyM (lt : α → α → PyM S Bool) : PyM (List α × S) Unit := fun s => PyM.each (siftupM lt) (List.range (s.1.length / 2)).reverse s

/-- `heapq.heappush`. -/
def heappushM (lt : α → α → PyM S Bool) (x : α) : PyM (List α × S) Unit := fun s => siftdownM lt 0 s.1.length s.1.length (s.1 ++ [x], s.2)

/-- `heapq.heappop`: the last entry is put in the first place, then sifted; if this raises, the entry that was first is lost. -/
def heappopM (lt : α → α → PyM S Bool) : PyM (List α × S) α := fun s =>
  match s.1.getLast? with
  | none => (.error .indexError, s)
  | some last =>
    match s.1.dropLast with
    | [] => (.ok last, [], s.2)
    | x :: rest => PyM.bind (siftupM lt 0) (fun _ => PyM.pure x) (last :: rest, s.2)

end Heapq

section
variable {κ α S : Type}

/-- `x < y` for `Comparable` keys, heap.py:35-46: one call to the preorder. -/
def comparableLtM (preorder : κ → κ → PyM S Bool) (x y : κ) : PyM S Bool := PyM.bind (preorder y x) fun b => PyM.pure (!b)

/-- `x == y` for `Comparable` keys, heap.py:60-72: one or two calls to the preorder. -/
def comparableEqM (preorder : κ → κ → PyM S Bool) (x y : κ) : PyM S Bool :=
  PyM.bind (preorder x y) fun b => if b then preorder y x else PyM.pure false

/-- `x < y` for the tuples `(to_comparable(element), index, element)` of heap.py:178, 197-201, when the keys are `Comparable`. Python looks for the first items that are not
equal, then compares them. `elementLt` is what is done when keys and indices are equal. -/
def entryLtM (preorder : κ → κ → PyM S Bool) (elementLt : α → α → PyM S Bool) (x y : κ × Nat × α) : PyM S Bool :=
  PyM.bind (comparableEqM preorder x.1 y.1) fun b =>
    if b then (if x.2.1 = y.2.1 then elementLt x.2.2 y.2.2 else PyM.pure (decide (x.2.1 < y.2.1)))
    else comparableLtM preorder x.1 y.1

namespace Heap

/-- A method of `heapq` applied to `self._data`. -/
def onData {R : Type} (m : PyM (List (κ × Nat × α) × S) R) : PyM (Heap κ α × S) R :=
  PyM.on (fun s => (s.1.data, s.2)) (fun s t => ({ s.1 with data := t.1 }, t.2)) m

/-- `to_comparable(element)`. -/
def onWorld {T R : Type} (m : PyM S R) : PyM (T × S) R := PyM.on Prod.snd (fun s t => (s.1, t)) m

/-- `push`, heap.py:188-203. -/
def pushM (lt : κ × Nat × α → κ × Nat × α → PyM S Bool) (key : α → PyM S κ) (x : α) : PyM (Heap κ α × S) Unit :=
  PyM.bind (onWorld (key x)) fun k =>
    PyM.bind (fun s => onData (Heapq.heappushM lt (k, s.1.index, x)) s) fun _ => fun s => (.ok (), { s.1 with index := s.1.index + 1 }, s.2)

/-- `pop`, heap.py:211-218. -/
def popM (lt : κ × Nat × α → κ × Nat × α → PyM S Bool) : PyM (Heap κ α × S) α :=
  PyM.bind (onData (Heapq.heappopM lt)) fun e => PyM.pure e.2.2

/-- `[(to_comparable(element), i, element) for (i, element) in enumerate(elements)]`, heap.py:178-181. -/
def entriesM (key : α → PyM S κ) : List (α × Nat) → PyM S (List (κ × Nat × α))
  | [] => PyM.pure []
  | (x, i) :: l => PyM.bind (key x) fun k => PyM.bind (entriesM key l) fun es => PyM.pure ((k, i, x) :: es)

/-- `Heap(elements, to_comparable)`, heap.py:150-186: there is no object if it raises. -/
def makeM (lt : κ × Nat × α → κ × Nat × α → PyM S Bool) (key : α → PyM S κ) (xs : List α) : PyM S (Heap κ α) :=
  PyM.bind (entriesM key xs.zipIdx) fun es s =>
    match Heapq.heapifyM lt (es, s) with
    | (.ok _, data, s) => (.ok ⟨data, xs.length⟩, s)
    | (.error e, _, s) => (.error e, s)

end Heap
end
end PyBGL
