import Verif.Prelude.PyM

/-!
# `AggregatedVisitor`, when the visitors are objects and their list is one too

`aggregate` (Verif/Model/Helpers.lean and C77) is about visitors whose state is lost when one of them raises. Here the visitors are objects: `obj i` is what the visitor number `i` holds, and
`meth i ev` its method for the call `ev`. The methods of a visitor only change this visitor. Lists are objects as well: `lists[l]` is the content of the list number `l`.
-/

namespace PyBGL

/-- The objects the caller and the aggregated visitors have access to. -/
structure Shop (σ : Type) where
  lists : List (List Nat)
  obj : Nat → σ

variable {Ev σ : Type}

/-- The content of a list. -/
def Shop.content (w : Shop σ) (l : Nat) : List Nat := w.lists.getD l []

/-- `AggregatedVisitor(visitors)`, aggregated_visitor.py:12-19: the attribute `visitors` is the list given if it is true, that is, neither `None` nor empty, and a new list otherwise. -/
def aggregated (visitors : Option Nat) : PyM (Shop σ) Nat := fun w =>
  match visitors with
  | some l => if w.content l ≠ [] then (.ok l, w) else (.ok w.lists.length, { w with lists := w.lists ++ [[]] })
  | none => (.ok w.lists.length, { w with lists := w.lists ++ [[]] })

/-- `visitors.append(vis)`, by the caller. -/
def appendVisitor (l i : Nat) : PyM (Shop σ) Unit := fun w => (.ok (), { w with lists := w.lists.set l (w.content l ++ [i]) })

/-- A call to the method of the visitor number `i`. -/
def callVisitor (meth : Nat → Ev → PyM σ Unit) (ev : Ev) (i : Nat) : PyM (Shop σ) Unit := fun w =>
  match meth i ev (w.obj i) with
  | (r, x) => (r, { w with obj := fun j => if j = i then x else w.obj j })

/-- A call to the aggregated visitor whose attribute `visitors` is `l`, aggregated_visitor.py:21-33. What the methods of the visitors return is dropped (line 32), as are keyword
arguments; the algorithms pass none to their visitors. -/
def callAggregated (meth : Nat → Ev → PyM σ Unit) (l : Nat) (ev : Ev) : PyM (Shop σ) Unit := fun w => PyM.each (callVisitor meth ev) (w.content l) w

end PyBGL
