import Verif.Prelude.Py

/-!
# Methods with side effects

`PyM S R` is a method that modifies an object of type `S` and returns a value of type `R` or raises: the state it leaves behind is known in both cases, as if the exception were caught
by the caller.
-/

namespace PyBGL

/-- A method: from the state of the object, the outcome and the state left behind. -/
def PyM (S R : Type) := S → Except PyErr R × S

namespace PyM
variable {S R Q : Type}

/-- `return r`. -/
protected def pure (r : R) : PyM S R := fun s => (.ok r, s)

/-- Statements in sequence: an exception skips the rest, what was done before is kept. -/
protected def bind (m : PyM S R) (f : R → PyM S Q) : PyM S Q := fun s =>
  match m s with
  | (.ok r, s') => f r s'
  | (.error e, s') => (.error e, s')

instance : Monad (PyM S) where
  pure := PyM.pure
  bind := PyM.bind

/-- The current state of the object. -/
def get : PyM S S := fun s => (.ok s, s)

/-- An assignment. -/
def put (s : S) : PyM S Unit := fun _ => (.ok (), s)

/-- An expression that reads the object and may raise. -/
def lift (x : Except PyErr R) : PyM S R := fun s => (x, s)

/-- A method all of whose tests precede its assignments: if it raises, nothing was assigned. -/
def atomic (f : S → Except PyErr (R × S)) : PyM S R := fun s =>
  match f s with
  | .ok (r, s') => (.ok r, s')
  | .error e => (.error e, s)

/-- `for x in l: body(x)`. -/
def each {X : Type} (body : X → PyM S Unit) : List X → PyM S Unit
  | [] => PyM.pure ()
  | x :: l => PyM.bind (body x) fun _ => each body l

/-- A method of a component of the object. -/
def on {T : Type} (get : S → T) (set : S → T → S) (m : PyM T R) : PyM S R := fun s =>
  let (r, t) := m (get s)
  (r, set s t)

/-- The outcome, forgetting the state left behind by an exception. -/
def result (m : PyM S R) (s : S) : Except PyErr (R × S) :=
  match m s with
  | (.ok r, s') => .ok (r, s')
  | (.error e, _) => .error e

end PyM
end PyBGL
