import Verif.Prelude.PyM

namespace PyBGL.PyM
variable {S R Q X : Type}

theorem result_ok {m : PyM S R} {s s' : S} {r : R} : m.result s = .ok (r, s') ↔ m s = (.ok r, s') := by
  unfold result
  cases h : m s with
  | mk o t => cases o <;> simp

theorem result_error {m : PyM S R} {s : S} {e : PyErr} : m.result s = .error e ↔ (m s).1 = .error e := by
  unfold result
  cases h : m s with
  | mk o t => cases o <;> simp

@[simp] theorem result_pure (r : R) (s : S) : (pure r : PyM S R).result s = .ok (r, s) := rfl
@[simp] theorem result_get (s : S) : (get : PyM S S).result s = .ok (s, s) := rfl
@[simp] theorem result_put (s t : S) : (put t : PyM S Unit).result s = .ok ((), t) := rfl

theorem result_lift (x : Except PyErr R) (s : S) : (lift x : PyM S R).result s = x.map fun r => (r, s) := by
  cases x <;> rfl

theorem result_atomic (f : S → Except PyErr (R × S)) (s : S) : (atomic f).result s = f s := by
  unfold result atomic
  cases f s <;> rfl

theorem result_bind (m : PyM S R) (f : R → PyM S Q) (s : S) : (m >>= f).result s = (m.result s >>= fun p => (f p.1).result p.2) := by
  show result (PyM.bind m f) s = _
  unfold result PyM.bind
  cases h : m s with
  | mk o t => cases o <;> rfl

theorem result_map (m : PyM S R) (f : R → Q) (s : S) : (f <$> m).result s = (m.result s).map fun p => (f p.1, p.2) := by
  show result (PyM.bind m fun r => PyM.pure (f r)) s = _
  unfold result PyM.bind PyM.pure
  cases h : m s with
  | mk o t => cases o <;> rfl

theorem result_on {T : Type} (get : S → T) (set : S → T → S) (m : PyM T R) (s : S) :
    (on get set m).result s = (m.result (get s)).map fun p => (p.1, set s p.2) := by
  unfold result on
  cases h : m (get s) with
  | mk o t => cases o <;> rfl

theorem result_each (body : X → PyM S Unit) (f : S → X → Except PyErr S) (hf : ∀ x s, (body x).result s = (f s x).map fun s => ((), s)) :
    ∀ (l : List X) (s : S), (each body l).result s = (l.foldlM f s).map fun s => ((), s)
  | [], _ => rfl
  | x :: l, s => by
    show ((body x) >>= fun _ => each body l).result s = _
    rw [result_bind, hf, List.foldlM_cons]
    cases f s x with
    | error e => rfl
    | ok s' => exact result_each body f hf l s'

@[simp] theorem ebind_ok {A B : Type} (a : A) (f : A → Except PyErr B) : ((Except.ok a : Except PyErr A) >>= f) = f a := rfl
@[simp] theorem ebind_error {A B : Type} (e : PyErr) (f : A → Except PyErr B) : ((Except.error e : Except PyErr A) >>= f) = .error e := rfl
@[simp] theorem emap_ok {A B : Type} (a : A) (f : A → B) : (Except.ok a : Except PyErr A).map f = .ok (f a) := rfl
@[simp] theorem emap_error {A B : Type} (e : PyErr) (f : A → B) : (Except.error e : Except PyErr A).map f = .error e := rfl

theorem result_get_bind (f : S → PyM S Q) (s : S) : ((get : PyM S S) >>= f).result s = (f s).result s := rfl
theorem result_put_bind (t : S) (f : Unit → PyM S Q) (s : S) : ((put t : PyM S Unit) >>= f).result s = (f ()).result t := rfl
theorem result_lift_bind (x : Except PyErr R) (f : R → PyM S Q) (s : S) : ((lift x : PyM S R) >>= f).result s = (x >>= fun r => (f r).result s) := by
  rw [result_bind, result_lift]; cases x <;> rfl

/-- Sequencing after a success. -/
theorem bind_ok {m : PyM S R} {f : R → PyM S Q} {s s' : S} {r : R} (h : m s = (.ok r, s')) : (m >>= f) s = f r s' := by
  show PyM.bind m f s = _
  unfold PyM.bind
  rw [h]

/-- Sequencing after a failure. -/
theorem bind_error {m : PyM S R} {f : R → PyM S Q} {s s' : S} {e : PyErr} (h : m s = (.error e, s')) : (m >>= f) s = (.error e, s') := by
  show PyM.bind m f s = _
  unfold PyM.bind
  rw [h]

theorem map_error {m : PyM S R} {f : R → Q} {s s' : S} {e : PyErr} (h : m s = (.error e, s')) : (f <$> m) s = (.error e, s') := bind_error h

theorem atomic_error {f : S → Except PyErr (R × S)} {s : S} {e : PyErr} (h : f s = .error e) : atomic f s = (.error e, s) := by
  unfold atomic; rw [h]

theorem atomic_ok {f : S → Except PyErr (R × S)} {s s' : S} {r : R} (h : f s = .ok (r, s')) : atomic f s = (.ok r, s') := by
  unfold atomic; rw [h]

theorem get_bind (f : S → PyM S Q) (s : S) : ((get : PyM S S) >>= f) s = f s s := rfl

theorem nil_bind (body : X → PyM S Unit) (f : Unit → PyM S Q) (s : S) : (each body [] >>= f) s = f () s := rfl

theorem lift_bind_ok {x : Except PyErr R} {r : R} (h : x = .ok r) (f : R → PyM S Q) (s : S) : ((lift x : PyM S R) >>= f) s = f r s := by subst h; rfl

theorem lift_bind_error {x : Except PyErr R} {e : PyErr} (h : x = .error e) (f : R → PyM S Q) (s : S) : ((lift x : PyM S R) >>= f) s = (.error e, s) := by subst h; rfl

/-- The outcome of a method given its result. -/
theorem of_result_ok {m : PyM S R} {s s' : S} {r : R} (h : m.result s = .ok (r, s')) : m s = (.ok r, s') := result_ok.mp h

end PyBGL.PyM
