import Verif.Spec.Path

/-!
# Heights (specification)
-/

namespace PyBGL
variable {V E : Type}

/-- Some path with `k` edges leads from `v` to a vertex of `L`. -/
def PathTo (g : GraphI V E) (L : List V) (k : Nat) (v : V) : Prop := ∃ es w, w ∈ L ∧ IsPath g v es w ∧ es.length = k

/-- The longest path from `v` to a vertex of `L` has `k` edges. -/
def IsHeight (g : GraphI V E) (L : List V) (v : V) (k : Nat) : Prop := PathTo g L k v ∧ ∀ j, PathTo g L j v → j ≤ k

/-- The longest path from `v`, wherever it leads, has `k` edges. -/
def IsLongest (g : GraphI V E) (v : V) (k : Nat) : Prop :=
  (∃ es w, IsPath g v es w ∧ es.length = k) ∧ ∀ es w, IsPath g v es w → es.length ≤ k

end PyBGL
