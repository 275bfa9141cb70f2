import Verif.Spec.Path

/-!
# Best paths (specification)
-/

namespace PyBGL

/-- The combined weight of a path: `combine(… combine(combine(zero, w₁), w₂) …, wₙ)`. -/
def pathWeight {E D : Type} (combine : D → D → D) (zero : D) (weight : E → D) (p : List E) : D := p.foldl (fun d e => combine d (weight e)) zero

/-- `d` is the best value among those that satisfy `P` and are better than `infty`, and `infty` if there is none. -/
def IsBest {D : Type} (better : D → D → Bool) (infty : D) (P : D → Prop) (d : D) : Prop :=
  (P d ∧ better d infty = true ∧ ∀ w, P w → better w d = false) ∨ (d = infty ∧ ∀ w, P w → better w infty = false)

/-- What `compare` and `combine` must satisfy for Dijkstra's algorithm, where `W` are the possible weights: `compare` is a strict total order; combining with
a weight never improves a distance and respects the order, as far as the distances better than `infty` are concerned. -/
structure SelectiveAlgebra {D : Type} (compare : D → D → Bool) (combine : D → D → D) (zero infty : D) (W : D → Prop) : Prop where
  irrefl : ∀ x, compare x x = false
  trans : ∀ x y z, compare x y = true → compare y z = true → compare x z = true
  total : ∀ x y, compare x y = true ∨ x = y ∨ compare y x = true
  zero_lt : compare zero infty = true
  grow : ∀ a w, W w → compare a infty = true → compare (combine a w) a = false
  back : ∀ a w, W w → compare (combine a w) infty = true → compare a infty = true
  mono : ∀ a b w, W w → compare b a = false → compare (combine b w) infty = true → compare (combine b w) (combine a w) = false

/-- `PredPath g preds t u p`: `p` is a chain of predecessor arcs from `u` to `t`, i.e. each arc belongs to the predecessors of the vertex where the next one
starts, and the last one to those of `t`. -/
inductive PredPath {V E : Type} (g : GraphI V E) (preds : V → List E) (t : V) : V → List E → Prop
  | nil : PredPath g preds t t []
  | cons {u : V} {p : List E} {e : E} : PredPath g preds t u p → e ∈ preds u → PredPath g preds t (g.source e) (e :: p)

end PyBGL
