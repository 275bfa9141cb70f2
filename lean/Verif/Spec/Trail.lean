import Verif.Spec.ShortestPath

/-!
# Walking back along predecessor arcs (specification)
-/

namespace PyBGL

/-- `Trail g s preds t u p`: walking back from `t` along predecessor arcs, without going beyond `s`, one may reach `u`; `p` are the arcs met, from `u` to `t`. -/
inductive Trail {V E : Type} (g : GraphI V E) (s : V) (preds : V → List E) (t : V) : V → List E → Prop
  | nil : Trail g s preds t t []
  | cons {u : V} {p : List E} {e : E} : Trail g s preds t u p → u ≠ s → e ∈ preds u → Trail g s preds t (g.source e) (e :: p)

/-- Walking back from `t` along predecessor arcs, without going beyond `s`, one may turn around a cycle. -/
def TrailCycle {V E : Type} (g : GraphI V E) (s : V) (preds : V → List E) (t : V) : Prop :=
  ∃ u p c, Trail g s preds t u p ∧ Trail g s preds u u c ∧ c ≠ []

/-- A cycle `c` of weight 0 is attached to a shortest path from `s` to `t`, made of a path `q` to the cycle and a path `p` from there; neither `c` nor `p` comes
back to `s`. -/
structure ZeroCycle {V E : Type} (g : GraphI V E) (weight : E → Int) (s t u : V) (q c p : List E) : Prop where
  first : IsPath g s q u
  cycle : IsPath g u c u
  nonempty : c ≠ []
  zero : (c.map weight).sum = 0
  last : IsPath g u p t
  away : ∀ e ∈ c ++ p, g.target e ≠ s
  shortest : ∀ r, IsPath g s r t → ((q ++ p).map weight).sum ≤ (r.map weight).sum

end PyBGL
