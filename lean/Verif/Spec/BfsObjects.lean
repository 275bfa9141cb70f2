import Verif.Prelude.PyM
import Verif.Spec.Traversal

/-!
# Specification for breadth-first search with visitors that are objects
-/

namespace PyBGL
variable {V E : Type} [DecidableEq V]

/-- `Shortest g s es v`: `es` is a path from `s` to `v`, and no path from `s` to `v` has fewer edges. -/
def Shortest (g : GraphI V E) (s : V) (es : List E) (v : V) : Prop :=
  IsPath g s es v ∧ ∀ es', IsPath g s es' v → es.length ≤ es'.length

/-- A visitor that looks for the vertex `t`: it records in a dictionary the tree edge that leads to each vertex, and raises once `t` is discovered. -/
def finder (g : GraphI V E) (t : V) : BfsEvent V E → PyM (Dict V E) Unit
  | .treeEdge e => fun pred => (.ok (), pred.set (g.target e) e)
  | .discover v => fun pred => (if v = t then .error .runtimeError else .ok (), pred)
  | _ => PyM.pure ()

/-- `Leads g pred s es v`: following the dictionary `pred` back from `v` gives the path `es` from `s`: each of its edges is the one recorded for its target,
and nothing is recorded for `s`. -/
def Leads (g : GraphI V E) (pred : Dict V E) (s : V) (es : List E) (v : V) : Prop :=
  IsPath g s es v ∧ pred.get? s = none ∧ ∀ e ∈ es, pred.get? (g.target e) = some e

end PyBGL
