import Verif.Spec.Traversal
import Verif.Model.SearchVisitor

/-!
# The colours that a visitor sees (specification)
-/

namespace PyBGL
variable {V E σ Ev : Type} [DecidableEq V]

/-- The colours once `depth_first_search` makes this call: a vertex is `GRAY` from its discovery on, `BLACK` from its end on. -/
def dfsPaint (c : Dict V Color) : DfsEvent V E → Dict V Color
  | .discover u => c.set u .gray
  | .finish u => c.set u .black
  | _ => c

/-- The colours once `breadth_first_search` makes this call. -/
def bfsPaint (c : Dict V Color) : BfsEvent V E → Dict V Color
  | .discover u => c.set u .gray
  | .finish u => c.set u .black
  | _ => c

/-- The colours after this call of `depth_first_search`: the same. -/
def dfsDry (c : Dict V Color) (_ : DfsEvent V E) : Dict V Color := c

/-- The colours after this call of `breadth_first_search`: a vertex becomes `WHITE` right after `initialize_vertex`. -/
def bfsDry (c : Dict V Color) : BfsEvent V E → Dict V Color
  | .initializeVertex u => c.set u .white
  | _ => c

/-- The calls `evs`, from the colours `c`, when the colours change as told by `paint` before each call and `dry` after it: the first exception of the visitor
ends everything, the colours staying as they are. -/
def tellColors (paint dry : Dict V Color → Ev → Dict V Color) (vis : ColorReader Ev V σ) :
    List Ev → Dict V Color → σ → Except (PyErr × Dict V Color) (Dict V Color × σ)
  | [], c, x => .ok (c, x)
  | ev :: evs, c, x =>
    match vis ev (paint c ev) x with
    | .ok x' => tellColors paint dry vis evs (dry (paint c ev) ev) x'
    | .error err => .error (err, paint c ev)

/-- The colours `c` left by a search of `g` from the vertices `us` through the edges satisfying `p`, complete or not. -/
structure SaneColors (g : GraphI V E) (p : E → Bool) (us : List V) (c : Dict V Color) : Prop where
  /-- A vertex that is not `WHITE` is reachable from a source. -/
  reached : ∀ v, colorOf c v ≠ .white → ∃ s ∈ us, Reach (g.through p) s v
  /-- No edge leads from a `BLACK` vertex to a `WHITE` one. -/
  closed : ∀ u, colorOf c u = .black → ∀ e ∈ g.outEdges u, p e = true → colorOf c (g.target e) ≠ .white
  /-- A `WHITE` vertex reachable from one that is not is reachable from a `GRAY` one, by a path whose other vertices are `WHITE`. -/
  frontier : ∀ u v, colorOf c u ≠ .white → colorOf c v = .white → Reach (g.through p) u v →
    ∃ w, colorOf c w = .gray ∧ Reach (g.through (fun e => p e && decide (colorOf c (g.target e) = .white))) w v

end PyBGL
