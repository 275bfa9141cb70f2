import Verif.Model.Search
import Verif.Spec.Path

/-!
# Specification of graph traversals: what can be read off the calls received by a visitor
-/

namespace PyBGL

/-- The graph whose edges are those of `g` that satisfy `p`. -/
def GraphI.through {V E : Type} (g : GraphI V E) (p : E → Bool) : GraphI V E :=
  { g with outEdges := fun u => (g.outEdges u).filter p }

section
variable {V E : Type}

/-- The vertices discovered, in order. -/
def discovered (tr : List (DfsEvent V E)) : List V := tr.filterMap (fun | .discover u => some u | _ => none)

/-- The vertices finished, in order. -/
def finished (tr : List (DfsEvent V E)) : List V := tr.filterMap (fun | .finish u => some u | _ => none)

/-- The edges examined, in order. -/
def examined (tr : List (DfsEvent V E)) : List E := tr.filterMap (fun | .examineEdge e => some e | _ => none)

/-- The edges reported as tree, back, forward or cross edges, in order. -/
def classified (tr : List (DfsEvent V E)) : List E :=
  tr.filterMap (fun | .treeEdge e => some e | .backEdge e => some e | .forwardOrCrossEdge e => some e | _ => none)

end

/-! ## Breadth-first search -/

namespace Bfs
variable {V E : Type}

/-- The vertices discovered, in order. -/
def discovered (tr : List (BfsEvent V E)) : List V := tr.filterMap (fun | .discover u => some u | _ => none)

/-- The vertices examined, in order. -/
def examinedVertices (tr : List (BfsEvent V E)) : List V := tr.filterMap (fun | .examineVertex u => some u | _ => none)

/-- The vertices finished, in order. -/
def finished (tr : List (BfsEvent V E)) : List V := tr.filterMap (fun | .finish u => some u | _ => none)

/-- The edges examined, in order. -/
def examined (tr : List (BfsEvent V E)) : List E := tr.filterMap (fun | .examineEdge e => some e | _ => none)

/-- The edges reported as tree or non-tree edges, in order. -/
def classified (tr : List (BfsEvent V E)) : List E :=
  tr.filterMap (fun | .treeEdge e => some e | .nonTreeEdge e => some e | _ => none)

end Bfs

/-- `HopDist g us v d`: the fewest edges of a path from one of the vertices `us` to `v` is `d`. -/
def HopDist {V E : Type} (g : GraphI V E) (us : List V) (v : V) (d : Nat) : Prop :=
  (∃ s ∈ us, ∃ es, IsPath g s es v ∧ es.length = d) ∧ ∀ s ∈ us, ∀ es, IsPath g s es v → d ≤ es.length

/-! ## Trees -/

/-- `g` is a finite tree rooted at `s`: the vertices reachable from `s` are among `U`, their out-edges are listed once each, and
each of them is reached by a single path. -/
structure IsTree {V E : Type} (g : GraphI V E) (s : V) (U : List V) : Prop where
  finite : ∀ v, Reach g s v → v ∈ U
  listed : ∀ v, Reach g s v → (g.outEdges v).Nodup
  unique : ∀ v es es', IsPath g s es v → IsPath g s es' v → es = es'

namespace Tree
variable {V E : Type}

/-- The vertices discovered, in order. -/
def discovered (tr : List (TreeEvent V E)) : List V := tr.filterMap (fun | .discover u => some u | _ => none)

/-- The vertices finished, in order. -/
def finished (tr : List (TreeEvent V E)) : List V := tr.filterMap (fun | .finish u => some u | _ => none)

/-- The edges examined, in order. -/
def examined (tr : List (TreeEvent V E)) : List E := tr.filterMap (fun | .examineEdge e => some e | _ => none)

end Tree

end PyBGL
