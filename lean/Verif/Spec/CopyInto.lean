import Verif.Model.CopyInto
import Verif.Spec.Traversal

/-!
# What a copy is

The copy is described by the sequence of the calls received by the callbacks. It says nothing of the way the graph is searched.
-/

namespace PyBGL
variable {V E D F : Type} [DecidableEq V] [DecidableEq E]

/-- The pairs `(u, u_dup)` given to `callback_dup_vertex`. -/
def vertexCalls : List (CopyCall V E D F) → List (V × Nat)
  | [] => []
  | .vertex u x _ :: l => (u, x) :: vertexCalls l
  | .edge _ _ _ :: l => vertexCalls l

/-- The pairs `(e, e_dup)` given to `callback_dup_edge`. -/
def edgeCalls : List (CopyCall V E D F) → List (E × F)
  | [] => []
  | .vertex _ _ _ :: l => edgeCalls l
  | .edge e f _ :: l => (e, f) :: edgeCalls l

/-- The graph `g_dup` given to a callback. -/
def CopyCall.dup : CopyCall V E D F → D
  | .vertex _ _ d => d
  | .edge _ _ d => d

/-- `d` is made of `d0` and of the copies announced by `calls`, and of nothing else. -/
structure CopyLog (verts : D → List Nat) (edges : D → List F) (d0 : D) (calls : List (CopyCall V E D F)) (d : D) : Prop where
  vertices : ∀ x, x ∈ verts d ↔ x ∈ verts d0 ∨ ∃ u, (u, x) ∈ vertexCalls calls
  edges : ∀ f, f ∈ edges d ↔ f ∈ edges d0 ∨ ∃ e, (e, f) ∈ edgeCalls calls

/-- The part of `g` reached from `s` through the edges that satisfy `p` was added to `d0`, with the callbacks `calls`, and recorded in the maps `vm0`
and `em0`. `ends x y e f` tells that the edge `f` is a copy of `e` from `x` to `y`. -/
structure IsCopy (verts : D → List Nat) (edges : D → List F) (ends : Nat → Nat → E → F → Prop) (g : GraphI V E) (p : E → Bool) (s : V)
    (d0 : D) (vm0 : Dict V Nat) (em0 : Dict E F) (d : D) (vm : Dict V Nat) (em : Dict E F) (calls : List (CopyCall V E D F)) : Prop where
  /-- One call per reached vertex. -/
  vertices_once : ((vertexCalls calls).map Prod.fst).Nodup
  vertices_all : ∀ v, v ∈ (vertexCalls calls).map Prod.fst ↔ Reach (g.through p) s v
  /-- Their copies are new and distinct. -/
  vertices_new : ((vertexCalls calls).map Prod.snd).Nodup ∧ ∀ x ∈ (vertexCalls calls).map Prod.snd, x ∉ verts d0
  /-- One call per relevant edge that leaves a reached vertex. -/
  edges_once : ((edgeCalls calls).map Prod.fst).Nodup
  edges_all : ∀ e, e ∈ (edgeCalls calls).map Prod.fst ↔ ∃ u, Reach (g.through p) s u ∧ e ∈ (g.through p).outEdges u
  /-- Their copies are new and distinct. -/
  edges_new : ((edgeCalls calls).map Prod.snd).Nodup ∧ ∀ f ∈ (edgeCalls calls).map Prod.snd, f ∉ edges d0
  /-- The callback of an edge is called after those of its ends, whose copies are the ends of its copy. -/
  ends : ∀ a e f d' b, calls = a ++ .edge e f d' :: b →
    ∃ x y, (g.source e, x) ∈ vertexCalls a ∧ (g.target e, y) ∈ vertexCalls a ∧ ends x y e f
  /-- A callback sees what was copied so far, what it is called for included. -/
  seen : ∀ a c b, calls = a ++ c :: b → CopyLog verts edges d0 (a ++ [c]) c.dup
  final : CopyLog verts edges d0 calls d
  /-- The maps hold the copies, their other entries do not change. -/
  vmap : ∀ v x, (v, x) ∈ vertexCalls calls → vm.get? v = some x
  vmap_other : ∀ v, ¬ Reach (g.through p) s v → vm.get? v = vm0.get? v
  emap : ∀ e f, (e, f) ∈ edgeCalls calls → em.get? e = some f
  emap_other : ∀ e, (¬ ∃ u, Reach (g.through p) s u ∧ e ∈ (g.through p).outEdges u) → em.get? e = em0.get? e

end PyBGL
