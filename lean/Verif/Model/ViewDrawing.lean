import Mathlib.Data.List.Dedup
import Verif.Model.Graphviz
import Verif.Model.Interface
import Verif.Model.Prune

/-!
# `GraphView.to_dot`, graph_view.py:244-260
-/

namespace PyBGL
open Graphviz

/-- `g.to_dot(vs=vs, es=es, ...)` for a graph, graph.py:375-383 and graphviz_impl.py:363-439: `none` is `None`, and the vertices and edges given are
in the order in which Python enumerates them. -/
def GraphI.toDot {L : Type} (directed : Bool) (tags : Text → List (Nat × Nat)) (s : Style) (o : Opts) (dpv : List (Prop' Nat))
    (dpe : List (Prop' (EdgeDesc L))) (g : GraphI Nat (EdgeDesc L)) (vs : Option (List Nat)) (es : Option (List (EdgeDesc L))) : Text :=
  Graphviz.toDot directed tags s o dpv dpe (vs.getD g.vertices) (es.getD g.edges)

/-- `(xs & given) if given is not None else xs`, graph_view.py:257-258, on sets. -/
def keepGiven {X : Type} [DecidableEq X] (xs : List X) (given : Option (List X)) : List X :=
  match given with
  | some l => xs.filter (· ∈ l)
  | none => xs

/-- `GraphView.to_dot`, graph_view.py:244-260. `inner` is the method `to_dot` of the graph of the view (which may be a view), with the other options; `vs` and
`es` are the sets given by the caller (a list would raise `TypeError`). `ordV` and `ordE` are the orders in which the sets are enumerated. -/
def GraphView.toDot {L : Type} [DecidableEq L] (ordV : SetOracle Nat) (ordE : SetOracle (EdgeDesc L))
    (inner : Option (List Nat) → Option (List (EdgeDesc L)) → Text) (gv : GraphView Nat (EdgeDesc L))
    (vs : Option (List Nat)) (es : Option (List (EdgeDesc L))) : Text :=
  inner (some (ordV 0 (keepGiven gv.vertices.dedup vs))) (some (ordE 1 (keepGiven gv.edges.dedup es)))

end PyBGL
