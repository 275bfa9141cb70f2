import Verif.Model.Product

/-!
# `deterministic_union` and `deterministic_intersection` with a given `g12`
-/

namespace PyBGL
variable {A : Type} [DecidableEq A]

/-- `deterministic_union(g1, g2, g12)`, deterministic_union.py:57-79: an automaton is true, whatever its content (automaton.py and graph.py define neither
`__bool__` nor `__len__`), so line 74 keeps the one given. It is assumed here not to be the object `g1` or `g2` (for that case see Model/ProductAlias.lean). -/
def deterministicUnionInto (ord : SetOracle A) (g1 g2 g12 : Automaton A) (fuel : Nat) : Option (Except PyErr (Automaton A)) :=
  (pbfs ord (fun _ => g1) g2 [(g1.initial, g2.initial)] pushAll (unionVisitor g1 g2) ⟨[], g12⟩ fuel).map (·.map (·.2.g12))

/-- `deterministic_intersection(g1, g2, g12)`, deterministic_intersection.py:58-89, with the same assumption. -/
def deterministicIntersectionInto (ord : SetOracle A) (g1 g2 g12 : Automaton A) (fuel : Nat) : Option (Except PyErr (Automaton A)) :=
  (pbfs ord (fun _ => g1) g2 [(g1.initial, g2.initial)] interPush (interVisitor g1 g2) ⟨[], g12⟩ fuel).map (·.map (·.2.g12))

end PyBGL
