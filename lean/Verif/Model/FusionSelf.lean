import Verif.Model.ProductAlias

/-!
# A trie inserted in itself
-/

namespace PyBGL
variable {A : Type} [DecidableEq A]

/-- `TrieDeterministicFusion`, trie.py:53-95, when `g2` is the object `g1`: `is_final` is read after the changes made to `g1`. -/
def fusionVisitorSelf : Visitor (PEvent A) (Fusion A)
  | .start q1 q2, s => .ok ⟨s.map.set q2 q1, if s.g1.isFinalO q2 then s.g1.setFinalO q1 else s.g1⟩
  | .examineEdge e1 e2 a, s =>
    match fusionTarget e1 e2 a s with
    | .error e => .error e
    | .ok (r1, s) => .ok ⟨s.map, if s.g1.isFinalO (e2.bind AEdge.target) then s.g1.setFinal r1 else s.g1⟩
  | _, s => .ok s

/-- `trie.insert(trie)`, trie.py:35-44 and 98-113; returns the new state of the trie. -/
def trieFusionSelf (ord : SetOracle A) (g : Automaton A) (fuel : Nat) : Option (Except PyErr (Automaton A)) :=
  (pbfsA ord Fusion.g1 Fusion.g1 fusionPush fusionVisitorSelf ⟨[], g⟩ fuel).map (·.map (·.2.g1))

end PyBGL
