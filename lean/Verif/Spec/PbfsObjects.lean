import Verif.Model.PbfsObjects

/-!
# What a caller expects of the colours during a parallel search, and of a visitor that raises
-/

namespace PyBGL
variable {A σ : Type}

/-- The colours once a call is made: a pair becomes gray when it is discovered and black when it is finished, and nothing else changes. -/
def paint (c : Dict StatePair Color) : PEvent A → Dict StatePair Color
  | .discover r1 r2 => c.set (r1, r2) .gray
  | .finish q1 q2 => c.set (q1, q2) .black
  | _ => c

/-- The visitor receives the calls one after the other, until it raises: the outcome, the colours and the visitor at the end. -/
def play (vis : PObject A σ) : List (PEvent A) → Dict StatePair Color → σ → PEnd σ
  | [], c, x => (.ok (), c, x)
  | ev :: l, c, x =>
    match vis ev (paint c ev) x with
    | (.error err, x) => (.error err, paint c ev, x)
    | (.ok _, x) => play vis l (paint c ev) x

/-- The pair of targets of two transitions. -/
def targets (e1 e2 : Option (AEdge A)) : StatePair := (e1.bind AEdge.target, e2.bind AEdge.target)

/-- The calls of a search agree with the colours: `tree_edge` is called if the target is white, and the target is then discovered; `gray_target` is called if it is gray, and `black_target` if it is black. -/
def Fits : Dict StatePair Color → List (PEvent A) → Prop
  | _, [] => True
  | c, ev :: l => (match ev with
      | .treeEdge e1 e2 _ => colorOf c (targets e1 e2) = .white ∧ l.head? = some (.discover (targets e1 e2).1 (targets e1 e2).2)
      | .grayTarget e1 e2 _ => colorOf c (targets e1 e2) = .gray
      | .blackTarget e1 e2 _ => colorOf c (targets e1 e2) = .black
      | _ => True) ∧ Fits (paint c ev) l

end PyBGL
