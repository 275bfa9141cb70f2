import Verif.Model.RevuzVisitor
import Verif.Spec.Language

/-!
# What a visitor of `revuz_minimize` may rely on
-/

namespace PyBGL.RevuzG

/-- The pairs of the calls `states_merged(q1, q2, g)`. -/
def mergedPairs {G B : Type} (log : Log G B) : List (Nat × Nat) :=
  log.filterMap fun x => match x.1 with
    | .statesMerged q1 q2 => some (q1, q2)
    | _ => none

/-- The calls made to move transitions to `q1`, from the automaton `g` to the automaton `g'`: each transition moved leaves the automaton, and the same
transition to `q1` enters it, before the visitor is called; the states, the finality and the other transitions do not change. -/
inductive Moves {G B : Type} [DecidableEq B] (aut : G → Automaton B) (q1 : Nat) : G → List (EdgeDesc B) → Log G B → G → Prop where
  | nil (g : G) : Moves aut q1 g [] [] g
  | cons {g gm g' : G} {e : EdgeDesc B} {es : List (EdgeDesc B)} {log : Log G B}
      (states : (aut gm).vertices = (aut g).vertices ∧ (aut gm).initial = (aut g).initial ∧ ∀ v, (aut gm).isFinal v = (aut g).isFinal v)
      (trans : ∀ p a r, (aut gm).Trans p a r ↔
        if p = e.source ∧ a = e.distinguisher then r = q1 else (aut g).Trans p a r)
      (rest : Moves aut q1 gm es log g') :
      Moves aut q1 g (e :: es) ((.moveTransition e (some ⟨e.source, q1, e.distinguisher⟩), gm) :: log) g'

/-- The calls made to merge `q2` into `q1`, from the automaton `g` to the automaton `g'`. `merging_states` is called while both are states;
`move_transition` is called once per transition to `q2`; then `remove_vertex` is called while `q2` is still a state, to which no transition leads; then
`states_merged` is called, `q2` and the transitions from it being removed. -/
def Merge {G B : Type} [DecidableEq B] (aut : G → Automaton B) (q1 q2 : Nat) (g : G) (log : Log G B) (g' : G) : Prop :=
  q1 ∈ (aut g).vertices ∧ q2 ∈ (aut g).vertices ∧ q1 ≠ q2 ∧
    ∃ es moves gr, log = (.mergingStates q1 q2, g) :: (moves ++ [(.removeVertex q2, gr), (.statesMerged q1 q2, g')]) ∧
      es.Nodup ∧ (∀ e, e ∈ es ↔ e ∈ (aut g).edges ∧ e.target = q2) ∧ Moves aut q1 g es moves gr ∧
      q2 ∈ (aut gr).vertices ∧ (∀ e ∈ (aut gr).edges, e.target ≠ q2) ∧
      (∀ v, v ∈ (aut g').vertices ↔ v ∈ (aut gr).vertices ∧ v ≠ q2) ∧
      ∀ p a r, (aut g').Trans p a r ↔ (aut gr).Trans p a r ∧ p ≠ q2

/-- A sequence of merges. -/
inductive Merges {G B : Type} [DecidableEq B] (aut : G → Automaton B) : G → Log G B → G → Prop where
  | nil (g : G) : Merges aut g [] g
  | cons {g gm g' : G} {q1 q2 : Nat} {log log' : Log G B} (first : Merge aut q1 q2 g log gm) (rest : Merges aut gm log' g') :
      Merges aut g (log ++ log') g'

end PyBGL.RevuzG
