import Verif.Model.NodeAutomaton

/-!
# What each call on a node automaton does, in terms of what can be observed

Used to state what an automaton is after *every* history of calls, including those that add a transition towards a state that
does not exist yet.
-/

namespace PyBGL
variable {A : Type}

/-- A mutating call on a node automaton. -/
inductive NCall (A : Type) where
  | op (o : NOp A)
  | clear

/-- Effect of a call on a `NodeAutomaton`; `clear` is graph.py:199-206. -/
def NodeAutomaton.call [DecidableEq A] (g : NodeAutomaton A) : NCall A → Except PyErr (NodeAutomaton A)
  | .op o => g.exec o
  | .clear => g.clear

/-- Effect of a call on an `IncidenceNodeAutomaton`; `clear` is graph.py:199-206. -/
def INodeAutomaton.call [DecidableEq A] (g : INodeAutomaton A) : NCall A → Except PyErr (INodeAutomaton A)
  | .op o => g.exec o
  | .clear => g.clear

/-- What is observed on a node automaton: the number of the next state, the states in their order, the symbol of each state, and the
set of transitions. -/
structure NView (A : Type) where
  next : Nat
  states : List Nat
  symbol : Nat → Option A
  edges : EdgeDesc (Option A) → Prop

/-- A new automaton. -/
def NView.new : NView A := ⟨0, [], fun _ => none, fun _ => False⟩

/-- What each call on a `NodeAutomaton` does. -/
def NView.step (s : NView A) : NCall A → NView A
  -- the new state takes the symbol; without symbol, it takes the one of the previous state having this number
  | .op (.addVertex a) =>
    { s with
      next := s.next + 1
      states := s.states ++ [s.next]
      symbol := fun v => if v = s.next ∧ a.isSome then a else s.symbol v }
  -- the transition gets the symbol its target has at the time of the call, unless there is a transition with this source and label
  | .op (.addEdge q r) =>
    { s with edges := fun e => s.edges e ∨ (e = ⟨q, r, s.symbol r⟩ ∧ ¬ ∃ t, s.edges ⟨q, t, s.symbol r⟩) }
  -- the transition removed is the one labelled by the symbol the target has at the time of the call
  | .op (.removeEdge d) =>
    { s with edges := fun e => s.edges e ∧ ¬ (e.source = d.source ∧ e.distinguisher = s.symbol d.target) }
  -- among the transitions towards the predecessors of the state, those labelled by its symbol are removed
  | .op (.removeVertex u) =>
    { s with
      states := s.states.filter (· ≠ u)
      edges := fun e => s.edges e ∧ e.source ≠ u ∧ ¬ (e.distinguisher = s.symbol u ∧ ∃ b, s.edges ⟨e.source, u, b⟩) }
  | .op (.setInitial _ _) | .op (.setFinal _ _) => s
  -- the symbols are not forgotten
  | .clear => { s with next := 0, states := [], edges := fun _ => False }

/-- What is observed on an `IncidenceNodeAutomaton`: moreover, the predecessors of each state. -/
structure INView (A : Type) extends NView A where
  preds : Nat → Nat → Prop

/-- A new automaton. -/
def INView.new : INView A := ⟨.new, fun _ _ => False⟩

/-- `remove_vertex` of an `IncidenceNodeAutomaton`: the transitions labelled by the symbol of the state are removed from each
of its predecessors; the state is no longer a predecessor of the states in which one of its remaining transitions ends. -/
def INView.removeVertex (s : INView A) (u : Nat) : INView A where
  next := s.next
  states := s.states.filter (· ≠ u)
  symbol := s.symbol
  edges e := s.edges e ∧ e.source ≠ u ∧ ¬ (e.distinguisher = s.symbol u ∧ s.preds e.source u)
  preds p t := s.preds p t ∧ t ≠ u ∧ ¬ (p = u ∧ ∃ b, s.edges ⟨u, t, b⟩ ∧ ¬ (b = s.symbol u ∧ s.preds u u))

/-- What each call on an `IncidenceNodeAutomaton` does. -/
def INView.step (s : INView A) : NCall A → INView A
  | .op (.addVertex a) => ⟨s.toNView.step (.op (.addVertex a)), s.preds⟩
  | .op (.addEdge q r) =>
    ⟨s.toNView.step (.op (.addEdge q r)), fun p t => s.preds p t ∨ (p = q ∧ t = r ∧ ¬ ∃ t, s.edges ⟨q, t, s.symbol r⟩)⟩
  | .op (.removeEdge d) =>
    ⟨s.toNView.step (.op (.removeEdge d)), fun p t => s.preds p t ∧ ¬ (p = d.source ∧ t = d.target)⟩
  | .op (.removeVertex u) => s.removeVertex u
  | .op (.setInitial _ _) | .op (.setFinal _ _) => s
  | .clear => s.states.foldl INView.removeVertex { s with next := 0 }

end PyBGL
