import Verif.Model.Automaton

/-!
# Words, labelled paths, languages, and histories of operations
-/

namespace PyBGL

/-- `LPath T q w r`: some sequence of transitions of `T` labelled by the symbols of `w` leads from `q`
to `r`. -/
inductive LPath {Q A : Type} (T : Q → A → Q → Prop) : Q → List A → Q → Prop
  | nil (q : Q) : LPath T q [] q
  | cons {q r s : Q} {a : A} {w : List A} (h : T q a r) (p : LPath T r w s) : LPath T q (a :: w) s

/-- The transitions of an automaton, as enumerated by `edges()`. -/
def Automaton.Trans {A : Type} (g : Automaton A) (q : Nat) (a : A) (r : Nat) : Prop :=
  (⟨q, r, a⟩ : EdgeDesc A) ∈ g.edges

/-- The language of an automaton: words labelling a path of `edges()` from `initial()` to a final state. -/
def Automaton.Lang {A : Type} (g : Automaton A) (w : List A) : Prop :=
  ∃ q₀ f, g.q0 = some q₀ ∧ LPath g.Trans q₀ w f ∧ g.isFinal f = true

/-- `Runs exec s₀ ops s`: starting from `s₀`, the calls `ops` all return normally and lead to `s`. -/
def Runs {Op S : Type} (exec : S → Op → Except PyErr S) (s₀ : S) (ops : List Op) (s : S) : Prop :=
  ops.foldlM exec s₀ = .ok s

/-- The mutating methods of `Automaton` and `IncidenceAutomaton`. -/
inductive AOp (A : Type) where
  | addVertex
  | addEdge (q r : Nat) (a : A)
  | removeEdge (e : EdgeDesc A)
  | removeVertex (q : Nat)
  | setInitial (q : Nat) (b : Bool)
  | setFinal (q : Nat) (b : Bool)
  | clear
  deriving Repr

/-- Effect of a call on an `Automaton`. -/
def Automaton.exec {A : Type} [DecidableEq A] (g : Automaton A) : AOp A → Except PyErr (Automaton A)
  | .addVertex => .ok g.addVertex.2
  | .addEdge q r a => (g.addEdge q r a).map (·.2.2)
  | .removeEdge e => .ok (g.removeEdge e)
  | .removeVertex q => g.removeVertex q
  | .setInitial q b => .ok (g.setInitial q b)
  | .setFinal q b => .ok (g.setFinal q b)
  | .clear => g.clear

/-- Effect of a call on an `IncidenceAutomaton`. -/
def IAutomaton.exec {A : Type} [DecidableEq A] (g : IAutomaton A) : AOp A → Except PyErr (IAutomaton A)
  | .addVertex => .ok g.addVertex.2
  | .addEdge q r a => (g.addEdge q r a).map (·.2.2)
  | .removeEdge e => g.removeEdge e
  | .removeVertex q => g.removeVertex q
  | .setInitial q b => .ok ⟨g.a.setInitial q b, g.inAdj⟩
  | .setFinal q b => .ok ⟨g.a.setFinal q b, g.inAdj⟩
  | .clear => g.clear

/-- An automaton produced by the public API: constructed, then mutated by calls that returned normally. -/
def Automaton.Reachable {A : Type} [DecidableEq A] (g : Automaton A) : Prop :=
  ∃ ops, Runs Automaton.exec Automaton.empty ops g

end PyBGL
