import Verif.Model.Nfa
import Verif.Spec.Language

/-!
# Languages of non-deterministic automata with ε-transitions
-/

namespace PyBGL

/-- `WPath T eps q w r`: some path of `T` from `q` to `r` is labelled by a word which, once its symbols `eps`
are erased, is `w`. -/
def WPath {Q A : Type} [DecidableEq A] (T : Q → A → Q → Prop) (eps : A) (q : Q) (w : List A) (r : Q) : Prop :=
  ∃ u, LPath T q u r ∧ u.filter (· ≠ eps) = w

/-- The transitions of an NFA, as enumerated by `edges()`. -/
def Nfa.Trans {A : Type} (g : Nfa A) (q : Nat) (a : A) (r : Nat) : Prop :=
  ∃ n, (⟨q, r, (a, n)⟩ : EdgeDesc (A × List Nat)) ∈ g.edges

/-- The language of an NFA. -/
def Nfa.Lang {A : Type} [DecidableEq A] (g : Nfa A) (w : List A) : Prop :=
  ∃ q₀ ∈ g.initials, ∃ f, g.isFinal f = true ∧ WPath g.Trans g.eps q₀ w f

/-- The dictionaries of an NFA have distinct keys. -/
structure Nfa.WF {A : Type} [DecidableEq A] (g : Nfa A) : Prop where
  outer : Dict.NodupKeys g.adj
  mid : ∀ q d, g.adj.get? q = some d → Dict.NodupKeys d
  inner : ∀ q d a e, g.adj.get? q = some d → d.get? a = some e → Dict.NodupKeys e

/-- The mutating methods of `Nfa`. -/
inductive NfaOp (A : Type) where
  | addVertex
  | addEdge (q r : Nat) (a : A)
  | removeEdge (e : EdgeDesc (A × Nat))
  | removeVertex (q : Nat)
  | setInitial (q : Nat) (b : Bool)
  | setInitials (qs : List Nat)
  | setFinal (q : Nat) (b : Bool)
  | clear
  deriving Repr

/-- Effect of a call. -/
def Nfa.exec {A : Type} [DecidableEq A] (g : Nfa A) : NfaOp A → Except PyErr (Nfa A)
  | .addVertex => .ok g.addVertex.2
  | .addEdge q r a => .ok (g.addEdge q r a).2
  | .removeEdge e => .ok (g.removeEdge e)
  | .removeVertex q => g.removeVertex q
  | .setInitial q b => .ok (g.setInitial q b)
  | .setInitials qs => .ok (g.setInitials qs)
  | .setFinal q b => .ok (g.setFinal q b)
  | .clear => g.clear

/-- An NFA produced by the public API. -/
def Nfa.Reachable {A : Type} [DecidableEq A] (g : Nfa A) : Prop :=
  ∃ eps qs ops, Runs Nfa.exec (Nfa.init eps qs 0) ops g

end PyBGL
