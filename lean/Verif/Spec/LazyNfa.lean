import Verif.Spec.LazyIter
import Verif.Spec.NfaLanguage
import Verif.Model.NfaCalls

/-! # Loops whose body calls methods of the non-deterministic automaton -/

namespace PyBGL
namespace Nfa
variable {A : Type}

/-- The transitions listed by `edges()`, without the numbers. -/
def arcs (g : Nfa A) : List (EdgeDesc A) := g.edges.map fun e => ⟨e.source, e.target, e.distinguisher.1⟩

variable [DecidableEq A]

/-- The transitions listed by `out_edges(q)`, without the numbers. -/
def arcsFrom (g : Nfa A) (q : Nat) : List (EdgeDesc A) := (g.outEdges q).map fun e => ⟨e.source, e.target, e.distinguisher.1⟩

/-- The keys of `adjacencies[q]`: the labels of the transitions added from `q`, even if they were removed since. -/
def labelKeys (g : Nfa A) (q : Nat) : List A := (g.adj.getD q []).keys

/-- The call only sets initial or final states. -/
def SetsFlag (op : NfaOp A) : Prop := (∃ q b, op = .setInitial q b) ∨ (∃ qs, op = .setInitials qs) ∨ ∃ q b, op = .setFinal q b

/-- The plan only adds transitions, and sets initial and final states. -/
def AddsArcs {X : Type} (plan : List X → List (NfaOp A)) : Prop := ∀ xs, ∀ op ∈ plan xs, (∃ q r a, op = .addEdge q r a) ∨ SetsFlag op

/-- The plan only adds states and transitions, and sets initial and final states. -/
def AddsNfa {X : Type} (plan : List X → List (NfaOp A)) : Prop :=
  ∀ xs, ∀ op ∈ plan xs, op = .addVertex ∨ (∃ q r a, op = .addEdge q r a) ∨ SetsFlag op

/-- The plan only removes states and transitions, and sets initial and final states. -/
def RemovesNfa {X : Type} (plan : List X → List (NfaOp A)) : Prop :=
  ∀ xs, ∀ op ∈ plan xs, (∃ e, op = .removeEdge e) ∨ (∃ u, op = .removeVertex u) ∨ op = .clear ∨ SetsFlag op

/-- The source of an added transition is a state. -/
def FromStates (g : Nfa A) (op : NfaOp A) : Prop := ∀ q r a, op = .addEdge q r a → q ∈ g.vertices

/-- The calls of a careful caller: `if q in set(nfa.vertices()): nfa.add_edge(q, r, a)`. -/
def carefulM (op : NfaOp A) : PyM (Nfa A) Unit := fun g =>
  match op with
  | .addEdge q r a => if q ∈ g.vertices then execM (.addEdge q r a) g else (.ok (), g)
  | op => execM op g

end Nfa
end PyBGL
