import Verif.Spec.NfaLanguage

/-!
# `Nfa` objects and the sets of initial states that they share

`Nfa(n, initials)` keeps the set it is given (nfa.py:46), without copying it.
-/

namespace PyBGL

/-- The sets of states, at their addresses; the variables of the caller, with the addresses of their sets; and the `Nfa` objects, each with the
address of its set `self.initials` (the field `initials` of the value is not used). -/
structure NfaStore (A : Type) where
  sets : List (List Nat)
  vars : List Nat
  nfas : List (Nfa A × Nat)

/-- What the caller does. -/
inductive NfaStoreOp (A : Type) where
  /-- `s = set(qs)` -/
  | newSet (qs : List Nat)
  /-- `s.add(q)`, on the set of the variable number `s` -/
  | add (s : Nat) (q : Nat)
  /-- `s.discard(q)` -/
  | discard (s : Nat) (q : Nat)
  /-- `Nfa(n, initials=s, epsilon=eps)`; `none` is `None` -/
  | new (eps : A) (n : Nat) (s : Option Nat)
  /-- a method of the `Nfa` number `i` -/
  | call (i : Nat) (op : NfaOp A)

namespace NfaStore
variable {A : Type} [DecidableEq A]

/-- No object. -/
def empty : NfaStore A := ⟨[], [], []⟩

/-- The `Nfa` number `i`, as its methods see it. -/
def view (st : NfaStore A) (i : Nat) : Option (Nfa A) :=
  match st.nfas[i]? with
  | none => none
  | some (g, s) => some { g with initials := st.sets[s]?.getD [] }

/-- The effect of an operation; `none` if an object does not exist or if a method raises.
`Nfa.__init__`, nfa.py:45-53: `initials if initials else {0}`. `Nfa.set_initial`, nfa.py:228-241, updates the set in place; `Nfa.set_initials`,
nfa.py:266-273, makes a new one. -/
def exec (st : NfaStore A) : NfaStoreOp A → Option (NfaStore A)
  | .newSet qs => some { st with sets := st.sets ++ [mkSet qs], vars := st.vars ++ [st.sets.length] }
  | .add s q => do
    let a ← st.vars[s]?
    let x ← st.sets[a]?
    some { st with sets := st.sets.set a (setAdd x q) }
  | .discard s q => do
    let a ← st.vars[s]?
    let x ← st.sets[a]?
    some { st with sets := st.sets.set a (setDiscard x q) }
  | .new eps n none => some { st with sets := st.sets ++ [[0]], nfas := st.nfas ++ [(Nfa.init eps [] n, st.sets.length)] }
  | .new eps n (some s) => do
    let a ← st.vars[s]?
    let x ← st.sets[a]?
    if x = [] then some { st with sets := st.sets ++ [[0]], nfas := st.nfas ++ [(Nfa.init eps [] n, st.sets.length)] }
    else some { st with nfas := st.nfas ++ [(Nfa.init eps [] n, a)] }
  | .call i (.setInitial q b) => do
    let p ← st.nfas[i]?
    let x ← st.sets[p.2]?
    some { st with sets := st.sets.set p.2 (if b then setAdd x q else setDiscard x q) }
  | .call i (.setInitials qs) => do
    let p ← st.nfas[i]?
    some { st with sets := st.sets ++ [mkSet qs], nfas := st.nfas.set i (p.1, st.sets.length) }
  | .call i op => do
    let p ← st.nfas[i]?
    let g ← st.view i
    match g.exec op with
    | .ok g => some { st with nfas := st.nfas.set i (g, p.2) }
    | .error _ => none

end NfaStore
end PyBGL
