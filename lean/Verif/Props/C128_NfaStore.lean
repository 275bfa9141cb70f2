import Verif.Model.NfaStore
import Verif.Proofs.NfaWF

/-!
# C128: `Nfa` objects that share a set of initial states
-/

namespace PyBGL
variable {A : Type} [DecidableEq A]

/-! ## Specification: `Nfa` objects with values -/

/-- Objects that share nothing: the sets of the caller and the values of the `Nfa` objects. -/
structure NfaValues (A : Type) where
  sets : List (List Nat)
  nfas : List (Nfa A)

/-- The effect of an operation if a set given to a constructor is copied. -/
def NfaValues.exec (st : NfaValues A) : NfaStoreOp A → Option (NfaValues A)
  | .newSet qs => some { st with sets := st.sets ++ [mkSet qs] }
  | .add s q => st.sets[s]?.map fun x => { st with sets := st.sets.set s (setAdd x q) }
  | .discard s q => st.sets[s]?.map fun x => { st with sets := st.sets.set s (setDiscard x q) }
  | .new eps n none => some { st with nfas := st.nfas ++ [Nfa.init eps [] n] }
  | .new eps n (some s) => st.sets[s]?.map fun x => { st with nfas := st.nfas ++ [Nfa.init eps x n] }
  | .call i op =>
    match st.nfas[i]? with
    | none => none
    | some g =>
      match g.exec op with
      | .ok g => some { st with nfas := st.nfas.set i g }
      | .error _ => none

/-- The objects after a list of operations. -/
def NfaValues.run (st : NfaValues A) : List (NfaStoreOp A) → Option (NfaValues A)
  | [] => some st
  | op :: ops => (st.exec op).bind fun st => st.run ops

/-- The store after a list of operations. -/
def NfaStore.run (st : NfaStore A) : List (NfaStoreOp A) → Option (NfaStore A)
  | [] => some st
  | op :: ops => (st.exec op).bind fun st => st.run ops

/-- The `Nfa` objects of the store are those of the values, and both runs fail together. -/
def SameNfas (st : Option (NfaStore A)) (v : Option (NfaValues A)) : Prop :=
  match st, v with
  | none, none => True
  | some st, some v => ∀ i, st.view i = v.nfas[i]?
  | _, _ => False

/-- **C128, the full statement**: the `Nfa` objects behave as if the sets given to their constructors were copied. -/
def C128_statement (A : Type) [DecidableEq A] : Prop :=
  ∀ ops : List (NfaStoreOp A), SameNfas (NfaStore.empty.run ops) (NfaValues.run ⟨[], []⟩ ops)

/-- The variables given to constructors (`given`, and the following ones) are neither given again nor modified by the caller. -/
def Careful (given : List Nat) : List (NfaStoreOp A) → Prop
  | [] => True
  | .add s _ :: ops => s ∉ given ∧ Careful given ops
  | .discard s _ :: ops => s ∉ given ∧ Careful given ops
  | .new _ _ (some s) :: ops => s ∉ given ∧ Careful (s :: given) ops
  | _ :: ops => Careful given ops

/-! ## Proofs -/

namespace Nfa

theorem initials_removeEdge {N : Type} (g : Nfa A) (e : EdgeDesc (A × N)) : (g.removeEdge e).initials = g.initials := by
  unfold removeEdge
  split
  · rfl
  · split
    · rfl
    · split <;> rfl

theorem initials_foldl_removeEdge {N : Type} (es : List (EdgeDesc (A × N))) (g : Nfa A) : (es.foldl removeEdge g).initials = g.initials := by
  induction es generalizing g with
  | nil => rfl
  | cons e es ih => rw [List.foldl_cons, ih, initials_removeEdge]

theorem initials_removeVertex {g g' : Nfa A} {u : Nat} (h : g.removeVertex u = .ok g') : g'.initials = g.initials := by
  unfold removeVertex at h
  simp only [bind, Except.bind] at h
  split at h
  · cases h
  · cases h
    simp only
    rw [initials_foldl_removeEdge, initials_foldl_removeEdge]

theorem initials_clear {g g' : Nfa A} (h : g.clear = .ok g') : g'.initials = g.initials := by
  unfold clear at h
  simp only at h
  have : ∀ (l : List Nat) (x : Nfa A), l.foldlM removeVertex x = .ok g' → g'.initials = x.initials := by
    intro l
    induction l with
    | nil => intro x h; cases h; rfl
    | cons u l ih =>
      intro x h
      rw [List.foldlM_cons] at h
      cases hu : x.removeVertex u with
      | error e => rw [hu] at h; cases h
      | ok y => rw [hu] at h; rw [ih y h, initials_removeVertex hu]
  exact (this _ _ h).trans rfl

omit [DecidableEq A] in
theorem initials_init_eq (eps : A) (x : List Nat) (n : Nat) :
    Nfa.init eps x n = { Nfa.init eps [] n with initials := if x = [] then [0] else mkSet x } := by
  induction n with
  | zero => rfl
  | succ n ih => rw [Nfa.init, ih, Nfa.init]; rfl

end Nfa

theorem mkSet_of_nodup {α : Type} [DecidableEq α] {l : List α} (h : l.Nodup) : mkSet l = l := by
  have : ∀ (l acc : List α), (acc ++ l).Nodup → l.foldl setAdd acc = acc ++ l := by
    intro l
    induction l with
    | nil => intro acc _; simp
    | cons x l ih =>
      intro acc h
      have hx : x ∉ acc := by
        rw [List.nodup_append] at h
        intro hx
        exact h.2.2 x hx x (by simp) rfl
      rw [List.foldl_cons]
      have : setAdd acc x = acc ++ [x] := by unfold setAdd; rw [if_neg hx]
      rw [this, ih _ (by simpa using h)]
      simp
  have := this l [] (by simpa using h)
  simpa [mkSet] using this

/-- The store and the values agree. -/
structure Agree (given : List Nat) (st : NfaStore A) (v : NfaValues A) : Prop where
  len : st.vars.length = v.sets.length
  lenN : st.nfas.length = v.nfas.length
  val : ∀ s a : Nat, s ∉ given → st.vars[s]? = some a → ∃ x, st.sets[a]? = some x ∧ v.sets[s]? = some x ∧ x.Nodup
  varLt : ∀ s a : Nat, st.vars[s]? = some a → a < st.sets.length
  varInj : ∀ s s' a : Nat, st.vars[s]? = some a → st.vars[s']? = some a → s = s'
  nfa : ∀ (i : Nat) (g : Nfa A) (a : Nat), st.nfas[i]? = some (g, a) → ∃ x, st.sets[a]? = some x ∧ v.nfas[i]? = some { g with initials := x }
  nfaInj : ∀ (i j : Nat) (g g' : Nfa A) (a : Nat), st.nfas[i]? = some (g, a) → st.nfas[j]? = some (g', a) → i = j
  sep : ∀ (s a i : Nat) (g : Nfa A), s ∉ given → st.vars[s]? = some a → st.nfas[i]? ≠ some (g, a)

omit [DecidableEq A] in
theorem Agree.view {given : List Nat} {st : NfaStore A} {v : NfaValues A} (h : Agree given st v) (i : Nat) : st.view i = v.nfas[i]? := by
  unfold NfaStore.view
  cases hi : st.nfas[i]? with
  | none =>
    have : st.nfas.length ≤ i := List.getElem?_eq_none_iff.mp hi
    rw [h.lenN] at this
    exact (List.getElem?_eq_none_iff.mpr this).symm
  | some p =>
    obtain ⟨g, a⟩ := p
    obtain ⟨x, h1, h2⟩ := h.nfa i g a hi
    rw [h2]; simp [h1]

omit [DecidableEq A] in
theorem Agree.start : Agree [] (NfaStore.empty : NfaStore A) ⟨[], []⟩ := by
  constructor <;> simp [NfaStore.empty]

omit [DecidableEq A] in
/-- A set that the caller alone uses, or that one `Nfa` alone uses, can be modified. -/
theorem Agree.setVar {given : List Nat} {st : NfaStore A} {v : NfaValues A} (h : Agree given st v) {s a : Nat} (hs : s ∉ given)
    (ha : st.vars[s]? = some a) {y : List Nat} (hy : y.Nodup) :
    Agree given { st with sets := st.sets.set a y } { v with sets := v.sets.set s y } := by
  obtain ⟨x, h1, h2, h3⟩ := h.val s a hs ha
  have hal := h.varLt s a ha
  have hsl : s < v.sets.length := by
    have := (List.getElem?_eq_some_iff.mp h2).1; exact this
  refine ⟨by simp [h.len], h.lenN, ?_, ?_, h.varInj, ?_, h.nfaInj, h.sep⟩
  · intro s' a' hs' ha'
    by_cases e : s = s'
    · subst e
      rw [ha] at ha'; cases ha'
      exact ⟨y, by simp [hal], by simp [hsl], hy⟩
    · have : a ≠ a' := fun e' => e (h.varInj s s' a ha (e' ▸ ha'))
      obtain ⟨x', k1, k2, k3⟩ := h.val s' a' hs' ha'
      exact ⟨x', by simp [this, k1], by simp [e, k2], k3⟩
  · intro s' a' ha'; simpa using h.varLt s' a' ha'
  · intro i g b hb
    have : a ≠ b := fun e => h.sep s a i g hs ha (e ▸ hb)
    obtain ⟨x', k1, k2⟩ := h.nfa i g b hb
    exact ⟨x', by simp [this, k1], k2⟩

omit [DecidableEq A] in
theorem Agree.setNfa {given : List Nat} {st : NfaStore A} {v : NfaValues A} (h : Agree given st v) {i a : Nat} {g : Nfa A}
    (hi : st.nfas[i]? = some (g, a)) (y : List Nat) :
    Agree given { st with sets := st.sets.set a y } { v with nfas := v.nfas.set i { g with initials := y } } := by
  obtain ⟨x, h1, h2⟩ := h.nfa i g a hi
  have hal : a < st.sets.length := (List.getElem?_eq_some_iff.mp h1).1
  have hil : i < v.nfas.length := (List.getElem?_eq_some_iff.mp h2).1
  refine ⟨h.len, by simp [h.lenN], ?_, ?_, h.varInj, ?_, h.nfaInj, h.sep⟩
  · intro s' a' hs' ha'
    have : a ≠ a' := fun e => h.sep s' a' i g hs' ha' (e ▸ hi)
    obtain ⟨x', k1, k2, k3⟩ := h.val s' a' hs' ha'
    exact ⟨x', by simp [this, k1], k2, k3⟩
  · intro s' a' ha'; simpa using h.varLt s' a' ha'
  · intro j g' b hb
    by_cases e : i = j
    · subst e
      rw [hi] at hb; cases hb
      exact ⟨y, by simp [hal], by simp [hil]⟩
    · have : a ≠ b := fun e' => e (h.nfaInj i j g g' a hi (e' ▸ hb))
      obtain ⟨x', k1, k2⟩ := h.nfa j g' b hb
      exact ⟨x', by simp [this, k1], by simp [e, k2]⟩

omit [DecidableEq A] in
/-- A new set. -/
theorem Agree.alloc {given : List Nat} {st : NfaStore A} {v : NfaValues A} (h : Agree given st v) (y : List Nat) :
    Agree given { st with sets := st.sets ++ [y] } v := by
  refine ⟨h.len, h.lenN, ?_, ?_, h.varInj, ?_, h.nfaInj, h.sep⟩
  · intro s a hs ha
    obtain ⟨x, k1, k2, k3⟩ := h.val s a hs ha
    exact ⟨x, by rw [List.getElem?_append_left (h.varLt s a ha)]; exact k1, k2, k3⟩
  · intro s a ha; have := h.varLt s a ha; simp; omega
  · intro i g a hi
    obtain ⟨x, k1, k2⟩ := h.nfa i g a hi
    have : a < st.sets.length := (List.getElem?_eq_some_iff.mp k1).1
    exact ⟨x, by rw [List.getElem?_append_left this]; exact k1, k2⟩

omit [DecidableEq A] in
theorem Agree.addNfa {given : List Nat} {st : NfaStore A} {v : NfaValues A} (h : Agree given st v) (g : Nfa A) {a : Nat} {x : List Nat}
    (hx : st.sets[a]? = some x) (h1 : ∀ (i : Nat) (g' : Nfa A), st.nfas[i]? ≠ some (g', a)) (h2 : ∀ s : Nat, s ∉ given → st.vars[s]? ≠ some a) :
    Agree given { st with nfas := st.nfas ++ [(g, a)] } { v with nfas := v.nfas ++ [{ g with initials := x }] } := by
  have key : ∀ (i : Nat) (g' : Nfa A) (b : Nat), (st.nfas ++ [(g, a)])[i]? = some (g', b) → st.nfas[i]? = some (g', b) ∨ (i = st.nfas.length ∧ g' = g ∧ b = a) := by
    intro i g' b hi
    rw [List.getElem?_append] at hi
    split at hi
    · exact .inl hi
    · rename_i hlt
      cases hn : i - st.nfas.length with
      | zero =>
        rw [hn] at hi; simp at hi
        exact .inr ⟨by omega, hi.1.symm, hi.2.symm⟩
      | succ n => rw [hn] at hi; simp at hi
  refine ⟨h.len, by simp [h.lenN], h.val, h.varLt, h.varInj, ?_, ?_, ?_⟩
  · intro i g' b hi
    rcases key i g' b hi with hi | ⟨rfl, rfl, rfl⟩
    · obtain ⟨x', k1, k2⟩ := h.nfa i g' b hi
      have : i < v.nfas.length := (List.getElem?_eq_some_iff.mp k2).1
      exact ⟨x', k1, by simp only; rw [List.getElem?_append_left this]; exact k2⟩
    · exact ⟨x, hx, by simp only; rw [h.lenN, List.getElem?_append_right (Nat.le_refl _)]; simp⟩
  · intro i j g1 g2 b hi hj
    rcases key i g1 b hi with hi' | ⟨ei, _, eb⟩ <;> rcases key j g2 b hj with hj' | ⟨ej, _, eb'⟩
    · exact h.nfaInj i j g1 g2 b hi' hj'
    · exact absurd (eb' ▸ hi') (h1 i g1)
    · exact absurd (eb ▸ hj') (h1 j g2)
    · rw [ei, ej]
  · intro s b i g' hs hb hi
    rcases key i g' b hi with hi | ⟨rfl, rfl, rfl⟩
    · exact h.sep s b i g' hs hb hi
    · exact h2 s hs hb

omit [DecidableEq A] in
theorem Agree.give {given : List Nat} {st : NfaStore A} {v : NfaValues A} (h : Agree given st v) (s : Nat) : Agree (s :: given) st v :=
  ⟨h.len, h.lenN, fun s' a hs => h.val s' a (fun hh => hs (by simp [hh])), h.varLt, h.varInj, h.nfa, h.nfaInj,
    fun s' a i g hs => h.sep s' a i g (fun hh => hs (by simp [hh]))⟩

omit [DecidableEq A] in
theorem Agree.newNfa {given : List Nat} {st : NfaStore A} {v : NfaValues A} (h : Agree given st v) (g : Nfa A) (y : List Nat) :
    Agree given { st with sets := st.sets ++ [y], nfas := st.nfas ++ [(g, st.sets.length)] }
      { v with nfas := v.nfas ++ [{ g with initials := y }] } := by
  refine (h.alloc y).addNfa g (a := st.sets.length) (x := y) (by simp) ?_ ?_
  · intro i g' hi
    obtain ⟨x, k1, _⟩ := h.nfa i g' _ hi
    exact absurd (List.getElem?_eq_some_iff.mp k1).1 (Nat.lt_irrefl _)
  · intro s _ hs
    exact absurd (h.varLt s _ hs) (Nat.lt_irrefl _)

/-- Both fail, or both give related results. -/
def Both {X Y : Type} (R : X → Y → Prop) (x : Option X) (y : Option Y) : Prop :=
  match x, y with
  | none, none => True
  | some x, some y => R x y
  | _, _ => False

/-- The variables given after an operation. -/
def givenAfter (given : List Nat) : NfaStoreOp A → List Nat
  | .new _ _ (some s) => s :: given
  | _ => given

/-- What `Careful` says of the first operation. -/
def allowed (given : List Nat) : NfaStoreOp A → Prop
  | .add s _ => s ∉ given
  | .discard s _ => s ∉ given
  | .new _ _ (some s) => s ∉ given
  | _ => True

omit [DecidableEq A] in
theorem careful_cons (given : List Nat) (op : NfaStoreOp A) (ops : List (NfaStoreOp A)) :
    Careful given (op :: ops) ↔ allowed given op ∧ Careful (givenAfter given op) ops := by
  cases op with
  | new e n s => cases s <;> simp [Careful, allowed, givenAfter]
  | _ => simp [Careful, allowed, givenAfter]

theorem Agree.other {given : List Nat} {st : NfaStore A} {v : NfaValues A} (h : Agree given st v) (i : Nat) (op : NfaOp A)
    (hop : ∀ g g' : Nfa A, g.exec op = .ok g' → g'.initials = g.initials) :
    Both (Agree given)
      (do
        let p ← st.nfas[i]?
        let g ← st.view i
        match g.exec op with
        | .ok g => some { st with nfas := st.nfas.set i (g, p.2) }
        | .error _ => none)
      (v.exec (.call i op)) := by
  have hv := h.view i
  cases hi : st.nfas[i]? with
  | none =>
    have : st.view i = none := by unfold NfaStore.view; rw [hi]
    rw [this] at hv
    simp only [NfaValues.exec, ← hv]
    trivial
  | some p =>
    obtain ⟨g, a⟩ := p
    obtain ⟨x, h1, h2⟩ := h.nfa i g a hi
    rw [h2] at hv
    simp only [NfaValues.exec, h2, hv, bind, Option.bind]
    cases he : Nfa.exec { g with initials := x } op with
    | error e => trivial
    | ok g' =>
      have hin : g'.initials = x := hop _ _ he
      have hil : i < v.nfas.length := (List.getElem?_eq_some_iff.mp h2).1
      have hil' : i < st.nfas.length := (List.getElem?_eq_some_iff.mp hi).1
      show Agree given { st with nfas := st.nfas.set i (g', a) } { v with nfas := v.nfas.set i g' }
      have key : ∀ (j : Nat) (g'' : Nfa A) (b : Nat), (st.nfas.set i (g', a))[j]? = some (g'', b) → (j = i ∧ g'' = g' ∧ b = a) ∨ (j ≠ i ∧ st.nfas[j]? = some (g'', b)) := by
        intro j g'' b hj
        by_cases e : i = j
        · subst e
          simp [hil'] at hj
          exact .inl ⟨rfl, hj.1.symm, hj.2.symm⟩
        · rw [List.getElem?_set_ne e] at hj
          exact .inr ⟨fun h => e h.symm, hj⟩
      refine ⟨h.len, by simp [h.lenN], h.val, h.varLt, h.varInj, ?_, ?_, ?_⟩
      · intro j g'' b hj
        rcases key j g'' b hj with ⟨rfl, rfl, rfl⟩ | ⟨e, hj⟩
        · exact ⟨x, h1, by simp [hil, ← hin]⟩
        · obtain ⟨y, k1, k2⟩ := h.nfa j g'' b hj
          exact ⟨y, k1, by simp only; rw [List.getElem?_set_ne (fun h => e h.symm)]; exact k2⟩
      · intro j k g1 g2 b hj hk
        rcases key j g1 b hj with ⟨ej, _, eb⟩ | ⟨_, hj'⟩ <;> rcases key k g2 b hk with ⟨ek, _, eb'⟩ | ⟨_, hk'⟩
        · rw [ej, ek]
        · rw [ej]; exact h.nfaInj i k g g2 b (eb ▸ hi) hk'
        · rw [ek]; exact h.nfaInj j i g1 g b hj' (eb' ▸ hi)
        · exact h.nfaInj j k g1 g2 b hj' hk'
      · intro s b j g'' hs hb hj
        rcases key j g'' b hj with ⟨rfl, rfl, rfl⟩ | ⟨e, hj⟩
        · exact h.sep s b j g hs hb hi
        · exact h.sep s b j g'' hs hb hj

theorem Agree.step {given : List Nat} {st : NfaStore A} {v : NfaValues A} (h : Agree given st v) (op : NfaStoreOp A) (ha : allowed given op) :
    Both (Agree (givenAfter given op)) (st.exec op) (v.exec op) := by
  have hnone : ∀ s : Nat, st.vars[s]? = none → v.sets[s]? = none := by
    intro s hs
    rw [List.getElem?_eq_none_iff] at hs ⊢
    rwa [← h.len]
  cases op with
  | newSet qs =>
    show Agree given { st with sets := st.sets ++ [mkSet qs], vars := st.vars ++ [st.sets.length] } { v with sets := v.sets ++ [mkSet qs] }
    have key : ∀ s a : Nat, (st.vars ++ [st.sets.length])[s]? = some a → st.vars[s]? = some a ∨ (s = st.vars.length ∧ a = st.sets.length) := by
      intro s a hs
      rw [List.getElem?_append] at hs
      split at hs
      · exact .inl hs
      · cases hn : s - st.vars.length with
        | zero => rw [hn] at hs; simp at hs; exact .inr ⟨by omega, hs.symm⟩
        | succ n => rw [hn] at hs; simp at hs
    have h' := h.alloc (mkSet qs)
    refine ⟨by simp [h.len], h.lenN, ?_, ?_, ?_, h'.nfa, h.nfaInj, ?_⟩
    · intro s a hs hx
      rcases key s a hx with hx | ⟨rfl, rfl⟩
      · obtain ⟨x, k1, k2, k3⟩ := h'.val s a hs hx
        have : s < v.sets.length := (List.getElem?_eq_some_iff.mp k2).1
        exact ⟨x, k1, by simp only; rw [List.getElem?_append_left this]; exact k2, k3⟩
      · exact ⟨mkSet qs, by simp, by simp [h.len], nodup_mkSet _⟩
    · intro s a hx
      rcases key s a hx with hx | ⟨rfl, rfl⟩
      · exact h'.varLt s a hx
      · simp
    · intro s s' a hx hx'
      rcases key s a hx with k | ⟨e1, e2⟩ <;> rcases key s' a hx' with k' | ⟨e1', e2'⟩
      · exact h.varInj s s' a k k'
      · exact absurd (h.varLt s a k) (by omega)
      · exact absurd (h.varLt s' _ k') (by omega)
      · rw [e1, e1']
    · intro s a i g hs hx hi
      rcases key s a hx with hx | ⟨rfl, rfl⟩
      · exact h.sep s a i g hs hx hi
      · obtain ⟨x, k1, _⟩ := h.nfa i g _ hi
        exact absurd (List.getElem?_eq_some_iff.mp k1).1 (Nat.lt_irrefl _)
  | add s q =>
    simp only [NfaStore.exec, NfaValues.exec]
    cases hs : st.vars[s]? with
    | none => rw [hnone s hs]; trivial
    | some a =>
      obtain ⟨x, h1, h2, h3⟩ := h.val s a ha hs
      rw [h2]
      simp only [bind, Option.bind, h1]
      exact h.setVar ha hs (nodup_setAdd h3 q)
  | discard s q =>
    simp only [NfaStore.exec, NfaValues.exec]
    cases hs : st.vars[s]? with
    | none => rw [hnone s hs]; trivial
    | some a =>
      obtain ⟨x, h1, h2, h3⟩ := h.val s a ha hs
      rw [h2]
      simp only [bind, Option.bind, h1]
      exact h.setVar ha hs (nodup_setDiscard h3 q)
  | new eps n s =>
    have e0 : ({ Nfa.init eps [] n with initials := [0] } : Nfa A) = Nfa.init eps [] n := (Nfa.initials_init_eq eps [] n).symm
    cases s with
    | none =>
      show Agree given _ { v with nfas := v.nfas ++ [Nfa.init eps [] n] }
      have := h.newNfa (Nfa.init eps [] n) [0]
      rwa [e0] at this
    | some s =>
      simp only [NfaStore.exec, NfaValues.exec]
      cases hs : st.vars[s]? with
      | none => rw [hnone s hs]; trivial
      | some a =>
        obtain ⟨x, h1, h2, h3⟩ := h.val s a ha hs
        rw [h2]
        simp only [bind, Option.bind, h1]
        by_cases hx : x = []
        · subst hx
          rw [if_pos rfl]
          have := (h.newNfa (Nfa.init eps [] n) [0]).give s
          rwa [e0] at this
        · rw [if_neg hx]
          have e1 := Nfa.initials_init_eq eps x n
          rw [if_neg hx, mkSet_of_nodup h3] at e1
          show Agree (s :: given) _ { v with nfas := v.nfas ++ [Nfa.init eps x n] }
          rw [e1]
          refine (h.give s).addNfa _ h1 (fun i g' => h.sep s a i g' ha hs) ?_
          intro s' hs' hb
          exact hs' (by simp [h.varInj s' s a hb hs])
  | call i op =>
    show Both (Agree given) _ _
    cases op with
    | setInitial q b =>
      simp only [NfaStore.exec, NfaValues.exec]
      cases hi : st.nfas[i]? with
      | none =>
        have : v.nfas[i]? = none := by
          rw [List.getElem?_eq_none_iff] at hi ⊢
          rwa [← h.lenN]
        rw [this]; trivial
      | some p =>
        obtain ⟨g, a⟩ := p
        obtain ⟨x, h1, h2⟩ := h.nfa i g a hi
        rw [h2]
        simp only [bind, Option.bind, h1]
        exact h.setNfa hi _
    | setInitials qs =>
      simp only [NfaStore.exec, NfaValues.exec]
      cases hi : st.nfas[i]? with
      | none =>
        have : v.nfas[i]? = none := by
          rw [List.getElem?_eq_none_iff] at hi ⊢
          rwa [← h.lenN]
        rw [this]; trivial
      | some p =>
        obtain ⟨g, a⟩ := p
        obtain ⟨x, h1, h2⟩ := h.nfa i g a hi
        rw [h2]
        have h' := h.alloc (mkSet qs)
        have hil : i < v.nfas.length := (List.getElem?_eq_some_iff.mp h2).1
        have hil' : i < st.nfas.length := (List.getElem?_eq_some_iff.mp hi).1
        show Agree given { st with sets := st.sets ++ [mkSet qs], nfas := st.nfas.set i (g, st.sets.length) }
          { v with nfas := v.nfas.set i { g with initials := mkSet qs } }
        have key : ∀ (j : Nat) (g'' : Nfa A) (b : Nat), (st.nfas.set i (g, st.sets.length))[j]? = some (g'', b) →
            (j = i ∧ g'' = g ∧ b = st.sets.length) ∨ (j ≠ i ∧ st.nfas[j]? = some (g'', b) ∧ b < st.sets.length) := by
          intro j g'' b hj
          by_cases e : i = j
          · subst e
            simp [hil'] at hj
            exact .inl ⟨rfl, hj.1.symm, hj.2.symm⟩
          · rw [List.getElem?_set_ne e] at hj
            obtain ⟨y, k1, _⟩ := h.nfa j g'' b hj
            exact .inr ⟨fun h => e h.symm, hj, (List.getElem?_eq_some_iff.mp k1).1⟩
        refine ⟨h.len, by simp [h.lenN], h'.val, h'.varLt, h.varInj, ?_, ?_, ?_⟩
        · intro j g'' b hj
          rcases key j g'' b hj with ⟨rfl, rfl, rfl⟩ | ⟨e, hj, _⟩
          · exact ⟨mkSet qs, by simp, by simp [hil]⟩
          · obtain ⟨y, k1, k2⟩ := h'.nfa j g'' b hj
            exact ⟨y, k1, by simp only; rw [List.getElem?_set_ne (fun h => e h.symm)]; exact k2⟩
        · intro j k g1 g2 b hj hk
          rcases key j g1 b hj with ⟨ej, _, eb⟩ | ⟨_, hj', l⟩ <;> rcases key k g2 b hk with ⟨ek, _, eb'⟩ | ⟨_, hk', l'⟩
          · rw [ej, ek]
          · omega
          · omega
          · exact h.nfaInj j k g1 g2 b hj' hk'
        · intro s b j g'' hs hb hj
          rcases key j g'' b hj with ⟨rfl, rfl, rfl⟩ | ⟨e, hj, _⟩
          · exact absurd (h.varLt s _ hb) (Nat.lt_irrefl _)
          · exact h.sep s b j g'' hs hb hj
    | addVertex => exact h.other i .addVertex fun g g' e => by cases e; rfl
    | addEdge q r a => exact h.other i (.addEdge q r a) fun g g' e => by cases e; rfl
    | removeEdge d => exact h.other i (.removeEdge d) fun g g' e => by cases e; exact Nfa.initials_removeEdge _ _
    | removeVertex q => exact h.other i (.removeVertex q) fun g g' e => Nfa.initials_removeVertex e
    | setFinal q b => exact h.other i (.setFinal q b) fun g g' e => by cases e; rfl
    | clear => exact h.other i .clear fun g g' e => Nfa.initials_clear e

/-- **C128, partial** (missing: sets that are shared): if no set given to a constructor is given again or modified by the caller afterwards, the `Nfa`
objects behave as if these sets were copied, whatever the methods called. -/
theorem C128_own_sets_partial (ops : List (NfaStoreOp A)) (h : Careful [] ops) :
    SameNfas (NfaStore.empty.run ops) (NfaValues.run ⟨[], []⟩ ops) := by
  have key : ∀ (ops : List (NfaStoreOp A)) (given : List Nat) (st : NfaStore A) (v : NfaValues A), Agree given st v → Careful given ops →
      SameNfas (st.run ops) (v.run ops) := by
    intro ops
    induction ops with
    | nil => intro given st v ha _; exact ha.view
    | cons op ops ih =>
      intro given st v ha hc
      rw [careful_cons] at hc
      have := ha.step op hc.1
      rw [NfaStore.run, NfaValues.run]
      cases h1 : st.exec op <;> cases h2 : v.exec op <;> rw [h1, h2] at this
      · trivial
      · exact absurd this id
      · exact absurd this id
      · exact ih _ _ _ this hc.2
  exact key ops [] _ _ Agree.start h

/-- **C128 is false of the code**: two `Nfa` objects built from one set share it, and `set_initial` on one changes the language of the other. -/
theorem C128_counterexample : ¬ C128_statement Char := by
  intro h
  have := h [.newSet [0], .new 'ε' 2 (some 0), .new 'ε' 2 (some 0), .call 1 (.setFinal 1 true), .call 0 (.setInitial 1 true)]
  have := congrArg (Option.map fun g => g.accepts []) (this 1)
  revert this
  decide

/-- **C128** (what is shared): `set_initial` on an `Nfa` changes exactly the `Nfa` objects built from the same set, and, if the caller has a variable
for it, the set of the caller. -/
theorem C128_shared_partial {st st' : NfaStore A} {i q : Nat} {b : Bool} {g : Nfa A} {a : Nat} (hi : st.nfas[i]? = some (g, a))
    (h : st.exec (.call i (.setInitial q b)) = some st') :
    (∀ (j : Nat) (g' : Nfa A) (a' : Nat), st.nfas[j]? = some (g', a') → a' = a → ∃ x, st.view j = some x ∧ st'.view j = some (x.setInitial q b)) ∧
    (∀ (j : Nat) (g' : Nfa A) (a' : Nat), st.nfas[j]? = some (g', a') → a' ≠ a → st'.view j = st.view j) ∧ st'.vars = st.vars ∧
    (∀ c, c ≠ a → st'.sets[c]? = st.sets[c]?) := by
  simp only [NfaStore.exec, hi, bind, Option.bind] at h
  cases hx : st.sets[a]? with
  | none => rw [hx] at h; cases h
  | some x =>
    rw [hx] at h
    cases h
    have hal : a < st.sets.length := (List.getElem?_eq_some_iff.mp hx).1
    refine ⟨?_, ?_, rfl, ?_⟩
    · rintro j g' a' hj rfl
      refine ⟨{ g' with initials := x }, by simp [NfaStore.view, hj, hx], ?_⟩
      simp [NfaStore.view, hj, hal, Nfa.setInitial]
    · intro j g' a' hj hne
      simp only [NfaStore.view, hj]
      rw [List.getElem?_set_ne (fun e => hne e.symm)]
    · intro c hc
      exact List.getElem?_set_ne (fun e => hc e.symm)

/-- **C128**: in particular a word can be accepted by an `Nfa` on which no method was called. -/
example : ∃ st st', NfaStore.empty.run [.newSet [0], .new 'ε' 2 (some 0), .new 'ε' 2 (some 0), .call 1 (.setFinal 1 true)] = some st ∧
    st.exec (.call 0 (.setInitial 1 true)) = some st' ∧
    (st.view 1).map (fun g => g.accepts []) = some false ∧ (st'.view 1).map (fun g => g.accepts []) = some true :=
  ⟨_, _, rfl, rfl, by decide, by decide⟩

example : Careful [] [.newSet [0], .newSet [1], .add 1 0, .new 'ε' 2 (some 0), .new 'ε' 2 (some 1), .call 1 (.setFinal 1 true), .call 0 (.setInitial 1 true)] ∧
    (NfaStore.empty.run [.newSet [0], .newSet [1], .add 1 0, .new 'ε' 2 (some 0), .new 'ε' 2 (some 1), .call 1 (.setFinal 1 true), .call 0 (.setInitial 1 true)]).isSome := by
  exact ⟨by simp [Careful], by decide⟩

end PyBGL
