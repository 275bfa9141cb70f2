import Verif.Model.LazyView
import Verif.Spec.LazyIter

/-!
# Loops over a view
-/

namespace PyBGL

/-! ## Lockstep -/

/-- Two methods that do the same thing on related objects. -/
def Lock {S T R : Type} (rel : S → T → Prop) (m : PyM S R) (m' : PyM T R) : Prop := ∀ s t, rel s t → (m s).1 = (m' t).1 ∧ rel (m s).2 (m' t).2

section
variable {S T X : Type} {rel : S → T → Prop}

theorem Lock.forFrom {items : S → List X} {items' : T → List X} (hi : ∀ s t, rel s t → items s = items' t) {body : X → PyM S Unit} {body' : X → PyM T Unit}
    (hb : ∀ x, Lock rel (body x) (body' x)) (size : Nat) : ∀ k, Lock rel (forFrom items body size k) (forFrom items' body' size k) := by
  intro k
  induction k with
  | zero =>
    intro s t h
    rw [PyBGL.forFrom, PyBGL.forFrom]
    dsimp only
    rw [hi s t h]
    split <;> exact ⟨rfl, h⟩
  | succ k ih =>
    intro s t h
    rw [PyBGL.forFrom, PyBGL.forFrom]
    dsimp only
    rw [hi s t h]
    split
    · split
      · rename_i x _
        simp only [PyM.bind]
        have h1 := hb x s t h
        rcases e1 : body x s with ⟨r, s'⟩
        rcases e2 : body' x t with ⟨r', t'⟩
        rw [e1, e2] at h1
        obtain ⟨h1, h2⟩ := h1
        dsimp only at h1
        subst h1
        cases r with
        | error e => exact ⟨rfl, h2⟩
        | ok _ => exact ih s' t' h2
      · exact ⟨rfl, h⟩
    · exact ⟨rfl, h⟩

theorem Lock.pyFor {items : S → List X} {items' : T → List X} (hi : ∀ s t, rel s t → items s = items' t) {body : X → PyM S Unit} {body' : X → PyM T Unit}
    (hb : ∀ x, Lock rel (body x) (body' x)) : Lock rel (pyFor items body) (pyFor items' body') := by
  intro s t h
  unfold PyBGL.pyFor
  rw [hi s t h]
  exact Lock.forFrom hi hb _ _ s t h

theorem Lock.forAdj {E : Type} {adj : S → Dict Nat (Dict Nat (List Nat))} {adj' : T → Dict Nat (Dict Nat (List Nat))} (hi : ∀ s t, rel s t → adj s = adj' t)
    {keep : Nat → Nat → Bool} {mk : Nat → Nat → Nat → E} {body : E → PyM S Unit} {body' : E → PyM T Unit} (hb : ∀ x, Lock rel (body x) (body' x)) (u : Nat) :
    Lock rel (forAdj adj keep mk body u) (forAdj adj' keep mk body' u) := by
  unfold PyBGL.forAdj
  refine Lock.pyFor (fun s t h => by rw [hi s t h]) fun v => Lock.pyFor (fun s t h => by rw [hi s t h]) fun n => ?_
  split
  · exact hb _
  · exact fun s t h => ⟨rfl, h⟩

end

/-! ## A plan for all the items, of which those of the view are followed -/

section
variable {S X Op Out : Type} (exec : Op → PyM S Out) (keep : X → Bool) (plan : List X → List Op)

/-- The calls made by the loop over all the items: none for those that the view does not show. -/
def planIf (xs : List X) : List Op :=
  match xs.getLast? with
  | some x => if keep x then plan (xs.filter keep) else []
  | none => []

theorem planIf_snoc (xs : List X) (x : X) : planIf keep plan (xs ++ [x]) = if keep x then plan (xs.filter keep ++ [x]) else [] := by
  unfold planIf
  rw [List.getLast?_append]
  simp only [List.getLast?_singleton, Option.some_or]
  split
  · rename_i h; rw [List.filter_append]; simp [h]
  · rfl

theorem planIf_mem {xs : List X} {op : Op} (h : op ∈ planIf keep plan xs) : ∃ ys, op ∈ plan ys := by
  unfold planIf at h
  split at h
  · split at h
    · exact ⟨_, h⟩
    · cases h
  · cases h

theorem lock_body (x : X) : Lock (fun (w w' : Walk S X) => w.obj = w'.obj ∧ w.seen = w'.seen.filter keep)
    (onlyIf keep (Walk.body exec plan) x) (Walk.body exec (planIf keep plan) x) := by
  rintro ⟨o, xs⟩ ⟨o', xs'⟩ ⟨h1, h2⟩
  dsimp only at h1 h2
  subst h1 h2
  unfold onlyIf Walk.body
  rw [planIf_snoc]
  cases hk : keep x with
  | true => simp [hk]
  | false => simp [hk, PyM.pure, afterCalls]

theorem turns_filter (l : List X) : ∀ (s : S) (past : List X),
    turns exec plan s (past.filter keep) (l.filter keep) = (turns exec (planIf keep plan) s past l).filter (fun t => keep t.1) ∧
    afterTurns exec plan s (past.filter keep) (l.filter keep) = afterTurns exec (planIf keep plan) s past l ∧
    ∀ t ∈ turns exec (planIf keep plan) s past l, keep t.1 = false → t.2.2 = t.2.1 := by
  induction l with
  | nil => intro s past; exact ⟨rfl, rfl, by simp [turns]⟩
  | cons x l ih =>
    intro s past
    have hs := planIf_snoc keep plan past x
    cases hk : keep x with
    | true =>
      rw [hk, if_pos rfl] at hs
      have hf : (past ++ [x]).filter keep = past.filter keep ++ [x] := by rw [List.filter_append]; simp [hk]
      obtain ⟨i1, i2, i3⟩ := ih (afterCalls exec (plan (past.filter keep ++ [x])) s) (past ++ [x])
      rw [hf] at i1 i2
      rw [List.filter_cons, if_pos hk]
      refine ⟨?_, ?_, ?_⟩
      · rw [turns, turns, hs, i1]; simp [hk]
      · rw [afterTurns, afterTurns, hs, i2]
      · intro t ht hkt
        rw [turns, hs] at ht
        rcases List.mem_cons.mp ht with rfl | ht
        · rw [hk] at hkt; cases hkt
        · exact i3 t ht hkt
    | false =>
      rw [hk, if_neg (by simp)] at hs
      have hf : (past ++ [x]).filter keep = past.filter keep := by rw [List.filter_append]; simp [hk]
      obtain ⟨i1, i2, i3⟩ := ih s (past ++ [x])
      rw [hf] at i1 i2
      rw [List.filter_cons, if_neg (by simp [hk])]
      have hc : afterCalls exec [] s = s := rfl
      refine ⟨?_, ?_, ?_⟩
      · rw [turns, hs, hc, i1]; simp [hk]
      · rw [afterTurns, hs, hc, i2]
      · intro t ht hkt
        rw [turns, hs, hc] at ht
        rcases List.mem_cons.mp ht with rfl | ht
        · rfl
        · exact i3 t ht hkt

/-- What the loop over all the items says of the loop over the view. -/
theorem Delivers.view {items : S → List X} {quiet : X → S → S → Prop} (hq : ∀ x s, quiet x s s) {s : S} {out : Except PyErr Unit × Walk S X}
    (h : Delivers exec (planIf keep plan) items quiet s out) {out' : Except PyErr Unit × Walk S X} (h1 : out'.1 = out.1) (h2 : out'.2.obj = out.2.obj)
    (h3 : out'.2.seen = out.2.seen.filter keep) : Delivers exec plan (fun s => (items s).filter keep) quiet s out' := by
  have t := turns_filter exec keep plan out.2.seen s []
  rw [List.filter_nil] at t
  obtain ⟨t1, t2, t3⟩ := t
  refine ⟨?_, ?_, ?_, ?_, ?_, ?_⟩
  · rw [h3]; exact h.once.filter _
  · rw [h2, h3, t2]; exact h.obj
  · intro t ht
    rw [h3, t1, List.mem_filter] at ht
    exact List.mem_filter.mpr ⟨h.present t ht.1, ht.2⟩
  · rw [h1]; exact h.outcome
  · rw [h1, h3, t1, h.detected]
    constructor
    · exact fun hh t ht => hh t (List.mem_filter.mp ht).1
    · intro hh t ht
      cases hk : keep t.1 with
      | true => exact hh t (List.mem_filter.mpr ⟨ht, hk⟩)
      | false => rw [t3 t ht hk]; exact hq _ _
  · rw [h1, h2, h3]
    intro ho x hx hx'
    exact List.mem_filter.mpr ⟨h.complete ho x (List.mem_filter.mp hx).1 (List.mem_filter.mp hx').1, (List.mem_filter.mp hx).2⟩

end
end PyBGL
