import Verif.Proofs.LazyOps

/-! # Loops over the vertices and the edges of a graph -/

namespace PyBGL
namespace Lazy

variable {S X Op Out : Type} {exec : Op → PyM S Out} {plan : List X → List Op}

/-- One turn of the loop. -/
def leafOf (exec : Op → PyM S Out) (plan : List X → List Op) (x : X) (w : Walk S X) : Walk S X :=
  ⟨afterCalls exec (plan (w.seen ++ [x])) w.obj, w.seen ++ [x]⟩

theorem run_leafOf : ∀ (xs : List X) (w : Walk S X), run (leafOf exec plan) xs w = ⟨afterTurns exec plan w.obj w.seen xs, w.seen ++ xs⟩
  | [], w => by simp [run, afterTurns]
  | x :: xs, w => by
    have := run_leafOf xs (leafOf exec plan x w)
    simp only [run, List.foldl_cons] at this ⊢
    rw [this]
    simp [leafOf, afterTurns]

theorem allQ_leafOf {Q : X → S → S → Prop} : ∀ (xs : List X) (w : Walk S X),
    AllQ (leafOf exec plan) (fun x w w' => Q x w.obj w'.obj) w xs ↔ ∀ t ∈ turns exec plan w.obj w.seen xs, Q t.1 t.2.1 t.2.2
  | [], w => by simp [AllQ, turns]
  | x :: xs, w => by
    have := allQ_leafOf (Q := Q) xs (leafOf exec plan x w)
    simp only [AllQ, turns, List.forall_mem_cons]
    rw [this]
    rfl

/-- From what a loop does to what is promised of it. -/
theorem delivers {items : S → List X} {quiet : X → S → S → Prop} {m : PyM (Walk S X) Unit} {s : S} {In : X → Walk S X → Prop} {P : X → Prop}
    {Q : X → Walk S X → Walk S X → Prop} (h : Meets (leafOf exec plan) In P Q m ⟨s, []⟩)
    {I : Walk S X → Prop} (hI : ∀ xs, I (run (leafOf exec plan) xs ⟨s, []⟩))
    (hP : ∀ w x, I w → x ∈ items w.obj → P x) (hin : ∀ w x, I w → P x → (In x w ↔ x ∈ items w.obj))
    (hQ : ∀ x w w', P x → (Q x w w' ↔ quiet x w.obj w'.obj)) : Delivers exec plan items quiet s (m ⟨s, []⟩) := by
  obtain ⟨new, a1, a2, a3, a4, a5, a6, a7⟩ := h
  have hw : (m ⟨s, []⟩).2 = ⟨afterTurns exec plan s [] new, new⟩ := by rw [a1, run_leafOf]; simp
  refine ⟨by rw [hw]; exact a2, by rw [hw], ?_, a5, ?_, ?_⟩
  · rw [hw]
    refine (allQ_leafOf (Q := fun x s _ => x ∈ items s) new ⟨s, []⟩).1 ?_
    have key : ∀ (xs past : List X), (∀ x ∈ xs, P x) → AllQ (leafOf exec plan) (fun e w _ => In e w) (run (leafOf exec plan) past ⟨s, []⟩) xs →
        AllQ (leafOf exec plan) (fun x w _ => x ∈ items w.obj) (run (leafOf exec plan) past ⟨s, []⟩) xs := by
      intro xs
      induction xs with
      | nil => intros; trivial
      | cons x xs ih =>
        intro past hx ha
        refine ⟨(hin _ x (hI past) (hx x List.mem_cons_self)).1 ha.1, ?_⟩
        have := ih (past ++ [x]) (fun y hy => hx y (List.mem_cons_of_mem _ hy))
        rw [run_append] at this
        exact this ha.2
    exact key new [] a3 a4
  · rw [a6, hw]
    refine (allQ_congr a3 ?_ _).trans (allQ_leafOf (Q := quiet) new ⟨s, []⟩)
    intro x w w' hx
    exact hQ x w w' hx
  · intro hok x hx hx'
    rw [hw]
    have h1 := hP ⟨s, []⟩ x (hI []) hx
    refine a7 hok x h1 ((hin ⟨s, []⟩ x (hI []) h1).2 hx) ?_
    rw [a1]
    refine (hin _ x (hI new) h1).2 ?_
    rw [← a1]; exact hx'

/-! ## The promises for an invariant, a direction and a dictionary of the object -/

/-- The calls of the plan keep the invariant and make the dictionary grow or shrink. -/
structure Steady (exec : Op → PyM S Out) (plan : List X → List Op) (J : S → Prop) (adj : S → Adj) (up : Bool) : Prop where
  wf : ∀ s, J s → AdjWF (adj s)
  step : ∀ xs s, J s → J (afterCalls exec (plan xs) s) ∧ Dir up (adj s) (adj (afterCalls exec (plan xs) s))

variable {J : S → Prop} {adj : S → Adj} {up : Bool}

theorem Steady.inv_run (h : Steady exec plan J adj up) : ∀ (xs : List X) {w : Walk S X}, J w.obj → J (run (leafOf exec plan) xs w).obj
  | [], _, hw => hw
  | _ :: xs, _, hw => h.inv_run xs (h.step _ _ hw).1

theorem Steady.vertices {plan : List Nat → List Op} (h : Steady exec plan J adj up) {s : S} (hs : J s) :
    Delivers exec plan (fun s => (adj s).keys) (fun _ s s' => (adj s').keys = (adj s).keys) s
      (pyFor (fun w : Walk S Nat => (adj w.obj).keys) (Walk.body exec plan) ⟨s, []⟩) := by
  have hm : Mono (leafOf exec plan) (fun w => J w.obj) (fun w w' => Dir up (adj w.obj) (adj w'.obj)) (fun u w => u ∈ (adj w.obj).keys) := by
    refine ⟨fun w => ?_, fun {a b c} h1 h2 => ?_, fun {a b c e} h1 h2 ha hc => ?_, fun hw => (h.step _ _ hw).1,
      fun hw => (h.step _ _ hw).2⟩
    · cases up <;> exact Sub.refl _
    · cases up
      · exact Sub.trans h2 h1
      · exact Sub.trans h1 h2
    · cases up
      · exact (Sub.outer h2).mem hc
      · exact (Sub.outer h1).mem ha
  have h1 := pyFor_meets hm (items_outer (I := fun w : Walk S Nat => J w.obj) (fun w => adj w.obj) up (fun {w} hw => h.wf _ hw))
    (P := fun u e => e = u) (Q := fun _ _ _ => True) (body := Walk.body exec plan) (s := ⟨s, []⟩) (by rintro x y e rfl h2; exact h2)
    (by rintro w x e - rfl h2; exact h2) (fun x w _ hx => leaf_meets _ x w rfl hx) hs
  exact delivers (I := fun w => J w.obj) h1 (fun xs => h.inv_run xs hs) (fun _ x _ _ => ⟨x, rfl⟩) (fun _ _ _ _ => Iff.rfl)
    (fun x w w' _ => by simp)

section arcs
variable {plan : List (EdgeDesc Nat) → List Op} {keep : Nat → Nat → Bool} {mk : Nat → Nat → Nat → EdgeDesc Nat}

theorem Steady.mono (h : Steady exec plan J adj up) (hmk : ∀ {u v n u' v' n'}, mk u v n = mk u' v' n' → u = u' ∧ v = v' ∧ n = n') :
    Mono (leafOf exec plan) (fun w => J w.obj) (fun w w' => Dir up (adj w.obj) (adj w'.obj)) (InAdj (fun w => adj w.obj) keep mk) :=
  mono_adj (S := Walk S (EdgeDesc Nat)) (leaf := leafOf exec plan) (I := fun w => J w.obj) (fun w => adj w.obj) up keep mk hmk
    (fun hw => (h.step _ _ hw).1) (fun hw => (h.step _ _ hw).2)

theorem Steady.arcs (h : Steady exec plan J adj up) (hmk : ∀ {u v n u' v' n'}, mk u v n = mk u' v' n' → u = u' ∧ v = v' ∧ n = n')
    {items : S → List (EdgeDesc Nat)} (hitems : ∀ s u v n, J s → (mk u v n ∈ items s ↔ keep u v = true ∧ n ∈ lk (adj s) u v))
    (hall : ∀ s e, e ∈ items s → ∃ u v n, e = mk u v n) {s : S} (hs : J s) :
    Delivers exec plan items (fun e s s' => (adj s').keys = (adj s).keys ∧ ∀ u v n, e = mk u v n → QuietArc (adj s) (adj s') u v) s
      (pyFor (fun w : Walk S (EdgeDesc Nat) => (adj w.obj).keys) (forAdj (fun w => adj w.obj) keep mk (Walk.body exec plan)) ⟨s, []⟩) := by
  have h1 := forAll_meets (body := Walk.body exec plan) (h.mono (keep := keep) hmk) (fun {w} hw => h.wf _ hw) hmk (fun _ _ => rfl) (s := ⟨s, []⟩) hs
  refine delivers (I := fun w => J w.obj) h1 (fun xs => h.inv_run xs hs) ?_ ?_ ?_
  · intro w e hw he
    obtain ⟨u, v, n, rfl⟩ := hall _ _ he
    exact ⟨u, v, n, ((hitems _ u v n hw).1 he).1, rfl⟩
  · rintro w e hw ⟨u, v, n, hk, rfl⟩
    rw [hitems _ u v n hw]
    constructor
    · rintro ⟨u', v', n', k1, k2, k3⟩
      obtain ⟨rfl, rfl, rfl⟩ := hmk k2
      exact ⟨k1, k3⟩
    · rintro ⟨k1, k3⟩
      exact ⟨u, v, n, k1, rfl, k3⟩
  · intro e w w' _
    simp only [QuietArc, successorsOf, parallelsOf, getD_getD]
    constructor
    · rintro ⟨k1, k2⟩; exact ⟨k2, fun u v n he => (k1 u v n he).symm⟩
    · rintro ⟨k2, k1⟩; exact ⟨fun u v n he => (k1 u v n he).symm, k2⟩

theorem Steady.arcsOf (h : Steady exec plan J adj up) (hmk : ∀ {u v n u' v' n'}, mk u v n = mk u' v' n' → u = u' ∧ v = v' ∧ n = n')
    (u : Nat) {items : S → List (EdgeDesc Nat)} (hitems : ∀ s v n, J s → (mk u v n ∈ items s ↔ keep u v = true ∧ n ∈ lk (adj s) u v))
    (hall : ∀ s e, e ∈ items s → ∃ v n, e = mk u v n) {tgt : EdgeDesc Nat → Nat} (htgt : ∀ v n, tgt (mk u v n) = v) {s : S} (hs : J s) :
    Delivers exec plan items (fun e s s' => QuietArc (adj s) (adj s') u (tgt e)) s
      (forAdj (fun w : Walk S (EdgeDesc Nat) => adj w.obj) keep mk (Walk.body exec plan) u ⟨s, []⟩) := by
  have h1 := forAdj_meets (body := Walk.body exec plan) (h.mono (keep := keep) hmk) (fun {w} hw => h.wf _ hw) hmk (fun _ _ => rfl) u (s := ⟨s, []⟩) hs
  refine delivers (I := fun w => J w.obj) h1 (fun xs => h.inv_run xs hs) ?_ ?_ ?_
  · intro w e hw he
    obtain ⟨v, n, rfl⟩ := hall _ _ he
    exact ⟨v, n, ((hitems _ v n hw).1 he).1, rfl⟩
  · rintro w e hw ⟨v, n, hk, rfl⟩
    rw [hitems _ v n hw]
    constructor
    · rintro ⟨u', v', n', k1, k2, k3⟩
      obtain ⟨rfl, rfl, rfl⟩ := hmk k2
      exact ⟨k1, k3⟩
    · rintro ⟨k1, k3⟩
      exact ⟨u, v, n, k1, rfl, k3⟩
  · rintro e w w' ⟨v, n, -, rfl⟩
    simp only [QuietArc, successorsOf, parallelsOf, getD_getD, htgt]
    constructor
    · rintro ⟨k1, k2⟩; exact ⟨k2, k1 v n rfl⟩
    · rintro ⟨k1, k2⟩
      refine ⟨fun v' n' he => ?_, k1⟩
      obtain ⟨-, rfl, -⟩ := hmk he
      exact k2

/-- A change of the innermost set stops the loop at once. -/
theorem prompt_arcs (hmk : ∀ {u v n u' v' n'}, mk u v n = mk u' v' n' → u = u' ∧ v = v' ∧ n = n') (s : S) :
    ∀ w, (pyFor (fun w : Walk S (EdgeDesc Nat) => (adj w.obj).keys) (forAdj (fun w => adj w.obj) keep mk (Walk.body exec plan)) ⟨s, []⟩).2 = w →
      ∀ t ∈ turns exec plan s [] w.seen.dropLast, ∀ u v n, t.1 = mk u v n →
        (parallelsOf (adj t.2.2) u v).length = (parallelsOf (adj t.2.1) u v).length := by
  rintro w rfl
  obtain ⟨new, a1, a2, -⟩ := forAll_prompt (leaf := leafOf exec plan) (adj := fun w : Walk S (EdgeDesc Nat) => adj w.obj) (keep := keep) hmk
    (body := Walk.body exec plan) (fun _ _ => rfl) ⟨s, []⟩
  rw [a1, run_leafOf]
  simp only [List.nil_append]
  have := (allQ_leafOf (exec := exec) (plan := plan)
    (Q := fun e s s' => ∀ u v n, e = mk u v n → (lk (adj s') u v).length = (lk (adj s) u v).length) new.dropLast ⟨s, []⟩).1 a2
  simpa only [parallelsOf, getD_getD] using this

end arcs

theorem Steady.dir_trans {a b c : Adj} (h1 : Dir up a b) (h2 : Dir up b c) : Dir up a c := by
  cases up
  · exact Sub.trans h2 h1
  · exact Sub.trans h1 h2

theorem Steady.dir_refl (a : Adj) : Dir up a a := by cases up <;> exact Sub.refl _

/-- The object at each turn, between the beginning and the end. -/
theorem Steady.turns (h : Steady exec plan J adj up) : ∀ (xs past : List X) (s : S), J s →
    J (afterTurns exec plan s past xs) ∧ Dir up (adj s) (adj (afterTurns exec plan s past xs)) ∧
    ∀ t ∈ turns exec plan s past xs, J t.2.1 ∧ Dir up (adj s) (adj t.2.1) ∧ Dir up (adj t.2.1) (adj (afterTurns exec plan s past xs))
  | [], _, s, hs => ⟨hs, Steady.dir_refl _, by simp [PyBGL.turns]⟩
  | x :: xs, past, s, hs => by
    have h1 := h.step (past ++ [x]) s hs
    obtain ⟨a, b, c⟩ := h.turns xs (past ++ [x]) _ h1.1
    refine ⟨a, Steady.dir_trans h1.2 b, fun t ht => ?_⟩
    simp only [PyBGL.turns, List.mem_cons] at ht
    rcases ht with rfl | ht
    · exact ⟨hs, Steady.dir_refl _, Steady.dir_trans h1.2 b⟩
    · obtain ⟨d, e, f⟩ := c t ht
      exact ⟨d, Steady.dir_trans h1.2 e, f⟩

theorem turns_same {Y : Type} (f : S → Y) : ∀ (xs past : List X) (s : S), (∀ t ∈ turns exec plan s past xs, f t.2.2 = f t.2.1) →
    f (afterTurns exec plan s past xs) = f s
  | [], _, _, _ => rfl
  | x :: xs, past, s, h => by
    have h1 := h (x, s, _) List.mem_cons_self
    have h2 := turns_same f xs (past ++ [x]) _ fun t ht => h t (List.mem_cons_of_mem _ ht)
    exact h2.trans h1

theorem mem_turns {xs past : List X} {s : S} {x : X} (h : x ∈ xs) : ∃ t ∈ turns exec plan s past xs, t.1 = x := by
  induction xs generalizing past s with
  | nil => cases h
  | cons y xs ih =>
    rcases List.mem_cons.1 h with rfl | h
    · exact ⟨_, List.mem_cons_self, rfl⟩
    · obtain ⟨t, ht, rfl⟩ := ih (past := past ++ [y]) (s := afterCalls exec (plan (past ++ [y])) s) h
      exact ⟨t, List.mem_cons_of_mem _ ht, rfl⟩

end Lazy
end PyBGL
