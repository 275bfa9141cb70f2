import Verif.Model.LazyAutomaton
import Verif.Proofs.LazyWalk
import Verif.Proofs.AutomatonLemmas
import Verif.Proofs.FailureAutomaton

/-! # Loops over the states and the transitions of an automaton -/

namespace PyBGL
namespace Lazy
variable {A S Op Out R : Type} [DecidableEq A]

abbrev AAdj (A : Type) := Dict Nat (Dict A Nat)

/-- No key occurs twice. -/
structure Thin (a : AAdj A) : Prop where
  outer : Dict.NodupKeys a
  inner : ∀ q d, Dict.get? a q = some d → Dict.NodupKeys d

omit [DecidableEq A] in
theorem Thin.keys {a : AAdj A} (h : Thin a) (q : Nat) : ((a.getD q []).keys).Nodup := by
  unfold Dict.getD
  cases hu : a.get? q with
  | none => exact List.nodup_nil
  | some vs => exact h.inner q vs hu

/-- The target of a transition. -/
def dlt (a : AAdj A) (q : Nat) (x : A) : Option Nat := (a.getD q []).get? x

/-- Transitions were added; only those to state 0 may have changed. -/
structure AUp (a b : AAdj A) : Prop where
  outer : a.keys.Sublist b.keys
  inner : ∀ q, (a.getD q []).keys.Sublist (b.getD q []).keys
  vals : ∀ q x r, dlt a q x = some (r + 1) → dlt b q x = some (r + 1)

/-- Transitions were removed from `a`. -/
structure ADown (a b : AAdj A) : Prop where
  outer : b.keys.Sublist a.keys
  inner : ∀ q, (b.getD q []).keys.Sublist (a.getD q []).keys
  vals : ∀ q x r, dlt b q x = some r → dlt a q x = some r

theorem AUp.refl (a : AAdj A) : AUp a a := ⟨.refl _, fun _ => .refl _, fun _ _ _ h => h⟩
theorem ADown.refl (a : AAdj A) : ADown a a := ⟨.refl _, fun _ => .refl _, fun _ _ _ h => h⟩
theorem AUp.trans {a b c : AAdj A} (h : AUp a b) (h' : AUp b c) : AUp a c :=
  ⟨h.outer.trans h'.outer, fun u => (h.inner u).trans (h'.inner u), fun q x r k => h'.vals q x r (h.vals q x r k)⟩
theorem ADown.trans {a b c : AAdj A} (h : ADown a b) (h' : ADown b c) : ADown a c :=
  ⟨h'.outer.trans h.outer, fun u => (h'.inner u).trans (h.inner u), fun q x r k => h.vals q x r (h'.vals q x r k)⟩

/-- Growing if `up`, shrinking otherwise. -/
def ADir (up : Bool) (a b : AAdj A) : Prop := if up then AUp a b else ADown a b

theorem ADir.refl {up : Bool} (a : AAdj A) : ADir up a a := by
  cases up
  · exact ADown.refl a
  · exact AUp.refl a

theorem ADir.trans {up : Bool} {a b c : AAdj A} (h : ADir up a b) (h' : ADir up b c) : ADir up a c := by
  cases up
  · exact ADown.trans h h'
  · exact AUp.trans h h'

theorem ADir.outer {up : Bool} {a b : AAdj A} (h : ADir up a b) : if up then a.keys.Sublist b.keys else b.keys.Sublist a.keys := by
  cases up
  · exact ADown.outer h
  · exact AUp.outer h

theorem ADir.inner {up : Bool} {a b : AAdj A} (h : ADir up a b) (q : Nat) :
    if up then (a.getD q []).keys.Sublist (b.getD q []).keys else (b.getD q []).keys.Sublist (a.getD q []).keys := by
  cases up
  · exact ADown.inner h q
  · exact AUp.inner h q

theorem mem_keys_dlt {a : AAdj A} {q : Nat} {x : A} : x ∈ (a.getD q []).keys ↔ ∃ r, dlt a q x = some r := by
  rw [Dict.mem_keys_iff]; rfl

theorem mem_outer_dlt {a : AAdj A} {q r : Nat} {x : A} (h : dlt a q x = some r) : q ∈ a.keys := by
  rw [Dict.mem_keys_iff]
  unfold dlt Dict.getD at h
  cases hq : a.get? q with
  | none => rw [hq] at h; simp [Dict.get?] at h
  | some d => exact ⟨d, rfl⟩

/-- A transition that is there at the beginning and at the end is there in between. -/
theorem ADir.convex {up : Bool} {a b c : AAdj A} (h : ADir up a b) (h' : ADir up b c) {q r : Nat} {x : A} (ha : dlt a q x = some r)
    (hc : dlt c q x = some r) : dlt b q x = some r := by
  cases up
  · exact ADown.vals h' q x r hc
  · cases r with
    | succ r => exact AUp.vals h q x r ha
    | zero =>
      obtain ⟨v, hv⟩ := mem_keys_dlt.1 ((AUp.inner h q).mem (mem_keys_dlt.2 ⟨_, ha⟩))
      cases v with
      | zero => exact hv
      | succ v => have := AUp.vals h' q x v hv; rw [hc] at this; cases this

/-! ## The promises -/

/-- The transitions of the object. -/
def InAut (adj : S → AAdj A) (e : EdgeDesc A) (s : S) : Prop := dlt (adj s) e.source e.distinguisher = some e.target

/-- The calls of the plan keep the invariant and make the automaton grow or shrink. -/
structure ASteady {X : Type} (exec : Op → PyM S Out) (plan : List X → List Op) (J : S → Prop) (adj : S → AAdj A) (up : Bool) : Prop where
  thin : ∀ s, J s → Thin (adj s)
  step : ∀ xs s, J s → J (afterCalls exec (plan xs) s) ∧ ADir up (adj s) (adj (afterCalls exec (plan xs) s))

section
variable {X : Type} {exec : Op → PyM S Out} {J : S → Prop} {adj : S → AAdj A} {up : Bool}

theorem ASteady.inv_run {plan : List X → List Op} (h : ASteady exec plan J adj up) : ∀ (xs : List X) {w : Walk S X}, J w.obj →
    J (run (leafOf exec plan) xs w).obj
  | [], _, hw => hw
  | _ :: xs, _, hw => h.inv_run xs (h.step _ _ hw).1

theorem aitems_outer {I : Walk S X → Prop} (hwf : ∀ {w}, I w → Thin (adj w.obj)) :
    Items I (fun w w' => ADir up (adj w.obj) (adj w'.obj)) (fun w => (adj w.obj).keys) where
  same _ h1 h2 hl := same_of_sublist h1.outer h2.outer hl
  nodup hs := (hwf hs).outer

theorem aitems_inner {I : Walk S X → Prop} (hwf : ∀ {w}, I w → Thin (adj w.obj)) (q : Nat) :
    Items I (fun w w' => ADir up (adj w.obj) (adj w'.obj)) (fun w => ((adj w.obj).getD q []).keys) where
  same _ h1 h2 hl := same_of_sublist (h1.inner q) (h2.inner q) hl
  nodup hs := (hwf hs).keys q

theorem ASteady.vertices {plan : List Nat → List Op} (h : ASteady exec plan J adj up) {s : S} (hs : J s) :
    Delivers exec plan (fun s => (adj s).keys) (fun _ s s' => (adj s').keys = (adj s).keys) s
      (pyFor (fun w : Walk S Nat => (adj w.obj).keys) (Walk.body exec plan) ⟨s, []⟩) := by
  have hm : Mono (leafOf exec plan) (fun w => J w.obj) (fun w w' => ADir up (adj w.obj) (adj w'.obj)) (fun u w => u ∈ (adj w.obj).keys) := by
    refine ⟨fun w => ADir.refl _, fun {a b c} h1 h2 => h1.trans h2, fun {a b c e} h1 h2 ha hc => ?_, fun hw => (h.step _ _ hw).1,
      fun hw => (h.step _ _ hw).2⟩
    have k1 := h1.outer
    have k2 := h2.outer
    cases up
    · exact List.Sublist.mem hc k2
    · exact List.Sublist.mem ha k1
  have h1 := pyFor_meets hm (aitems_outer (up := up) (I := fun w : Walk S Nat => J w.obj) (adj := adj) (fun {w} hw => h.thin _ hw))
    (P := fun u e => e = u) (Q := fun _ _ _ => True) (body := Walk.body exec plan) (s := ⟨s, []⟩) (by rintro x y e rfl h2; exact h2)
    (by rintro w x e - rfl h2; exact h2) (fun x w _ hx => leaf_meets _ x w rfl hx) hs
  exact delivers (I := fun w => J w.obj) h1 (fun xs => h.inv_run xs hs) (fun _ x _ _ => ⟨x, rfl⟩) (fun _ _ _ _ => Iff.rfl)
    (fun x w w' _ => by simp)

variable {plan : List (EdgeDesc A) → List Op}

theorem ASteady.mono (h : ASteady exec plan J adj up) :
    Mono (leafOf exec plan) (fun w => J w.obj) (fun w w' => ADir up (adj w.obj) (adj w'.obj)) (InAut fun w => adj w.obj) where
  refl _ := ADir.refl _
  trans h1 h2 := h1.trans h2
  convex h1 h2 ha hc := h1.convex h2 ha hc
  inv hw := (h.step _ _ hw).1
  rel hw := (h.step _ _ hw).2

/-- The loop over the transitions of a state. -/
def forArcs (adj : S → AAdj A) (q : Nat) (body : EdgeDesc A → PyM S Unit) : PyM S Unit :=
  pyFor (fun s => ((adj s).getD q []).keys) fun a s =>
    match ((adj s).getD q []).get? a with
    | some r => body ⟨q, r, a⟩ s
    | none => (.error .keyError, s)

omit [DecidableEq A] in
/-- The body of the loop, for an item determined by `P`. -/
theorem leaf_meets' {S E : Type} {leaf : E → S → S} {In : E → S → Prop} {P : E → Prop} (m : PyM S Unit) (e : E) (s : S) (hm : m s = (.ok (), leaf e s))
    (hin : In e s) (hP : P e) (huniq : ∀ e', P e' → In e' s → e' = e) : Meets leaf In P (fun _ _ _ => True) m s := by
  rw [Meets, hm]
  exact ⟨[e], rfl, List.nodup_singleton e, by simpa using hP, ⟨hin, trivial⟩, .inl rfl, by simp [AllQ],
    fun _ e' h1 h2 _ => List.mem_singleton.2 (huniq e' h1 h2)⟩

theorem ASteady.arc_meets (h : ASteady exec plan J adj up) (q : Nat) {w : Walk S (EdgeDesc A)} (hw : J w.obj) :
    Meets (leafOf exec plan) (InAut fun w => adj w.obj) (fun e => ∃ x : A, e.source = q ∧ e.distinguisher = x)
      (fun _ w w' => True ∧ ((adj w'.obj).getD q []).keys = ((adj w.obj).getD q []).keys)
      (forArcs (fun w : Walk S (EdgeDesc A) => adj w.obj) q (Walk.body exec plan)) w := by
  refine pyFor_meets h.mono (aitems_inner (up := up) (I := fun w : Walk S (EdgeDesc A) => J w.obj) (adj := adj) (fun {w} hw => h.thin _ hw) q)
    (P := fun x e => e.source = q ∧ e.distinguisher = x) (Q := fun _ _ _ => True) ?_ ?_ ?_ hw
  · rintro x y e ⟨-, rfl⟩ ⟨-, rfl⟩; rfl
  · rintro w x e - ⟨rfl, rfl⟩ h2
    exact mem_keys_dlt.2 ⟨_, h2⟩
  · intro x w _ hx
    obtain ⟨r, hr⟩ := mem_keys_dlt.1 hx
    have hb : (match ((adj w.obj).getD q []).get? x with
        | some r => Walk.body exec plan ⟨q, r, x⟩ w
        | none => (.error .keyError, w)) = (.ok (), leafOf exec plan ⟨q, r, x⟩ w) := by
      rw [show ((adj w.obj).getD q []).get? x = some r from hr]; rfl
    refine leaf_meets' _ _ _ hb hr ⟨rfl, rfl⟩ ?_
    rintro ⟨q', r', x'⟩ ⟨rfl, rfl⟩ h1
    have h1 : dlt (adj w.obj) q' x' = some r' := h1
    rw [hr] at h1; cases h1
    rfl

theorem ASteady.arcsOf (h : ASteady exec plan J adj up) (q : Nat) {items : S → List (EdgeDesc A)}
    (hitems : ∀ s e, J s → (e ∈ items s ↔ e.source = q ∧ InAut adj e s)) {s : S} (hs : J s) :
    Delivers exec plan items (fun _ s s' => ((adj s').getD q []).keys = ((adj s).getD q []).keys) s
      (forArcs (fun w : Walk S (EdgeDesc A) => adj w.obj) q (Walk.body exec plan) ⟨s, []⟩) := by
  refine delivers (I := fun w => J w.obj) (h.arc_meets q (w := ⟨s, []⟩) hs) (fun xs => h.inv_run xs hs) ?_ ?_ ?_
  · intro w e hw he
    exact ⟨_, ((hitems _ _ hw).1 he).1, rfl⟩
  · rintro w e hw ⟨x, k1, -⟩
    rw [hitems _ _ hw]
    exact ⟨fun k => ⟨k1, k⟩, fun k => k.2⟩
  · intro e w w' _; simp

theorem ASteady.arcs (h : ASteady exec plan J adj up) {items : S → List (EdgeDesc A)}
    (hitems : ∀ s e, J s → (e ∈ items s ↔ InAut adj e s)) {s : S} (hs : J s) :
    Delivers exec plan items (fun e s s' => (adj s').keys = (adj s).keys ∧ ((adj s').getD e.source []).keys = ((adj s).getD e.source []).keys) s
      (pyFor (fun w : Walk S (EdgeDesc A) => (adj w.obj).keys) (forArcs (fun w => adj w.obj) · (Walk.body exec plan)) ⟨s, []⟩) := by
  have h1 := pyFor_meets h.mono (aitems_outer (up := up) (I := fun w : Walk S (EdgeDesc A) => J w.obj) (adj := adj) (fun {w} hw => h.thin _ hw))
    (P := fun q e => e.source = q) (Q := fun e w w' => ((adj w'.obj).getD e.source []).keys = ((adj w.obj).getD e.source []).keys)
    (body := (forArcs (fun w => adj w.obj) · (Walk.body exec plan))) (s := ⟨s, []⟩)
    (by rintro x y e rfl h2; exact h2) (by rintro w x e - rfl h2; exact mem_outer_dlt h2) (fun q w hw _ => ?_) hs
  · refine delivers (I := fun w => J w.obj) h1 (fun xs => h.inv_run xs hs) (fun _ e _ _ => ⟨_, rfl⟩) (fun w e hw _ => (hitems _ _ hw).symm) ?_
    intro e w w' _
    exact and_comm
  · obtain ⟨new, a1, a2, a3, a4, a5, a6, a7⟩ := h.arc_meets q hw
    have a3' : ∀ e ∈ new, e.source = q := fun e he => (a3 e he).elim fun _ k => k.1
    refine ⟨new, a1, a2, a3', a4, a5, a6.trans (allQ_congr a3' ?_ _), fun hok e he => a7 hok e ⟨_, he, rfl⟩⟩
    rintro e s s' rfl
    simp

end

/-! ## The calls on an automaton -/

omit [DecidableEq A] in
theorem thin_set {a : AAdj A} (h : Thin a) (q : Nat) {d : Dict A Nat} (hd : Dict.NodupKeys d) : Thin (a.set q d) := by
  refine ⟨Dict.nodupKeys_set h.outer _ _, fun q' d' hq => ?_⟩
  rw [Dict.get?_set] at hq
  split at hq
  · cases hq; exact hd
  · exact h.inner _ _ hq

theorem nodupKeys_erase {K V : Type} [DecidableEq K] {d : Dict K V} (h : Dict.NodupKeys d) (k : K) : Dict.NodupKeys (d.erase k) :=
  List.Nodup.sublist ((Dict.erase_sublist d k).map Prod.fst) h

theorem down_eraseLabel {a : AAdj A} (h : Thin a) {q : Nat} {d : Dict A Nat} (hd : a.get? q = some d) (x : A) :
    Thin (a.set q (d.erase x)) ∧ ADown a (a.set q (d.erase x)) := by
  refine ⟨thin_set h q (nodupKeys_erase (h.inner _ _ hd) x), ?_, fun w => ?_, fun w y r hr => ?_⟩
  · rw [Dict.keys_set_of_mem _ _ _ ((Dict.mem_keys_iff _ _).2 ⟨_, hd⟩)]
  · rw [Dict.getD_set]
    split
    · next e => subst e; rw [Dict.getD, hd]; exact (Dict.erase_sublist d x).map Prod.fst
    · exact .refl _
  · unfold dlt at hr ⊢
    rw [Dict.getD_set] at hr
    split at hr
    · next e =>
      subst e
      rw [Dict.get?_erase (h.inner _ _ hd)] at hr
      split at hr
      · cases hr
      · rw [Dict.getD, hd]; exact hr
    · exact hr

theorem down_eraseState {a : AAdj A} (h : Thin a) (q : Nat) : Thin (a.erase q) ∧ ADown a (a.erase q) := by
  refine ⟨⟨nodupKeys_erase h.outer q, fun q' d hq => ?_⟩, (Dict.erase_sublist a q).map Prod.fst, fun w => ?_, fun w y r hr => ?_⟩
  · rw [Dict.get?_erase h.outer] at hq
    split at hq
    · cases hq
    · exact h.inner _ _ hq
  · rw [Dict.getD_eq, Dict.getD_eq, Dict.get?_erase h.outer]
    split
    · exact List.nil_sublist _
    · exact .refl _
  · unfold dlt at hr ⊢
    rw [Dict.getD_eq, Dict.get?_erase h.outer] at hr
    split at hr
    · simp at hr
    · rw [Dict.getD_eq]; exact hr

theorem up_state {a : AAdj A} (h : Thin a) {q : Nat} (hq : q ∉ a.keys) : Thin (a.set q []) ∧ AUp a (a.set q []) := by
  have hg := (Dict.get?_eq_none_iff a q).2 hq
  refine ⟨thin_set h q Dict.nodupKeys_nil, ?_, fun w => ?_, fun w y r hr => ?_⟩
  · rw [Dict.keys_set_of_not_mem _ _ _ hq]; exact List.sublist_append_left _ _
  · rw [Dict.getD_set]
    split
    · next e => subst e; rw [Dict.getD_eq, hg]; exact .refl _
    · exact .refl _
  · unfold dlt at hr ⊢
    rw [Dict.getD_set]
    split
    · next e => subst e; rw [Dict.getD_eq, hg] at hr; simp at hr
    · exact hr

theorem up_label {a : AAdj A} (h : Thin a) {q : Nat} {d : Dict A Nat} (hd : a.get? q = some d) {x : A} (r : Nat)
    (hx : ∀ r', dlt a q x ≠ some (r' + 1)) : Thin (a.set q (d.set x r)) ∧ AUp a (a.set q (d.set x r)) := by
  refine ⟨thin_set h q (Dict.nodupKeys_set (h.inner _ _ hd) _ _), ?_, fun w => ?_, fun w y r' hr => ?_⟩
  · rw [Dict.keys_set_of_mem _ _ _ ((Dict.mem_keys_iff _ _).2 ⟨_, hd⟩)]
  · rw [Dict.getD_set]
    split
    · next e =>
      subst e
      rw [Dict.getD, hd]
      show d.keys.Sublist _
      by_cases hm : x ∈ d.keys
      · rw [Dict.keys_set_of_mem _ _ _ hm]
      · rw [Dict.keys_set_of_not_mem _ _ _ hm]; exact List.sublist_append_left _ _
    · exact .refl _
  · by_cases hw : w = q
    · subst hw
      have hxy : x ≠ y := by rintro rfl; exact hx _ hr
      unfold dlt at hr ⊢
      rw [Dict.getD_set, if_pos rfl, Dict.get?_set, if_neg hxy]
      rw [Dict.getD, hd] at hr; exact hr
    · unfold dlt at hr ⊢
      rw [Dict.getD_set, if_neg (Ne.symm hw)]; exact hr

/-- The invariant and the change of a method that removes. -/
abbrev AKeepsDown (m : PyM (Automaton A) R) : Prop := Keeps (fun g : Automaton A => Thin g.adj) (fun g g' => ADown g.adj g'.adj) m

theorem adown_refl (g : Automaton A) : ADown g.adj g.adj := ADown.refl _
theorem adown_trans (a b c : Automaton A) (h : ADown a.adj b.adj) (h' : ADown b.adj c.adj) : ADown a.adj c.adj := h.trans h'

theorem automaton_removeEdge {g : Automaton A} (h : Thin g.adj) (e : EdgeDesc A) : Thin (g.removeEdge e).adj ∧ ADown g.adj (g.removeEdge e).adj := by
  unfold Automaton.removeEdge
  split
  · exact ⟨h, ADown.refl _⟩
  · next d hd =>
    split
    · exact down_eraseLabel h hd _
    · exact ⟨h, ADown.refl _⟩

theorem automaton_removeVertexM (u : Nat) : AKeepsDown (Automaton.removeVertexM u : PyM (Automaton A) Unit) := by
  have hE : ∀ l, AKeepsDown (PyM.each (Automaton.removeEdgeM (A := A)) l) := keeps_each adown_refl adown_trans fun e g hg => automaton_removeEdge hg e
  refine keeps_get fun s hs => keeps_bind adown_trans (hE _) (fun _ => keeps_get fun s hs =>
    keeps_bind adown_trans (hE _) (fun _ => keeps_get fun s hs => ?_) s hs) s hs
  change Thin (PyM.bind (PyM.lift (s.adj.delE u)) (fun adj => PyM.put { s with adj }) s).2.adj ∧ _
  unfold Dict.delE
  split
  · exact down_eraseState hs u
  · exact ⟨hs, ADown.refl _⟩

theorem automaton_removes {op : AOp A} (h : (∃ e, op = .removeEdge e) ∨ (∃ u, op = .removeVertex u) ∨ op = .clear ∨ (∃ q b, op = .setInitial q b) ∨
    ∃ q b, op = .setFinal q b) : AKeepsDown (Automaton.execM op) := by
  rcases h with ⟨e, rfl⟩ | ⟨u, rfl⟩ | rfl | ⟨q, b, rfl⟩ | ⟨q, b, rfl⟩
  · exact fun g hg => automaton_removeEdge hg e
  · exact automaton_removeVertexM u
  · refine keeps_get fun s hs => ?_
    exact keeps_each (J := fun g : Automaton A => Thin g.adj) (T := fun g g' => ADown g.adj g'.adj) adown_refl adown_trans automaton_removeVertexM
      s.vertices { s with lastVertexId := 0 } hs
  · intro g hg
    have : (g.setInitial q b).adj = g.adj := by unfold Automaton.setInitial; split <;> (try split) <;> rfl
    show Thin (g.setInitial q b).adj ∧ ADown g.adj (g.setInitial q b).adj
    rw [this]; exact ⟨hg, ADown.refl _⟩
  · exact fun g hg => ⟨hg, ADown.refl _⟩

/-- The states are those issued by the counter. -/
structure AUpInv (g : Automaton A) : Prop where
  thin : Thin g.adj
  bound : ∀ u ∈ g.adj.keys, u < g.lastVertexId

/-- The invariant and the change of a method that adds. -/
abbrev AKeepsUp (m : PyM (Automaton A) R) : Prop := Keeps AUpInv (fun g g' => AUp g.adj g'.adj) m

theorem aup_refl (g : Automaton A) : AUp g.adj g.adj := AUp.refl _
theorem aup_trans (a b c : Automaton A) (h : AUp a.adj b.adj) (h' : AUp b.adj c.adj) : AUp a.adj c.adj := h.trans h'

theorem automaton_addEdgeM (q r : Nat) (a : A) : AKeepsUp (Automaton.addEdgeM q r a) := by
  refine keeps_atomic aup_refl fun g x g' hw heq => ?_
  unfold Automaton.addEdge at heq
  split at heq
  · cases heq; exact ⟨hw, AUp.refl _⟩
  · next hne =>
    unfold Dict.getE at heq
    cases hd : g.adj.get? q with
    | none => rw [hd] at heq; cases heq
    | some d =>
      rw [hd] at heq; cases heq
      have := up_label hw.thin hd r (x := a) fun r' hr => hne r' hr
      refine ⟨⟨this.1, fun u hu => hw.bound u ?_⟩, this.2⟩
      rwa [Dict.keys_set_of_mem _ _ _ ((Dict.mem_keys_iff _ _).2 ⟨_, hd⟩)] at hu

theorem automaton_addVertex {g : Automaton A} (hw : AUpInv g) : AUpInv g.addVertex.2 ∧ AUp g.adj g.addVertex.2.adj := by
  have hn : g.lastVertexId ∉ g.adj.keys := fun h => Nat.lt_irrefl _ (hw.bound _ h)
  have := up_state hw.thin hn
  refine ⟨⟨this.1, fun u hu => ?_⟩, this.2⟩
  simp only [Automaton.addVertex] at hu ⊢
  rw [Dict.mem_keys_set] at hu
  rcases hu with rfl | hu
  · exact Nat.lt_succ_self _
  · exact Nat.lt_succ_of_lt (hw.bound u hu)

theorem automaton_adds {op : AOp A} (h : op = .addVertex ∨ (∃ q r a, op = .addEdge q r a) ∨ (∃ q b, op = .setInitial q b) ∨
    ∃ q b, op = .setFinal q b) : AKeepsUp (Automaton.execM op) := by
  rcases h with rfl | ⟨q, r, a, rfl⟩ | ⟨q, b, rfl⟩ | ⟨q, b, rfl⟩
  · exact fun g hg => automaton_addVertex hg
  · exact keeps_bind aup_trans (automaton_addEdgeM q r a) fun _ => keeps_pure aup_refl _
  · intro g hg
    have h1 : (g.setInitial q b).adj = g.adj := by unfold Automaton.setInitial; split <;> (try split) <;> rfl
    have h2 : (g.setInitial q b).lastVertexId = g.lastVertexId := by unfold Automaton.setInitial; split <;> (try split) <;> rfl
    show AUpInv (g.setInitial q b) ∧ AUp g.adj (g.setInitial q b).adj
    refine ⟨⟨by rw [h1]; exact hg.thin, by rw [h1, h2]; exact hg.bound⟩, ?_⟩
    rw [h1]; exact AUp.refl _
  · exact fun g hg => ⟨⟨hg.thin, hg.bound⟩, AUp.refl _⟩

/-! ## The contents of an automaton -/

theorem exists_bound (l : List Nat) : ∃ n, ∀ q ∈ l, q < n := by
  induction l with
  | nil => exact ⟨0, by simp⟩
  | cons x l ih =>
    obtain ⟨n, hn⟩ := ih
    refine ⟨max n (x + 1), fun q hq => ?_⟩
    rcases List.mem_cons.1 hq with rfl | hq
    · omega
    · have := hn q hq; omega

theorem mem_edges_thin {g : Automaton A} (hg : Thin g.adj) (e : EdgeDesc A) : e ∈ g.edges ↔ dlt g.adj e.source e.distinguisher = some e.target := by
  obtain ⟨n, hn⟩ := exists_bound g.vertices
  have := Automaton.mem_edges (g := { g with lastVertexId := n }) ⟨hg.outer, hg.inner, hn⟩ (e := e)
  exact this

theorem mem_outEdges_thin {g : Automaton A} (hg : Thin g.adj) (q : Nat) (e : EdgeDesc A) :
    e ∈ g.outEdges q ↔ e.source = q ∧ dlt g.adj e.source e.distinguisher = some e.target := by
  obtain ⟨n, hn⟩ := exists_bound g.vertices
  have := Automaton.mem_outEdges (g := { g with lastVertexId := n }) ⟨hg.outer, hg.inner, hn⟩ (q := q) (e := e)
  exact this

end Lazy
end PyBGL
