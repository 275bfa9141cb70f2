import Verif.Spec.LazyAutomaton
import Verif.Spec.Tried
import Verif.Proofs.LazyIncidenceAutomaton

/-!
# C162: loops over `out_edges(q)` that change an incidence automaton

As for an `Automaton` (C161), except that the removal of `q` itself goes unnoticed: the loop then delivers transitions that are no longer in the
automaton.
-/

namespace PyBGL
open Lazy

variable {A : Type} [DecidableEq A]

/-- The transitions in the dictionary held by an iterator created by `out_edges(q)`. -/
def Held.transitions (q : Nat) (s : Held A) : List (EdgeDesc A) := (Held.contents q s).map fun p => ⟨q, p.2, p.1⟩

/-- The iterator has no effect: the calls return, raise and change the automaton as if there were none. -/
theorem C162_calls (q : Nat) (op : AOp A) (s : Held A) :
    (Held.execM q op s).1 = (IAutomaton.execM op s.g).1 ∧ (Held.execM q op s).2.g = (IAutomaton.execM op s.g).2 := sim_execM q op s

/-- As long as `q` is a state of the automaton, the dictionary held is `adjacencies[q]`. -/
theorem C162_attached (q : Nat) (g : IAutomaton A) : Held.transitions q ⟨g, none⟩ = g.a.outEdges q := rfl

section helpers

private theorem labels_eq (q : Nat) (s : Held A) : (Held.transitions q s).map (·.distinguisher) = (Held.contents q s).keys := by
  simp [Held.transitions, Dict.keys]

private theorem labelsFrom_eq (g : Automaton A) (q : Nat) : labelsFrom g q = (g.adj.getD q []).keys := by
  simp [labelsFrom, Automaton.outEdges, Dict.keys]

private theorem mem_transitions {q : Nat} {s : Held A} (hs : HThin s) (e : EdgeDesc A) :
    e ∈ Held.transitions q s ↔ e.source = q ∧ InAut (heldAdj q) e s := by
  obtain ⟨u, r, a⟩ := e
  simp only [Held.transitions, List.mem_map, Prod.exists, EdgeDesc.mk.injEq, InAut, dlt, heldAdj_getD]
  constructor
  · rintro ⟨a', r', h, rfl, rfl, rfl⟩
    rw [if_pos rfl]
    exact ⟨rfl, Dict.get?_of_mem (hs.contents q) h⟩
  · rintro ⟨rfl, h⟩
    rw [if_pos rfl] at h
    exact ⟨a, r, Dict.mem_of_get? h, rfl, rfl, rfl⟩

end helpers

/-- A loop over `out_edges(q)` delivers the transitions of the dictionary it holds. -/
theorem C162_held {g : IAutomaton A} {l : List (AOp A × Except PyErr Unit)} (h : Tried (fun _ op => op ≠ .clear) IAutomaton.execM .empty g l)
    {plan : List (EdgeDesc A) → List (AOp A)} (hp : AddsStates plan ∨ RemovesStates plan) (q : Nat) :
    Delivers (Held.execM q) plan (Held.transitions q)
      (fun _ s s' => (Held.transitions q s').map (·.distinguisher) = (Held.transitions q s).map (·.distinguisher)) ⟨g, none⟩
      (Held.forOutEdges Walk.obj q (Walk.body (Held.execM q) plan) ⟨⟨g, none⟩, []⟩) := by
  have hi := iaut_inv h
  have e : (fun (_ : EdgeDesc A) (s s' : Held A) => (Held.transitions q s').map (·.distinguisher) = (Held.transitions q s).map (·.distinguisher)) =
      fun _ s s' => ((heldAdj q s').getD q []).keys = ((heldAdj q s).getD q []).keys := by
    funext _ s s'
    rw [labels_eq, labels_eq, heldAdj_getD, heldAdj_getD, if_pos rfl, if_pos rfl]
  rw [e, forOutEdges_eq]
  rcases hp with hp | hp
  · have hst : ASteady (Held.execM q) plan HUp (heldAdj q) true := by
      refine ⟨fun s hs => hs.thin.held q, fun xs s hs => ?_⟩
      exact keeps_calls (T := fun s s' => AUp (heldAdj q s) (heldAdj q s')) (fun s => AUp.refl _) (fun _ _ _ k k' => k.trans k') (plan xs)
        (fun op ho => held_adds q (hp xs op ho)) s hs
    exact hst.arcsOf q (items := Held.transitions q) (fun s e hs => mem_transitions hs.thin e) ⟨hi, fun d hd => by cases hd⟩
  · have hst : ASteady (Held.execM q) plan HThin (heldAdj q) false := by
      refine ⟨fun s hs => hs.held q, fun xs s hs => ?_⟩
      exact keeps_calls (hd_refl q) (hd_trans q) (plan xs) (fun op ho => held_removes q (hp xs op ho)) s hs
    exact hst.arcsOf q (items := Held.transitions q) (fun s e hs => mem_transitions hs e) ⟨hi.thin, fun d hd => by cases hd⟩

/-- The property for the bodies that do not remove `q`. -/
theorem C162_out_edges_partial {g : IAutomaton A} {l : List (AOp A × Except PyErr Unit)} (h : Tried (fun _ op => op ≠ .clear) IAutomaton.execM .empty g l)
    {plan : List (EdgeDesc A) → List (AOp A)} (hp : AddsStates plan ∨ RemovesStates plan) (q : Nat)
    (hq : ∀ es, .removeVertex q ∉ plan es ∧ .clear ∉ plan es) :
    Delivers (Held.execM q) plan (fun s => s.g.a.outEdges q) (fun _ s s' => labelsFrom s'.g.a q = labelsFrom s.g.a q) ⟨g, none⟩
      (Held.forOutEdges Walk.obj q (Walk.body (Held.execM q) plan) ⟨⟨g, none⟩, []⟩) := by
  refine Lazy.Delivers.change (C162_held h hp q) (J := fun s => s.frozen = none) rfl ?_ ?_ ?_
  · intro xs s hs
    refine (keeps_calls (J := fun s => s.frozen = none) (T := fun _ _ => True) (fun _ => trivial) (fun _ _ _ _ _ => trivial) (plan xs) ?_ s hs).1
    intro op ho s hs
    refine ⟨?_, trivial⟩
    cases op with
    | removeVertex u =>
      have hu : u ≠ q := by rintro rfl; exact (hq xs).1 ho
      show ((Held.onObj (IAutomaton.removeInM u) >>= fun _ => Held.removeOutM q u) s).2.frozen = none
      simp only [bind, PyM.bind]
      rcases he : Held.onObj (IAutomaton.removeInM u) s with ⟨x | x, s'⟩
      · have : s' = (Held.onObj (IAutomaton.removeInM u) s).2 := by rw [he]
        rw [this]; exact hs
      · have : s' = (Held.onObj (IAutomaton.removeInM u) s).2 := by rw [he]
        simp only [Held.removeOutM, hu, false_and, if_false]
        rw [PyM.get_bind]
        simp only [bind, PyM.bind]
        rcases he2 : Held.onObj (IAutomaton.removeOutM u) s' with ⟨y | y, s''⟩
        · have h2 : s'' = (Held.onObj (IAutomaton.removeOutM u) s').2 := by rw [he2]
          simp only [h2]; show s'.frozen = none; rw [this]; exact hs
        · have h2 : s'' = (Held.onObj (IAutomaton.removeOutM u) s').2 := by rw [he2]
          show s''.frozen = none
          rw [h2]; show s'.frozen = none; rw [this]; exact hs
    | clear => exact absurd ho (hq xs).2
    | addVertex => exact hs
    | addEdge q r a => exact hs
    | removeEdge e => exact hs
    | setInitial q b => exact hs
    | setFinal q b => exact hs
  · rintro ⟨g, fr⟩ (rfl : fr = none); rfl
  · rintro x ⟨g, fr⟩ ⟨g', fr'⟩ (rfl : fr = none) (rfl : fr' = none)
    rw [labels_eq, labels_eq, labelsFrom_eq, labelsFrom_eq]; rfl

/-- `for e in g.out_edges(q): g.remove_vertex(q)`, where `q` has no loop: all the transitions of `q` are delivered and the loop ends normally, although
the first turn has removed them. -/
theorem C162_remove_source {g : IAutomaton A} {l : List (AOp A × Except PyErr Unit)} (h : Tried (fun _ op => op ≠ .clear) IAutomaton.execM .empty g l)
    {q : Nat} (hok : (IAutomaton.execM (.removeVertex q) g).1 = .ok ()) (hq : q ∈ g.a.vertices) (hloop : ∀ e ∈ g.inEdges q, e.source ≠ q) :
    ∃ w, Held.forOutEdges Walk.obj q (Walk.body (Held.execM q) fun _ => [.removeVertex q]) ⟨⟨g, none⟩, []⟩ = (.ok (), w) ∧ w.seen.Nodup ∧
      ∀ e, e ∈ w.seen ↔ e ∈ g.a.outEdges q := by
  have hp : RemovesStates fun _ : List (EdgeDesc A) => [AOp.removeVertex (A := A) q] :=
    fun _ op ho => .inr (.inl ⟨q, List.mem_singleton.1 ho⟩)
  have hd := C162_held h (.inr hp) q
  have hkeep : ∀ (es : List (EdgeDesc A)) (s : Held A), (s = ⟨g, none⟩ ∨ s.frozen = some (g.a.adj.getD q [])) →
      (afterCalls (Held.execM q) [AOp.removeVertex q] s = ⟨g, none⟩ ∨ (afterCalls (Held.execM q) [AOp.removeVertex q] s).frozen = some (g.a.adj.getD q [])) := by
    rintro - s (rfl | hs)
    · exact .inr (held_removed hok hq hloop)
    · exact .inr (frozen_removeVertexM hs)
  have hcont : ∀ s : Held A, (s = ⟨g, none⟩ ∨ s.frozen = some (g.a.adj.getD q [])) → Held.contents q s = g.a.adj.getD q [] := by
    rintro s (rfl | hs)
    · rfl
    · unfold Held.contents; rw [hs]
  generalize Held.forOutEdges Walk.obj q (Walk.body (Held.execM q) fun _ => [AOp.removeVertex q]) ⟨⟨g, none⟩, []⟩ = out at hd ⊢
  obtain ⟨k1, k2⟩ := turns_inv hkeep out.2.seen [] ⟨g, none⟩ (.inl rfl)
  have hout : out.1 = .ok () := hd.detected.2 fun t ht => by
    rw [labels_eq, labels_eq, hcont _ (k2 t ht).1, hcont _ (k2 t ht).2]
  refine ⟨out.2, Prod.ext hout rfl, hd.once, fun e => ⟨fun he => ?_, fun he => hd.complete hout e he ?_⟩⟩
  · obtain ⟨t, ht, rfl⟩ := mem_turns (exec := Held.execM q) (plan := fun _ => [AOp.removeVertex q]) (past := []) (s := ⟨g, none⟩) he
    have := hd.present t ht
    unfold Held.transitions at this
    rw [hcont _ (k2 t ht).1] at this
    exact this
  · rw [hd.obj]
    unfold Held.transitions
    rw [hcont _ k1]; exact he

/-! ## The counterexample -/

/-- Two states, two transitions from 0 to 1. -/
private def pair : IAutomaton Char := afterCalls IAutomaton.execM [.addVertex, .addVertex, .addEdge 0 1 'a', .addEdge 0 1 'b'] .empty

private theorem tried_calls : ∀ (ops : List (AOp Char)) g l, (∀ op ∈ ops, op ≠ .clear) → Tried (fun _ op => op ≠ .clear) IAutomaton.execM .empty g l →
    ∃ l', Tried (fun _ op => op ≠ .clear) IAutomaton.execM .empty (afterCalls IAutomaton.execM ops g) l'
  | [], _, l, _, h => ⟨l, h⟩
  | op :: ops, _, _, hc, h => tried_calls ops _ _ (fun o ho => hc o (List.mem_cons_of_mem _ ho)) (.call op (hc op List.mem_cons_self) h)

private theorem pair_tried : ∃ l, Tried (fun _ op => op ≠ .clear) IAutomaton.execM .empty pair l :=
  tried_calls _ _ _ (by simp) .start

/-- The body removes state 0 at the first turn: the second transition is delivered after it was removed, and the loop ends normally. -/
theorem C162_out_edges_counterexample : ∃ (g : IAutomaton Char) (l : List (AOp Char × Except PyErr Unit)) (plan : List (EdgeDesc Char) → List (AOp Char)),
    Tried (fun _ op => op ≠ .clear) IAutomaton.execM .empty g l ∧ RemovesStates plan ∧
      ∃ w, Held.forOutEdges Walk.obj 0 (Walk.body (Held.execM 0) plan) ⟨⟨g, none⟩, []⟩ = (.ok (), w) ∧
        ∃ t ∈ turns (Held.execM 0) plan ⟨g, none⟩ [] w.seen, t.1 ∉ t.2.1.g.a.outEdges 0 ∧ t.2.1.g.a.vertices = [1] := by
  obtain ⟨l, h⟩ := pair_tried
  refine ⟨pair, l, fun _ => [.removeVertex 0], h, fun _ op ho => .inr (.inl ⟨0, List.mem_singleton.1 ho⟩), _, rfl,
    (⟨0, 1, 'b'⟩, afterCalls (Held.execM 0) [.removeVertex 0] ⟨pair, none⟩, _), List.mem_cons_of_mem _ List.mem_cons_self, ?_, rfl⟩
  show (⟨0, 1, 'b'⟩ : EdgeDesc Char) ∉ []
  simp

/-! ## Non-vacuity -/

example : ∃ w, Held.forOutEdges Walk.obj 0 (Walk.body (Held.execM 0) fun _ => [.removeVertex 0]) ⟨⟨pair, none⟩, []⟩ = (.ok (), w) ∧
    ∀ e, e ∈ w.seen ↔ e ∈ pair.a.outEdges 0 := by
  obtain ⟨l, h⟩ := pair_tried
  obtain ⟨w, h1, -, h2⟩ := C162_remove_source h (q := 0) rfl (by decide) (by
    rw [show pair.inEdges 0 = [] from rfl]; simp)
  exact ⟨w, h1, h2⟩

example : pair.a.outEdges 0 = [⟨0, 1, 'a'⟩, ⟨0, 1, 'b'⟩] := rfl

/-- A transition added from the current state is noticed. -/
example : (Held.forOutEdges Walk.obj 0 (Walk.body (Held.execM 0) fun _ => [.addEdge 0 1 'c']) ⟨⟨pair, none⟩, []⟩).1 = .error .runtimeError := rfl

/-- The removal of the target is noticed. -/
example : (Held.forOutEdges Walk.obj 0 (Walk.body (Held.execM 0) fun _ => [.removeVertex 1]) ⟨⟨pair, none⟩, []⟩).1 = .error .runtimeError := rfl

end PyBGL
