import Verif.Spec.LazyAutomaton
import Verif.Spec.Tried
import Verif.Proofs.LazyAutomaton

/-!
# C161: loops that change the automaton they iterate on

`vertices()`, `edges()` and `out_edges()` of an `Automaton` copy nothing: the body of a loop over them may change the automaton. If it only adds states
and transitions, or only removes some, then `Delivers` (Spec/LazyIter.lean) says what happens. A transition to state 0 may be overwritten by
`add_edge`, which is not noticed.
-/

namespace PyBGL
open Lazy

variable {A : Type} [DecidableEq A]

section helpers

private theorem up {X : Type} {plan : List X → List (AOp A)} (hp : AddsStates plan) : ASteady Automaton.execM plan AUpInv Automaton.adj true where
  thin _ h := h.thin
  step xs s hs := keeps_calls aup_refl aup_trans (plan xs) (fun op ho => automaton_adds (hp xs op ho)) s hs

private theorem down {X : Type} {plan : List X → List (AOp A)} (hp : RemovesStates plan) :
    ASteady Automaton.execM plan (fun g => Thin g.adj) Automaton.adj false where
  thin _ h := h
  step xs s hs := keeps_calls adown_refl adown_trans (plan xs) (fun op ho => automaton_removes (hp xs op ho)) s hs

private theorem inv {g : Automaton A} {l : List (AOp A × Except PyErr Unit)} (h : Tried Anything Automaton.execM .empty g l) : AUpInv g := by
  have := (Automaton.tried_reachable h).awf
  exact ⟨⟨this.outer, this.inner⟩, this.lt⟩

omit [DecidableEq A] in
private theorem labelsFrom_eq (g : Automaton A) (q : Nat) : labelsFrom g q = (g.adj.getD q []).keys := by
  simp [labelsFrom, Automaton.outEdges, Dict.keys]

end helpers

/-- A loop over `edges()`: each transition delivered is in the automaton at that time, none is delivered twice, the transitions there from the
beginning to the end are delivered if the loop ends normally, and it ends so exactly if no turn changes the states or the labels from the source of the
current transition. -/
theorem C161_edges {g : Automaton A} {l : List (AOp A × Except PyErr Unit)} (h : Tried Anything Automaton.execM .empty g l)
    {plan : List (EdgeDesc A) → List (AOp A)} (hp : AddsStates plan ∨ RemovesStates plan) :
    Delivers Automaton.execM plan Automaton.edges (fun e g g' => g'.vertices = g.vertices ∧ labelsFrom g' e.source = labelsFrom g e.source) g
      (Automaton.forEdges Walk.obj (Walk.body Automaton.execM plan) ⟨g, []⟩) := by
  simp only [labelsFrom_eq]
  rcases hp with hp | hp
  · exact (up hp).arcs (items := Automaton.edges) (fun s e hs => mem_edges_thin hs.thin e) (inv h)
  · exact (down hp).arcs (items := Automaton.edges) (fun s e hs => mem_edges_thin hs e) (inv h).thin

/-- A loop over `out_edges(q)`. -/
theorem C161_out_edges {g : Automaton A} {l : List (AOp A × Except PyErr Unit)} (h : Tried Anything Automaton.execM .empty g l)
    {plan : List (EdgeDesc A) → List (AOp A)} (hp : AddsStates plan ∨ RemovesStates plan) (q : Nat) :
    Delivers Automaton.execM plan (fun g => g.outEdges q) (fun _ g g' => labelsFrom g' q = labelsFrom g q) g
      (Automaton.forOutEdges Walk.obj q (Walk.body Automaton.execM plan) ⟨g, []⟩) := by
  simp only [labelsFrom_eq]
  rcases hp with hp | hp
  · exact (up hp).arcsOf q (items := fun g => g.outEdges q) (fun s e hs => mem_outEdges_thin hs.thin q e) (inv h)
  · exact (down hp).arcsOf q (items := fun g => g.outEdges q) (fun s e hs => mem_outEdges_thin hs q e) (inv h).thin

/-- A loop over `vertices()`. -/
theorem C161_vertices {g : Automaton A} {l : List (AOp A × Except PyErr Unit)} (h : Tried Anything Automaton.execM .empty g l)
    {plan : List Nat → List (AOp A)} (hp : AddsStates plan ∨ RemovesStates plan) :
    Delivers Automaton.execM plan Automaton.vertices (fun _ g g' => g'.vertices = g.vertices) g
      (Automaton.forVertices Walk.obj (Walk.body Automaton.execM plan) ⟨g, []⟩) := by
  rcases hp with hp | hp
  · exact (up hp).vertices (inv h)
  · exact (down hp).vertices (inv h).thin

/-! ## Consequences -/

/-- What does not change during the calls does not change during the loop. -/
private theorem turns_const {S X Op Out Y : Type} {exec : Op → PyM S Out} {plan : List X → List Op} {J : S → Prop} (f : S → Y)
    (hk : ∀ xs s, J s → J (afterCalls exec (plan xs) s) ∧ f (afterCalls exec (plan xs) s) = f s) : ∀ (xs past : List X) (s : S), J s →
    f (afterTurns exec plan s past xs) = f s ∧ ∀ t ∈ turns exec plan s past xs, J t.2.1 ∧ f t.2.1 = f s ∧ f t.2.2 = f s
  | [], _, _, _ => ⟨rfl, by simp [turns]⟩
  | x :: xs, past, s, hs => by
    obtain ⟨h1, h2⟩ := hk (past ++ [x]) s hs
    obtain ⟨h3, h4⟩ := turns_const f hk xs (past ++ [x]) _ h1
    refine ⟨h3.trans h2, fun t ht => ?_⟩
    rcases List.mem_cons.1 ht with rfl | ht
    · exact ⟨hs, rfl, h2⟩
    · obtain ⟨a, b, c⟩ := h4 t ht
      exact ⟨a, b.trans h2, c.trans h2⟩

/-- A body that adds states, and transitions from other states than `q`, may run in a loop over `out_edges(q)`: it ends normally, and delivers the
transitions from `q`. -/
theorem C161_other_states {g : Automaton A} {l : List (AOp A × Except PyErr Unit)} (h : Tried Anything Automaton.execM .empty g l)
    {plan : List (EdgeDesc A) → List (AOp A)} (hp : AddsStates plan) (q : Nat) (hq : ∀ es q' r a, .addEdge q' r a ∈ plan es → q' ≠ q) :
    ∃ w, Automaton.forOutEdges Walk.obj q (Walk.body Automaton.execM plan) ⟨g, []⟩ = (.ok (), w) ∧ w.seen.Nodup ∧
      (∀ e, e ∈ w.seen ↔ e ∈ g.outEdges q) ∧ w.obj.outEdges q = g.outEdges q := by
  have hd := C161_out_edges h (.inl hp) q
  generalize Automaton.forOutEdges Walk.obj q (Walk.body Automaton.execM plan) ⟨g, []⟩ = out at hd ⊢
  have hk : ∀ es (s : Automaton A), AUpInv s → AUpInv (afterCalls Automaton.execM (plan es) s) ∧
      (afterCalls Automaton.execM (plan es) s).adj.getD q [] = s.adj.getD q [] := by
    intro es s hs
    refine keeps_calls (J := AUpInv) (T := fun s s' => s'.adj.getD q [] = s.adj.getD q []) (fun _ => rfl) (fun _ _ _ k1 k2 => k2.trans k1) (plan es) ?_ s hs
    intro op ho s hs
    refine ⟨(automaton_adds (hp es op ho) s hs).1, ?_⟩
    rcases hp es op ho with rfl | ⟨q', r, a, rfl⟩ | ⟨q', b, rfl⟩ | ⟨q', b, rfl⟩
    · show (Dict.set s.adj s.lastVertexId []).getD q [] = _
      rw [Dict.getD_set]
      split
      · next e =>
        subst e
        have hn : s.lastVertexId ∉ s.adj.keys := fun h => Nat.lt_irrefl _ (hs.bound _ h)
        rw [Dict.getD_eq, (Dict.get?_eq_none_iff _ _).2 hn]; rfl
      · rfl
    · have hne := hq es q' r a ho
      have : (Automaton.execM (.addEdge q' r a) s).2 = (Automaton.addEdgeM q' r a s).2 := by
        show ((Automaton.addEdgeM q' r a >>= fun _ => pure ()) s).2 = _
        simp only [bind, PyM.bind]
        rcases Automaton.addEdgeM q' r a s with ⟨r | r, s'⟩ <;> rfl
      rw [this]
      unfold Automaton.addEdgeM PyM.atomic
      cases ha : s.addEdge q' r a with
      | error e => dsimp only; rw [ha]; rfl
      | ok t =>
        obtain ⟨e, b, s'⟩ := t
        dsimp only
        rw [ha]
        show s'.adj.getD q [] = _
        unfold Automaton.addEdge at ha
        split at ha
        · cases ha; rfl
        · unfold Dict.getE at ha
          cases hd : s.adj.get? q' with
          | none => rw [hd] at ha; cases ha
          | some d =>
            rw [hd] at ha; cases ha
            show (Dict.set s.adj q' _).getD q [] = _
            rw [Dict.getD_set, if_neg hne]
    · show (s.setInitial q' b).adj.getD q [] = _
      unfold Automaton.setInitial; split <;> (try split) <;> rfl
    · rfl
  obtain ⟨k1, k2⟩ := turns_const (fun s => s.adj.getD q []) hk out.2.seen [] g (inv h)
  have hok : out.1 = .ok () := hd.detected.2 fun t ht => by
    rw [labelsFrom_eq, labelsFrom_eq, (k2 t ht).2.1, (k2 t ht).2.2]
  have hobj : out.2.obj.outEdges q = g.outEdges q := by
    unfold Automaton.outEdges; rw [hd.obj, k1]
  refine ⟨out.2, Prod.ext hok rfl, hd.once, fun e => ⟨fun he => ?_, fun he => hd.complete hok e he (by rw [hobj]; exact he)⟩, hobj⟩
  obtain ⟨t, ht, rfl⟩ := mem_turns (exec := Automaton.execM) (plan := plan) (past := []) (s := g) he
  have := hd.present t ht
  unfold Automaton.outEdges at this ⊢
  rw [(k2 t ht).2.1] at this
  exact this

/-- A body that sets initial and final states may run in a loop over `edges()`: it ends normally, and delivers all transitions. -/
theorem C161_flags {g : Automaton A} {l : List (AOp A × Except PyErr Unit)} (h : Tried Anything Automaton.execM .empty g l)
    {plan : List (EdgeDesc A) → List (AOp A)} (hp : ∀ es, ∀ op ∈ plan es, (∃ q b, op = .setInitial q b) ∨ ∃ q b, op = .setFinal q b) :
    ∃ w, Automaton.forEdges Walk.obj (Walk.body Automaton.execM plan) ⟨g, []⟩ = (.ok (), w) ∧ w.seen.Nodup ∧
      (∀ e, e ∈ w.seen ↔ e ∈ g.edges) ∧ w.obj.edges = g.edges := by
  have hd := C161_edges h (.inl fun es op ho => .inr (.inr (hp es op ho)))
  generalize Automaton.forEdges Walk.obj (Walk.body Automaton.execM plan) ⟨g, []⟩ = out at hd ⊢
  have hk : ∀ es (s : Automaton A), True → True ∧ (afterCalls Automaton.execM (plan es) s).adj = s.adj := by
    intro es s _
    refine keeps_calls (J := fun _ => True) (T := fun s s' : Automaton A => s'.adj = s.adj) (fun _ => rfl) (fun _ _ _ k1 k2 => Eq.trans k2 k1) (plan es) ?_ s trivial
    intro op ho s _
    refine ⟨trivial, ?_⟩
    rcases hp es op ho with ⟨q', b, rfl⟩ | ⟨q', b, rfl⟩
    · show (s.setInitial q' b).adj = _
      unfold Automaton.setInitial; split <;> (try split) <;> rfl
    · rfl
  obtain ⟨k1, k2⟩ := turns_const Automaton.adj hk out.2.seen [] g trivial
  have hok : out.1 = .ok () := hd.detected.2 fun t ht => by
    rw [labelsFrom_eq, labelsFrom_eq, Automaton.vertices, Automaton.vertices, (k2 t ht).2.1, (k2 t ht).2.2]; exact ⟨rfl, rfl⟩
  have hobj : out.2.obj.edges = g.edges := by
    unfold Automaton.edges; rw [hd.obj, k1]
  refine ⟨out.2, Prod.ext hok rfl, hd.once, fun e => ⟨fun he => ?_, fun he => hd.complete hok e he (by rw [hobj]; exact he)⟩, hobj⟩
  obtain ⟨t, ht, rfl⟩ := mem_turns (exec := Automaton.execM) (plan := plan) (past := []) (s := g) he
  have := hd.present t ht
  unfold Automaton.edges at this ⊢
  rw [(k2 t ht).2.1] at this
  exact this

/-! ## Non-vacuity -/

/-- Three states, transitions from 0 to 0 and 1, and from 1 to 2. -/
private def small : Automaton Char :=
  afterCalls Automaton.execM [.addVertex, .addVertex, .addVertex, .addEdge 0 0 'a', .addEdge 0 1 'b', .addEdge 1 2 'a'] .empty

private theorem small_tried : ∃ l, Tried Anything Automaton.execM .empty small l := by
  have : ∀ (ops : List (AOp Char)) g l, Tried Anything Automaton.execM .empty g l →
      ∃ l', Tried Anything Automaton.execM .empty (afterCalls Automaton.execM ops g) l' := by
    intro ops
    induction ops with
    | nil => intro g l h; exact ⟨l, h⟩
    | cons op ops ih => intro g l h; exact ih _ _ (.call op trivial h)
  exact this _ _ _ .start

/-- A transition added from a state not yet visited is delivered. -/
example : Automaton.forEdges Walk.obj (Walk.body Automaton.execM fun es => if es.length = 1 then [.addEdge 2 0 'c'] else []) ⟨small, []⟩ =
    (.ok (), ⟨afterCalls Automaton.execM [.addEdge 2 0 'c'] small, [⟨0, 0, 'a'⟩, ⟨0, 1, 'b'⟩, ⟨1, 2, 'a'⟩, ⟨2, 0, 'c'⟩]⟩) := rfl

/-- A transition added from the current state is noticed at once. -/
example : Automaton.forEdges Walk.obj (Walk.body Automaton.execM fun es => if es.length = 1 then [.addEdge 0 0 'c'] else []) ⟨small, []⟩ =
    (.error .runtimeError, ⟨afterCalls Automaton.execM [.addEdge 0 0 'c'] small, [⟨0, 0, 'a'⟩]⟩) := rfl

/-- A transition to state 0 is overwritten unnoticed. -/
example : Automaton.forOutEdges Walk.obj 0 (Walk.body Automaton.execM fun es => if es.length = 1 then [.addEdge 0 2 'a'] else []) ⟨small, []⟩ =
    (.ok (), ⟨afterCalls Automaton.execM [.addEdge 0 2 'a'] small, [⟨0, 0, 'a'⟩, ⟨0, 1, 'b'⟩]⟩) := rfl

/-- `for e in g.out_edges(0): g.remove_edge(e)` raises. -/
example : Automaton.forOutEdges Walk.obj 0 (Walk.body Automaton.execM fun es => es.getLast?.toList.map .removeEdge) ⟨small, []⟩ =
    (.error .runtimeError, ⟨afterCalls Automaton.execM [.removeEdge ⟨0, 0, 'a'⟩] small, [⟨0, 0, 'a'⟩]⟩) := rfl

/-- A loop that adds a state and a transition from it for each transition of state 0. -/
example : ∃ w, Automaton.forOutEdges Walk.obj 0 (Walk.body Automaton.execM fun es => [.addVertex, .addEdge (es.length + 2) 0 'z']) ⟨small, []⟩ = (.ok (), w) ∧
    ∀ e, e ∈ w.seen ↔ e ∈ small.outEdges 0 := by
  obtain ⟨l, h⟩ := small_tried
  obtain ⟨w, h1, -, h2, -⟩ := C161_other_states h (plan := fun es => [.addVertex, .addEdge (es.length + 2) 0 'z'])
    (fun es op ho => by
      rcases List.mem_cons.1 ho with rfl | ho
      · exact .inl rfl
      · exact .inr (.inl ⟨_, _, _, List.mem_singleton.1 ho⟩)) 0
    (fun es q r a ho => by simp at ho; omega)
  exact ⟨w, h1, h2⟩

example : small.outEdges 0 = [⟨0, 0, 'a'⟩, ⟨0, 1, 'b'⟩] := rfl

end PyBGL
