import Verif.Model.LazyIncidenceAutomaton
import Verif.Proofs.LazyAutomaton
import Verif.Spec.LazyAutomaton

/-! # Loops over the transitions of a state of an incidence automaton -/

namespace PyBGL
namespace Lazy
variable {A R : Type} [DecidableEq A]

omit [DecidableEq A] in
theorem keeps_read {S Q : Type} {J : S → Prop} {T : S → S → Prop} {f : S → PyM S Q} (hf : ∀ s, J s → J (f s s).2 ∧ T s (f s s).2) :
    Keeps J T (PyM.get >>= f) := fun s hs => hf s hs

omit [DecidableEq A] in
theorem keeps_then {S Q P : Type} {J : S → Prop} {T : S → S → Prop} (ht : ∀ a b c, T a b → T b c → T a c) {m : PyM S P} {f : P → PyM S Q}
    (hm : Keeps J T m) (hf : ∀ r, Keeps J T (f r)) : Keeps J T (m >>= f) := keeps_bind ht hm hf

/-! ## What the methods do to `adjacencies` -/

/-- The invariant and the change of a method that removes. -/
abbrev IADown (m : PyM (IAutomaton A) R) : Prop :=
  Keeps (fun g : IAutomaton A => Thin g.a.adj) (fun g g' => ADown g.a.adj g'.a.adj ∧ g'.a.lastVertexId = g.a.lastVertexId) m

theorem iad_refl (g : IAutomaton A) : ADown g.a.adj g.a.adj ∧ g.a.lastVertexId = g.a.lastVertexId := ⟨ADown.refl _, rfl⟩
theorem iad_trans (a b c : IAutomaton A) (h : ADown a.a.adj b.a.adj ∧ b.a.lastVertexId = a.a.lastVertexId)
    (h' : ADown b.a.adj c.a.adj ∧ c.a.lastVertexId = b.a.lastVertexId) : ADown a.a.adj c.a.adj ∧ c.a.lastVertexId = a.a.lastVertexId :=
  ⟨h.1.trans h'.1, h'.2.trans h.2⟩

theorem removeEdge_last (g : Automaton A) (e : EdgeDesc A) : (g.removeEdge e).lastVertexId = g.lastVertexId := by
  unfold Automaton.removeEdge
  split
  · rfl
  · split <;> rfl

/-- A change of `in_adjacencies` alone. -/
theorem iad_frame {g : IAutomaton A} (hg : Thin g.a.adj) {g' : IAutomaton A} (h : g'.a = g.a) :
    Thin g'.a.adj ∧ ADown g.a.adj g'.a.adj ∧ g'.a.lastVertexId = g.a.lastVertexId := by
  rw [h]; exact ⟨hg, ADown.refl _, rfl⟩

theorem iaut_removeEdgeM (e : EdgeDesc A) : IADown (IAutomaton.removeEdgeM e) := by
  unfold IAutomaton.removeEdgeM
  refine keeps_then iad_trans (fun g hg => ?_) fun _ => keeps_read fun g hg => iad_frame hg ?_
  · have := automaton_removeEdge hg e
    exact ⟨this.1, this.2, removeEdge_last _ _⟩
  · simp only [bind, PyM.bind, PyM.lift]
    rcases g.inAdj.getE e.target with x | d
    · rfl
    · rcases h2 : d.getE e.source with x | s
      · simp only [h2]
      · simp only [h2]
        split
        · split <;> rfl
        · rfl

theorem iaut_delTransitionM (e : EdgeDesc A) : IADown (IAutomaton.delTransitionM e) := by
  unfold IAutomaton.delTransitionM
  refine keeps_read fun g hg => ?_
  unfold IAutomaton.delTransition
  simp only [PyM.bind, PyM.lift, bind, Except.bind]
  unfold Dict.getE
  cases hd : g.a.adj.get? e.source with
  | none => exact iad_frame hg rfl
  | some d =>
    simp only
    unfold Dict.delE
    by_cases hc : d.contains e.distinguisher = true
    · simp only [hc, if_true]
      have := down_eraseLabel hg hd e.distinguisher
      exact ⟨this.1, this.2, rfl⟩
    · simp only [hc]
      exact iad_frame hg rfl

theorem iaut_dropInM (q : Nat) (e : EdgeDesc A) : IADown (IAutomaton.dropInM q e) := by
  unfold IAutomaton.dropInM
  refine keeps_read fun g hg => iad_frame hg ?_
  simp only [PyM.bind, PyM.lift, bind]
  rcases IAutomaton.dropIn q g.inAdj e with x | d <;> rfl

theorem iaut_removeInM (q : Nat) : IADown (IAutomaton.removeInM q : PyM (IAutomaton A) Unit) := by
  unfold IAutomaton.removeInM
  refine keeps_read fun g hg => ?_
  by_cases hc : g.inAdj.contains q = true
  · simp only [hc, if_true]
    refine keeps_then iad_trans (keeps_each iad_refl iad_trans iaut_delTransitionM _) (fun _ => keeps_read fun g hg => iad_frame hg ?_) g hg
    simp only [PyM.bind, PyM.lift, bind]
    rcases g.inAdj.delE q with x | d <;> rfl
  · simp only [hc]
    exact iad_frame hg rfl

theorem iaut_removeOutM (q : Nat) : IADown (IAutomaton.removeOutM q : PyM (IAutomaton A) Unit) := by
  unfold IAutomaton.removeOutM
  refine keeps_read fun g hg => ?_
  by_cases hc : g.a.adj.contains q = true
  · simp only [hc, if_true]
    refine keeps_then iad_trans (keeps_each iad_refl iad_trans (iaut_dropInM q) _) (fun _ => keeps_read fun g hg => ?_) g hg
    simp only [PyM.bind, PyM.lift, bind]
    unfold Dict.delE
    by_cases hc : g.a.adj.contains q = true
    · simp only [hc, if_true]
      have := down_eraseState hg q
      exact ⟨this.1, this.2, rfl⟩
    · simp only [hc]
      exact iad_frame hg rfl
  · simp only [hc]
    exact iad_frame hg rfl

theorem iaut_removeVertexM (q : Nat) : IADown (IAutomaton.removeVertexM q : PyM (IAutomaton A) Unit) :=
  keeps_then iad_trans (iaut_removeInM q) fun _ => iaut_removeOutM q

/-- The invariant and the change of a method that adds. -/
abbrev IAUp (m : PyM (IAutomaton A) R) : Prop := Keeps (fun g : IAutomaton A => AUpInv g.a) (fun g g' => AUp g.a.adj g'.a.adj) m

theorem iau_refl (g : IAutomaton A) : AUp g.a.adj g.a.adj := AUp.refl _
theorem iau_trans (a b c : IAutomaton A) (h : AUp a.a.adj b.a.adj) (h' : AUp b.a.adj c.a.adj) : AUp a.a.adj c.a.adj := h.trans h'

theorem iau_frame {g : IAutomaton A} (hg : AUpInv g.a) {g' : IAutomaton A} (h : g'.a = g.a) : AUpInv g'.a ∧ AUp g.a.adj g'.a.adj := by
  rw [h]; exact ⟨hg, AUp.refl _⟩

theorem iaut_addEdgeM (q r : Nat) (a : A) : IAUp (IAutomaton.addEdgeM q r a) := by
  unfold IAutomaton.addEdgeM
  refine keeps_then iau_trans (fun g hg => automaton_addEdgeM q r a g.a hg) fun p => ?_
  by_cases hp : p.2 = true
  · simp only [hp, if_true]
    refine keeps_read fun g hg => iau_frame hg ?_
    simp only [bind, PyM.bind, PyM.lift]
    rcases g.inAdj.getE r with x | d
    · rfl
    · simp only
      cases d.get? q <;> rfl
  · simp only [hp]
    exact keeps_pure iau_refl _

theorem setInitial_adj (g : Automaton A) (q : Nat) (b : Bool) : (g.setInitial q b).adj = g.adj ∧ (g.setInitial q b).lastVertexId = g.lastVertexId := by
  unfold Automaton.setInitial; split <;> (try split) <;> exact ⟨rfl, rfl⟩

theorem iaut_adds {op : AOp A} (h : op = .addVertex ∨ (∃ q r a, op = .addEdge q r a) ∨ (∃ q b, op = .setInitial q b) ∨
    ∃ q b, op = .setFinal q b) : IAUp (IAutomaton.execM op) := by
  rcases h with rfl | ⟨q, r, a, rfl⟩ | ⟨q, b, rfl⟩ | ⟨q, b, rfl⟩
  · exact fun g hg => automaton_addVertex hg
  · exact keeps_then iau_trans (iaut_addEdgeM q r a) fun _ => keeps_pure iau_refl _
  · exact fun g hg => automaton_adds (.inr (.inr (.inl ⟨q, b, rfl⟩))) g.a hg
  · exact fun g hg => automaton_adds (.inr (.inr (.inr ⟨q, b, rfl⟩))) g.a hg

theorem iaut_flags {op : AOp A} (h : (∃ q b, op = .setInitial q b) ∨ ∃ q b, op = .setFinal q b) : IADown (IAutomaton.execM op) := by
  rcases h with ⟨q, b, rfl⟩ | ⟨q, b, rfl⟩
  · intro g hg
    have := setInitial_adj g.a q b
    show Thin (g.a.setInitial q b).adj ∧ ADown g.a.adj (g.a.setInitial q b).adj ∧ (g.a.setInitial q b).lastVertexId = _
    rw [this.1]; exact ⟨hg, ADown.refl _, this.2⟩
  · exact fun g hg => ⟨hg, ADown.refl _, rfl⟩

/-- The states are those issued by the counter, after all calls but `clear`. -/
theorem iaut_inv {g : IAutomaton A} {l : List (AOp A × Except PyErr Unit)} (h : Tried (fun _ op => op ≠ .clear) IAutomaton.execM .empty g l) :
    AUpInv g.a := by
  have down : ∀ {m : PyM (IAutomaton A) Unit}, IADown m → ∀ g, AUpInv g.a → AUpInv (m g).2.a := by
    intro m hm g hg
    obtain ⟨a, b, c⟩ := hm g hg.thin
    exact ⟨a, fun u hu => by rw [c]; exact hg.bound u (List.Sublist.mem hu b.outer)⟩
  induction h with
  | start => exact ⟨⟨List.nodup_nil, fun q d h => by cases h⟩, fun u h => by cases h⟩
  | @call s l op hop h ih =>
    cases op with
    | addVertex => exact (iaut_adds (.inl rfl) s ih).1
    | addEdge q r a => exact (iaut_adds (.inr (.inl ⟨q, r, a, rfl⟩)) s ih).1
    | removeEdge e => exact down (iaut_removeEdgeM e) s ih
    | removeVertex u => exact down (iaut_removeVertexM u) s ih
    | setInitial q b => exact down (iaut_flags (.inl ⟨q, b, rfl⟩)) s ih
    | setFinal q b => exact down (iaut_flags (.inr ⟨q, b, rfl⟩)) s ih
    | clear => exact absurd rfl hop

/-! ## The dictionary held -/

/-- The dictionary held, as an automaton with one state. -/
def heldAdj (q : Nat) (s : Held A) : AAdj A := [(q, Held.contents q s)]

theorem heldAdj_getD (q : Nat) (s : Held A) (u : Nat) : (heldAdj q s).getD u [] = if q = u then Held.contents q s else [] := by
  unfold heldAdj Dict.getD
  by_cases h : q = u <;> simp [Dict.get?, h]

theorem held_up {q : Nat} {s s' : Held A} (h1 : (Held.contents q s).keys.Sublist (Held.contents q s').keys)
    (h2 : ∀ x r, (Held.contents q s).get? x = some (r + 1) → (Held.contents q s').get? x = some (r + 1)) : AUp (heldAdj q s) (heldAdj q s') := by
  refine ⟨.refl _, fun u => ?_, fun u x r => ?_⟩
  · rw [heldAdj_getD, heldAdj_getD]; split
    · exact h1
    · exact .refl _
  · unfold dlt; rw [heldAdj_getD, heldAdj_getD]; split
    · exact h2 x r
    · exact id

theorem held_down {q : Nat} {s s' : Held A} (h1 : (Held.contents q s').keys.Sublist (Held.contents q s).keys)
    (h2 : ∀ x r, (Held.contents q s').get? x = some r → (Held.contents q s).get? x = some r) : ADown (heldAdj q s) (heldAdj q s') := by
  refine ⟨.refl _, fun u => ?_, fun u x r => ?_⟩
  · rw [heldAdj_getD, heldAdj_getD]; split
    · exact h1
    · exact .refl _
  · unfold dlt; rw [heldAdj_getD, heldAdj_getD]; split
    · exact h2 x r
    · exact id

theorem held_same {q : Nat} {s s' : Held A} (h : Held.contents q s' = Held.contents q s) : ADown (heldAdj q s) (heldAdj q s') := by
  unfold heldAdj; rw [h]; exact ADown.refl _

/-- No key occurs twice, also in the dictionary held. -/
structure HThin (s : Held A) : Prop where
  thin : Thin s.g.a.adj
  frozen : ∀ d, s.frozen = some d → Dict.NodupKeys d

omit [DecidableEq A] in
theorem HThin.contents {s : Held A} (h : HThin s) (q : Nat) : Dict.NodupKeys (Held.contents q s) := by
  unfold Held.contents
  split
  · next d hd => exact h.frozen d hd
  · exact h.thin.keys q

omit [DecidableEq A] in
theorem HThin.held {s : Held A} (h : HThin s) (q : Nat) : Thin (heldAdj q s) := by
  refine ⟨List.nodup_singleton _, fun u d hd => ?_⟩
  unfold heldAdj at hd
  by_cases hq : q = u
  · simp [Dict.get?, hq] at hd; rw [← hd]; exact h.contents u
  · simp [Dict.get?, hq] at hd

abbrev HDown (q : Nat) (m : PyM (Held A) R) : Prop := Keeps HThin (fun s s' => ADown (heldAdj q s) (heldAdj q s')) m

theorem hd_refl (q : Nat) (s : Held A) : ADown (heldAdj q s) (heldAdj q s) := ADown.refl _
theorem hd_trans (q : Nat) (a b c : Held A) (h : ADown (heldAdj q a) (heldAdj q b)) (h' : ADown (heldAdj q b) (heldAdj q c)) :
    ADown (heldAdj q a) (heldAdj q c) := h.trans h'

theorem held_onObj {m : PyM (IAutomaton A) R} (hm : IADown m) (q : Nat) : HDown q (Held.onObj m) := by
  intro s hs
  obtain ⟨a, b, -⟩ := hm s.g hs.thin
  refine ⟨⟨a, hs.frozen⟩, ?_⟩
  obtain ⟨g, fr⟩ := s
  cases fr with
  | some d => exact held_same rfl
  | none => exact held_down (b.inner q) (b.vals q)

theorem held_removeOutM (q u : Nat) : HDown q (Held.removeOutM q u : PyM (Held A) Unit) := by
  unfold Held.removeOutM
  refine keeps_read fun s hs => ?_
  have h1 := held_onObj (iaut_removeOutM u) q s hs
  simp only [bind, PyM.bind]
  rcases he : Held.onObj (IAutomaton.removeOutM u) s with ⟨x | x, s'⟩
  · rw [he] at h1; exact h1
  · rw [he] at h1
    simp only
    split
    · exact ⟨⟨h1.1.thin, fun d hd => by cases hd; exact hs.contents q⟩, held_same rfl⟩
    · exact h1

theorem held_removeVertexM (q u : Nat) : HDown q (Held.removeVertexM q u : PyM (Held A) Unit) :=
  keeps_then (hd_trans q) (held_onObj (iaut_removeInM u) q) fun _ => held_removeOutM q u

theorem held_removes (q : Nat) {op : AOp A} (h : (∃ e, op = .removeEdge e) ∨ (∃ u, op = .removeVertex u) ∨ op = .clear ∨ (∃ q b, op = .setInitial q b) ∨
    ∃ q b, op = .setFinal q b) : HDown q (Held.execM q op) := by
  rcases h with ⟨e, rfl⟩ | ⟨u, rfl⟩ | rfl | ⟨p, b, rfl⟩ | ⟨p, b, rfl⟩
  · exact held_onObj (iaut_removeEdgeM e) q
  · exact held_removeVertexM q u
  · refine keeps_read fun s hs => ?_
    have := keeps_each (hd_refl q) (hd_trans q) (held_removeVertexM (A := A) q) s.g.a.vertices
      ⟨⟨{ s.g.a with lastVertexId := 0 }, s.g.inAdj⟩, s.frozen⟩ ⟨hs.thin, hs.frozen⟩
    refine ⟨this.1, ADown.trans (held_same ?_) this.2⟩
    rfl
  · exact held_onObj (iaut_flags (.inl ⟨p, b, rfl⟩)) q
  · exact held_onObj (iaut_flags (.inr ⟨p, b, rfl⟩)) q

/-- The same for additions. -/
structure HUp (s : Held A) : Prop where
  up : AUpInv s.g.a
  frozen : ∀ d, s.frozen = some d → Dict.NodupKeys d

omit [DecidableEq A] in
theorem HUp.thin {s : Held A} (h : HUp s) : HThin s := ⟨h.up.thin, h.frozen⟩

theorem held_adds (q : Nat) {op : AOp A} (h : op = .addVertex ∨ (∃ q r a, op = .addEdge q r a) ∨ (∃ q b, op = .setInitial q b) ∨
    ∃ q b, op = .setFinal q b) : Keeps HUp (fun s s' => AUp (heldAdj q s) (heldAdj q s')) (Held.execM q op) := by
  have hop : Held.execM q op = Held.onObj (IAutomaton.execM op) := by
    rcases h with rfl | ⟨q, r, a, rfl⟩ | ⟨q, b, rfl⟩ | ⟨q, b, rfl⟩ <;> rfl
  rw [hop]
  intro s hs
  obtain ⟨a, b⟩ := iaut_adds h s.g hs.up
  refine ⟨⟨a, hs.frozen⟩, ?_⟩
  obtain ⟨g, fr⟩ := s
  cases fr with
  | some d => exact AUp.refl _
  | none => exact held_up (b.inner q) (b.vals q)

theorem forOutEdges_eq {S : Type} (held : S → Held A) (q : Nat) (body : EdgeDesc A → PyM S Unit) :
    Held.forOutEdges held q body = forArcs (fun s => heldAdj q (held s)) q body := by
  unfold Held.forOutEdges forArcs
  simp only [heldAdj_getD, if_true]
  rfl

/-! ## The automaton does not depend on the iterator -/

/-- Same outcome, same automaton. -/
def Sim (m : PyM (Held A) R) (m' : PyM (IAutomaton A) R) : Prop := ∀ s, (m s).1 = (m' s.g).1 ∧ (m s).2.g = (m' s.g).2

omit [DecidableEq A] in
theorem sim_onObj (m : PyM (IAutomaton A) R) : Sim (Held.onObj m) m := fun _ => ⟨rfl, rfl⟩

omit [DecidableEq A] in
theorem sim_bind {Q : Type} {m : PyM (Held A) R} {m' : PyM (IAutomaton A) R} {f : R → PyM (Held A) Q} {f' : R → PyM (IAutomaton A) Q} (h : Sim m m')
    (hf : ∀ r, Sim (f r) (f' r)) : Sim (m >>= f) (m' >>= f') := by
  intro s
  have h1 := h s
  simp only [bind, PyM.bind]
  rcases hm : m s with ⟨x | x, s'⟩ <;> rcases hm' : m' s.g with ⟨y | y, g'⟩ <;> rw [hm, hm'] at h1 <;> simp only at h1 ⊢
  · exact ⟨by cases h1.1; rfl, h1.2⟩
  · cases h1.1
  · cases h1.1
  · have := hf x s'
    rw [h1.2] at this
    cases h1.1
    exact this

omit [DecidableEq A] in
theorem sim_each {X : Type} {f : X → PyM (Held A) Unit} {f' : X → PyM (IAutomaton A) Unit} (h : ∀ x, Sim (f x) (f' x)) :
    ∀ l, Sim (PyM.each f l) (PyM.each f' l)
  | [] => fun _ => ⟨rfl, rfl⟩
  | x :: l => sim_bind (h x) fun _ => sim_each h l

theorem sim_removeOutM (q u : Nat) : Sim (Held.removeOutM q u : PyM (Held A) Unit) (IAutomaton.removeOutM u) := by
  intro s
  unfold Held.removeOutM
  have h1 := sim_onObj (IAutomaton.removeOutM u) s
  rw [PyM.get_bind]
  simp only [bind, PyM.bind]
  rcases he : Held.onObj (IAutomaton.removeOutM u) s with ⟨x | x, s'⟩
  · rw [he] at h1; exact h1
  · rw [he] at h1
    simp only at h1 ⊢
    split <;> exact h1

theorem sim_execM (q : Nat) (op : AOp A) : Sim (Held.execM q op) (IAutomaton.execM op) := by
  have hv : ∀ u, Sim (Held.removeVertexM q u : PyM (Held A) Unit) (IAutomaton.removeVertexM u) :=
    fun u => sim_bind (sim_onObj _) fun _ => sim_removeOutM q u
  cases op with
  | removeVertex u => exact hv u
  | clear => exact fun s => sim_each hv s.g.a.vertices ⟨⟨{ s.g.a with lastVertexId := 0 }, s.g.inAdj⟩, s.frozen⟩
  | addVertex => exact sim_onObj _
  | addEdge q r a => exact sim_onObj _
  | removeEdge e => exact sim_onObj _
  | setInitial q b => exact sim_onObj _
  | setFinal q b => exact sim_onObj _

/-! ## The removal of the state -/

theorem frozen_removeVertexM {q u : Nat} {s : Held A} {d : Dict A Nat} (h : s.frozen = some d) : (Held.removeVertexM q u s).2.frozen = some d := by
  have key : ∀ {R : Type} (m : PyM (IAutomaton A) R) (s : Held A), s.frozen = some d → (Held.onObj m s).2.frozen = some d := fun m s h => h
  refine (keeps_then (J := fun s : Held A => s.frozen = some d) (T := fun _ _ => True) (fun _ _ _ _ _ => trivial) (fun s hs => ⟨key _ s hs, trivial⟩)
    (fun _ s hs => ⟨?_, trivial⟩) s h).1
  unfold Held.removeOutM
  rw [PyM.get_bind]
  simp only [bind, PyM.bind]
  have h1 := key (IAutomaton.removeOutM u) s hs
  rcases he : Held.onObj (IAutomaton.removeOutM u) s with ⟨x | x, s'⟩
  · rw [he] at h1; exact h1
  · rw [he] at h1
    simp only
    split
    · show some (Held.contents q s) = some d
      unfold Held.contents; rw [hs]
    · exact h1

/-- The transitions of `q`, and the states, are the same. -/
abbrev SameAt (q : Nat) (g g' : IAutomaton A) : Prop := g'.a.adj.getD q [] = g.a.adj.getD q [] ∧ g'.a.adj.keys = g.a.adj.keys

theorem same_delTransitionM {q : Nat} {e : EdgeDesc A} (hne : e.source ≠ q) : Keeps (fun _ => True) (SameAt q) (IAutomaton.delTransitionM e) := by
  unfold IAutomaton.delTransitionM
  refine keeps_read fun g _ => ⟨trivial, ?_⟩
  unfold IAutomaton.delTransition Dict.getE
  simp only [PyM.bind, PyM.lift, bind, Except.bind]
  cases hd : g.a.adj.get? e.source with
  | none => exact ⟨rfl, rfl⟩
  | some d =>
    simp only
    cases hd2 : d.delE e.distinguisher with
    | error x => exact ⟨rfl, rfl⟩
    | ok d' =>
      constructor
      · show (Dict.set g.a.adj e.source d').getD q [] = _
        rw [Dict.getD_set, if_neg hne]
      · exact Dict.keys_set_of_mem _ _ _ ((Dict.mem_keys_iff _ _).2 ⟨_, hd⟩)

theorem same_each {q : Nat} : ∀ (es : List (EdgeDesc A)), (∀ e ∈ es, e.source ≠ q) →
    Keeps (fun _ => True) (SameAt q) (PyM.each IAutomaton.delTransitionM es)
  | [], _ => fun _ _ => ⟨trivial, rfl, rfl⟩
  | e :: es, h => keeps_bind (fun _ _ _ k k' => ⟨k'.1.trans k.1, k'.2.trans k.2⟩) (same_delTransitionM (h e List.mem_cons_self))
      fun _ => same_each es fun e' he => h e' (List.mem_cons_of_mem _ he)

theorem same_removeInM {q : Nat} {g : IAutomaton A} (h : ∀ e ∈ g.inEdges q, e.source ≠ q) : SameAt q g (IAutomaton.removeInM q g).2 := by
  unfold IAutomaton.removeInM
  rw [PyM.get_bind]
  split
  · refine (keeps_then (J := fun _ => True) (T := SameAt q) (fun _ _ _ k k' => ⟨k'.1.trans k.1, k'.2.trans k.2⟩) (same_each _ h)
      (fun _ => keeps_read fun g _ => ⟨trivial, ?_⟩) g trivial).2
    simp only [PyM.bind, PyM.lift, bind]
    rcases g.inAdj.delE q with x | d <;> exact ⟨rfl, rfl⟩
  · exact ⟨rfl, rfl⟩

/-- The dictionary of a state without loop is left as it is, and kept by the iterator. -/
theorem held_removed {q : Nat} {g : IAutomaton A} (hok : (IAutomaton.execM (.removeVertex q) g).1 = .ok ()) (hq : q ∈ g.a.vertices)
    (hloop : ∀ e ∈ g.inEdges q, e.source ≠ q) : (Held.execM q (.removeVertex q) ⟨g, none⟩).2.frozen = some (g.a.adj.getD q []) := by
  rw [← (sim_execM q (.removeVertex q) ⟨g, none⟩).1] at hok
  have h1 := same_removeInM hloop
  change ((Held.onObj (IAutomaton.removeInM q) >>= fun _ => Held.removeOutM q q) ⟨g, none⟩).1 = _ at hok
  show ((Held.onObj (IAutomaton.removeInM q) >>= fun _ => Held.removeOutM q q) ⟨g, none⟩).2.frozen = _
  have h2 : (Held.onObj (IAutomaton.removeInM q) (⟨g, none⟩ : Held A)).2 = ⟨(IAutomaton.removeInM q g).2, none⟩ := rfl
  simp only [bind, PyM.bind] at hok ⊢
  rcases he : Held.onObj (IAutomaton.removeInM q) (⟨g, none⟩ : Held A) with ⟨x | x, s'⟩
  · rw [he] at hok; cases hok
  · rw [he] at hok h2
    simp only at hok h2 ⊢
    subst h2
    unfold Held.removeOutM at hok ⊢
    rw [PyM.get_bind] at hok ⊢
    simp only [bind, PyM.bind] at hok ⊢
    have hc : (IAutomaton.removeInM q g).2.a.adj.contains q = true := by
      rw [Dict.contains_iff_mem, h1.2]; exact hq
    rcases he2 : Held.onObj (IAutomaton.removeOutM q) (⟨(IAutomaton.removeInM q g).2, none⟩ : Held A) with ⟨y | y, s''⟩
    · rw [he2] at hok; cases hok
    · simp only [hc, and_self, if_true]
      show some (Held.contents q ⟨(IAutomaton.removeInM q g).2, none⟩) = _
      unfold Held.contents
      rw [h1.1]

/-! ## Promises read in another way -/

omit [DecidableEq A] in
theorem turns_inv {S X Op Out : Type} {exec : Op → PyM S Out} {plan : List X → List Op} {J : S → Prop}
    (hk : ∀ xs s, J s → J (afterCalls exec (plan xs) s)) : ∀ (xs past : List X) (s : S), J s →
    J (afterTurns exec plan s past xs) ∧ ∀ t ∈ turns exec plan s past xs, J t.2.1 ∧ J t.2.2
  | [], _, _, hs => ⟨hs, by simp [turns]⟩
  | x :: xs, past, s, hs => by
    have h1 := hk (past ++ [x]) s hs
    obtain ⟨h3, h4⟩ := turns_inv hk xs (past ++ [x]) _ h1
    refine ⟨h3, fun t ht => ?_⟩
    rcases List.mem_cons.1 ht with rfl | ht
    · exact ⟨hs, h1⟩
    · exact h4 t ht

omit [DecidableEq A] in
theorem Delivers.change {S X Op Out : Type} {exec : Op → PyM S Out} {plan : List X → List Op} {items items' : S → List X} {quiet quiet' : X → S → S → Prop}
    {s : S} {out : Except PyErr Unit × Walk S X} (h : Delivers exec plan items quiet s out) {J : S → Prop} (hs : J s)
    (hk : ∀ xs s, J s → J (afterCalls exec (plan xs) s)) (hi : ∀ s, J s → items' s = items s)
    (hq : ∀ x s s', J s → J s' → (quiet' x s s' ↔ quiet x s s')) : Delivers exec plan items' quiet' s out := by
  obtain ⟨h1, h2⟩ := turns_inv hk out.2.seen [] s hs
  refine ⟨h.once, h.obj, fun t ht => ?_, h.outcome, h.detected.trans ?_, fun hok x hx hx' => ?_⟩
  · rw [hi _ (h2 t ht).1]; exact h.present t ht
  · exact forall₂_congr fun t ht => (hq _ _ _ (h2 t ht).1 (h2 t ht).2).symm
  · rw [hi _ hs] at hx
    rw [h.obj, hi _ h1, ← h.obj] at hx'
    exact h.complete hok x hx hx'

end Lazy
end PyBGL
