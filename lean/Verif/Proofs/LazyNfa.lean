import Verif.Model.NfaCalls
import Verif.Proofs.LazyWalk
import Verif.Proofs.LazyAutomaton
import Verif.Proofs.NfaWF

/-! # Loops over the states and the transitions of a non-deterministic automaton -/

namespace PyBGL
namespace Lazy
variable {A S Op Out R : Type}

/-- The keys of the nested dictionaries. -/
structure Lay (A : Type) where
  outer : List Nat
  labels : Nat → List A
  tgts : Nat → A → List Nat

/-- `a` has the same keys as `b`, or less. -/
structure Lay.Sub (a b : Lay A) : Prop where
  outer : a.outer.Sublist b.outer
  labels : ∀ q, (a.labels q).Sublist (b.labels q)
  tgts : ∀ q x, (a.tgts q x).Sublist (b.tgts q x)

theorem Lay.Sub.refl (a : Lay A) : Lay.Sub a a := ⟨.refl _, fun _ => .refl _, fun _ _ => .refl _⟩
theorem Lay.Sub.trans {a b c : Lay A} (h : Lay.Sub a b) (h' : Lay.Sub b c) : Lay.Sub a c :=
  ⟨h.outer.trans h'.outer, fun u => (h.labels u).trans (h'.labels u), fun u v => (h.tgts u v).trans (h'.tgts u v)⟩

/-- No key twice; the keys of the outer dictionaries are there. -/
structure Lay.OK (a : Lay A) : Prop where
  outer : a.outer.Nodup
  labels : ∀ q, (a.labels q).Nodup
  tgts : ∀ q x, (a.tgts q x).Nodup
  up : ∀ q x, x ∈ a.labels q → q ∈ a.outer
  lab : ∀ q x r, r ∈ a.tgts q x → x ∈ a.labels q

/-- Growing if `up`, shrinking otherwise. -/
def LDir (up : Bool) (a b : Lay A) : Prop := if up then a.Sub b else b.Sub a

theorem LDir.refl {up : Bool} (a : Lay A) : LDir up a a := by cases up <;> exact Lay.Sub.refl a

theorem LDir.trans {up : Bool} {a b c : Lay A} (h : LDir up a b) (h' : LDir up b c) : LDir up a c := by
  cases up
  · exact Lay.Sub.trans h' h
  · exact Lay.Sub.trans h h'

theorem LDir.outer {up : Bool} {a b : Lay A} (h : LDir up a b) : if up then a.outer.Sublist b.outer else b.outer.Sublist a.outer := by
  cases up <;> exact Lay.Sub.outer h

theorem LDir.labels {up : Bool} {a b : Lay A} (h : LDir up a b) (q : Nat) :
    if up then (a.labels q).Sublist (b.labels q) else (b.labels q).Sublist (a.labels q) := by cases up <;> exact Lay.Sub.labels h q

theorem LDir.tgts {up : Bool} {a b : Lay A} (h : LDir up a b) (q : Nat) (x : A) :
    if up then (a.tgts q x).Sublist (b.tgts q x) else (b.tgts q x).Sublist (a.tgts q x) := by cases up <;> exact Lay.Sub.tgts h q x

/-- The transitions. -/
def InLay (lay : S → Lay A) (e : EdgeDesc A) (s : S) : Prop := e.target ∈ (lay s).tgts e.source e.distinguisher

/-- The calls of the plan keep the invariant and make the automaton grow or shrink. -/
structure LSteady {X : Type} (exec : Op → PyM S Out) (plan : List X → List Op) (J : S → Prop) (lay : S → Lay A) (up : Bool) : Prop where
  ok : ∀ s, J s → (lay s).OK
  step : ∀ xs s, J s → J (afterCalls exec (plan xs) s) ∧ LDir up (lay s) (lay (afterCalls exec (plan xs) s))

section
variable {X : Type} {exec : Op → PyM S Out} {J : S → Prop} {lay : S → Lay A} {up : Bool}

theorem LSteady.inv_run {plan : List X → List Op} (h : LSteady exec plan J lay up) : ∀ (xs : List X) {w : Walk S X}, J w.obj →
    J (run (leafOf exec plan) xs w).obj
  | [], _, hw => hw
  | _ :: xs, _, hw => h.inv_run xs (h.step _ _ hw).1

theorem litems_outer {I : Walk S X → Prop} (hok : ∀ {w}, I w → (lay w.obj).OK) :
    Items I (fun w w' => LDir up (lay w.obj) (lay w'.obj)) (fun w => (lay w.obj).outer) where
  same _ h1 h2 hl := same_of_sublist h1.outer h2.outer hl
  nodup hs := (hok hs).outer

theorem litems_labels {I : Walk S X → Prop} (hok : ∀ {w}, I w → (lay w.obj).OK) (q : Nat) :
    Items I (fun w w' => LDir up (lay w.obj) (lay w'.obj)) (fun w => (lay w.obj).labels q) where
  same _ h1 h2 hl := same_of_sublist (h1.labels q) (h2.labels q) hl
  nodup hs := (hok hs).labels q

theorem litems_tgts {I : Walk S X → Prop} (hok : ∀ {w}, I w → (lay w.obj).OK) (q : Nat) (x : A) :
    Items I (fun w w' => LDir up (lay w.obj) (lay w'.obj)) (fun w => (lay w.obj).tgts q x) where
  same _ h1 h2 hl := same_of_sublist (h1.tgts q x) (h2.tgts q x) hl
  nodup hs := (hok hs).tgts q x

theorem LSteady.vertices {plan : List Nat → List Op} (h : LSteady exec plan J lay up) {s : S} (hs : J s) :
    Delivers exec plan (fun s => (lay s).outer) (fun _ s s' => (lay s').outer = (lay s).outer) s
      (pyFor (fun w : Walk S Nat => (lay w.obj).outer) (Walk.body exec plan) ⟨s, []⟩) := by
  have hm : Mono (leafOf exec plan) (fun w => J w.obj) (fun w w' => LDir up (lay w.obj) (lay w'.obj)) (fun u w => u ∈ (lay w.obj).outer) := by
    refine ⟨fun w => LDir.refl _, fun {a b c} h1 h2 => h1.trans h2, fun {a b c e} h1 h2 ha hc => ?_, fun hw => (h.step _ _ hw).1,
      fun hw => (h.step _ _ hw).2⟩
    have k1 := h1.outer
    have k2 := h2.outer
    cases up
    · exact List.Sublist.mem hc k2
    · exact List.Sublist.mem ha k1
  have h1 := pyFor_meets hm (litems_outer (up := up) (I := fun w : Walk S Nat => J w.obj) (lay := lay) (fun {w} hw => h.ok _ hw))
    (P := fun u e => e = u) (Q := fun _ _ _ => True) (body := Walk.body exec plan) (s := ⟨s, []⟩) (by rintro x y e rfl h2; exact h2)
    (by rintro w x e - rfl h2; exact h2) (fun x w _ hx => leaf_meets _ x w rfl hx) hs
  exact delivers (I := fun w => J w.obj) h1 (fun xs => h.inv_run xs hs) (fun _ x _ _ => ⟨x, rfl⟩) (fun _ _ _ _ => Iff.rfl)
    (fun x w w' _ => by simp)

variable {plan : List (EdgeDesc A) → List Op}

theorem LSteady.mono (h : LSteady exec plan J lay up) :
    Mono (leafOf exec plan) (fun w => J w.obj) (fun w w' => LDir up (lay w.obj) (lay w'.obj)) (InLay fun w => lay w.obj) where
  refl _ := LDir.refl _
  trans h1 h2 := h1.trans h2
  convex {a b c e} h1 h2 ha hc := by
    have k1 := h1.tgts e.source e.distinguisher
    have k2 := h2.tgts e.source e.distinguisher
    cases up
    · exact List.Sublist.mem hc k2
    · exact List.Sublist.mem ha k1
  inv hw := (h.step _ _ hw).1
  rel hw := (h.step _ _ hw).2

/-- The loops over the transitions from `q`. -/
def forLay (lay : S → Lay A) (q : Nat) (body : EdgeDesc A → PyM S Unit) : PyM S Unit :=
  pyFor (fun s => (lay s).labels q) fun a => pyFor (fun s => (lay s).tgts q a) fun r => body ⟨q, r, a⟩

theorem LSteady.label_meets (h : LSteady exec plan J lay up) (q : Nat) (x : A) {w : Walk S (EdgeDesc A)} (hw : J w.obj) :
    Meets (leafOf exec plan) (InLay fun w => lay w.obj) (fun e => ∃ r : Nat, e = ⟨q, r, x⟩)
      (fun _ w w' => True ∧ (lay w'.obj).tgts q x = (lay w.obj).tgts q x)
      (pyFor (fun w : Walk S (EdgeDesc A) => (lay w.obj).tgts q x) fun r => Walk.body exec plan ⟨q, r, x⟩) w := by
  refine pyFor_meets h.mono (litems_tgts (up := up) (I := fun w : Walk S (EdgeDesc A) => J w.obj) (lay := lay) (fun {w} hw => h.ok _ hw) q x)
    (P := fun r e => e = ⟨q, r, x⟩) (Q := fun _ _ _ => True) ?_ ?_ ?_ hw
  · rintro r r' e rfl h2; cases h2; rfl
  · rintro w r e - rfl h2; exact h2
  · intro r w _ hr
    exact leaf_meets _ _ w rfl hr

theorem LSteady.arc_meets (h : LSteady exec plan J lay up) (q : Nat) {w : Walk S (EdgeDesc A)} (hw : J w.obj) :
    Meets (leafOf exec plan) (InLay fun w => lay w.obj) (fun e => ∃ (x : A) (r : Nat), e = ⟨q, r, x⟩)
      (fun e w w' => (lay w'.obj).tgts q e.distinguisher = (lay w.obj).tgts q e.distinguisher ∧ (lay w'.obj).labels q = (lay w.obj).labels q)
      (forLay (fun w : Walk S (EdgeDesc A) => lay w.obj) q (Walk.body exec plan)) w := by
  refine pyFor_meets h.mono (litems_labels (up := up) (I := fun w : Walk S (EdgeDesc A) => J w.obj) (lay := lay) (fun {w} hw => h.ok _ hw) q)
    (P := fun x e => ∃ r : Nat, e = ⟨q, r, x⟩)
    (Q := fun e w w' => (lay w'.obj).tgts q e.distinguisher = (lay w.obj).tgts q e.distinguisher) ?_ ?_ ?_ hw
  · rintro x y e ⟨r, rfl⟩ ⟨r', h2⟩; cases h2; rfl
  · rintro w x e hw ⟨r, rfl⟩ h2
    exact (h.ok _ hw).lab _ _ _ h2
  · intro x w hw _
    obtain ⟨new, a1, a2, a3, a4, a5, a6, a7⟩ := h.label_meets q x hw
    refine ⟨new, a1, a2, a3, a4, a5, a6.trans (allQ_congr a3 ?_ _), a7⟩
    rintro e w w' ⟨r, rfl⟩
    simp

theorem LSteady.arcsOf (h : LSteady exec plan J lay up) (q : Nat) {items : S → List (EdgeDesc A)}
    (hitems : ∀ s e, J s → (e ∈ items s ↔ e.source = q ∧ InLay lay e s)) {s : S} (hs : J s) :
    Delivers exec plan items (fun e s s' => (lay s').labels q = (lay s).labels q ∧ (lay s').tgts q e.distinguisher = (lay s).tgts q e.distinguisher) s
      (forLay (fun w : Walk S (EdgeDesc A) => lay w.obj) q (Walk.body exec plan) ⟨s, []⟩) := by
  refine delivers (I := fun w => J w.obj) (h.arc_meets q (w := ⟨s, []⟩) hs) (fun xs => h.inv_run xs hs) ?_ ?_ ?_
  · intro w e hw he
    obtain ⟨rfl, -⟩ := (hitems _ _ hw).1 he
    exact ⟨_, _, rfl⟩
  · rintro w e hw ⟨x, r, rfl⟩
    rw [hitems _ _ hw]
    exact ⟨fun k => ⟨rfl, k⟩, fun k => k.2⟩
  · intro e w w' _; exact and_comm

theorem LSteady.arcs (h : LSteady exec plan J lay up) {items : S → List (EdgeDesc A)}
    (hitems : ∀ s e, J s → (e ∈ items s ↔ InLay lay e s)) {s : S} (hs : J s) :
    Delivers exec plan items (fun e s s' => (lay s').outer = (lay s).outer ∧ (lay s').labels e.source = (lay s).labels e.source ∧
        (lay s').tgts e.source e.distinguisher = (lay s).tgts e.source e.distinguisher) s
      (pyFor (fun w : Walk S (EdgeDesc A) => (lay w.obj).outer) (forLay (fun w => lay w.obj) · (Walk.body exec plan)) ⟨s, []⟩) := by
  have h1 := pyFor_meets h.mono (litems_outer (up := up) (I := fun w : Walk S (EdgeDesc A) => J w.obj) (lay := lay) (fun {w} hw => h.ok _ hw))
    (P := fun q e => e.source = q) (Q := fun e w w' => (lay w'.obj).labels e.source = (lay w.obj).labels e.source ∧
      (lay w'.obj).tgts e.source e.distinguisher = (lay w.obj).tgts e.source e.distinguisher)
    (body := (forLay (fun w => lay w.obj) · (Walk.body exec plan))) (s := ⟨s, []⟩)
    (by rintro x y e rfl h2; exact h2) (by rintro w x e hw rfl h2; exact (h.ok _ hw).up _ _ ((h.ok _ hw).lab _ _ _ h2)) (fun q w hw _ => ?_) hs
  · refine delivers (I := fun w => J w.obj) h1 (fun xs => h.inv_run xs hs) (fun _ e _ _ => ⟨_, rfl⟩) (fun w e hw _ => (hitems _ _ hw).symm) ?_
    intro e w w' _
    exact and_comm
  · obtain ⟨new, a1, a2, a3, a4, a5, a6, a7⟩ := h.arc_meets q hw
    have a3' : ∀ e ∈ new, e.source = q := fun e he => by obtain ⟨x, r, rfl⟩ := a3 e he; rfl
    refine ⟨new, a1, a2, a3', a4, a5, a6.trans (allQ_congr a3' ?_ _), fun hok e he => a7 hok e ⟨e.distinguisher, e.target, by rw [← he]⟩⟩
    rintro e s s' rfl
    exact and_comm

end

/-! ## The calls on an `Nfa` -/

variable [DecidableEq A]

/-- The keys of the dictionaries of an `Nfa`. -/
def nlay (g : Nfa A) : Lay A := ⟨g.adj.keys, fun q => (g.adj.getD q []).keys, fun q a => g.targets q a⟩

theorem nlay_ok {g : Nfa A} (h : g.WF) : (nlay g).OK := by
  refine ⟨h.outer, fun q => ?_, fun q x => ?_, fun q x hx => ?_, fun q x r hr => ?_⟩
  · exact Nfa.nodupKeys_getD (h.mid q)
  · exact Nfa.nodupKeys_getD fun e he => h.getD_inner he
  · simp only [nlay] at hx ⊢
    by_contra hq
    rw [Dict.getD_eq, (Dict.get?_eq_none_iff _ _).2 hq] at hx
    exact absurd hx (by simp [Dict.keys])
  · simp only [nlay, Nfa.targets] at hr ⊢
    by_contra hx
    rw [Dict.getD_eq, (Dict.get?_eq_none_iff _ _).2 hx] at hr
    exact absurd hr (by simp [Dict.keys])

theorem nkeys_sub_set {K V : Type} [DecidableEq K] (d : Dict K V) (k : K) (v : V) : d.keys.Sublist (d.set k v).keys := by
  by_cases hm : k ∈ d.keys
  · rw [Dict.keys_set_of_mem _ _ _ hm]
  · rw [Dict.keys_set_of_not_mem _ _ _ hm]; exact List.sublist_append_left _ _

theorem nlay_removeEdge {N : Type} (g : Nfa A) (e : EdgeDesc (A × N)) : (nlay (g.removeEdge e)).Sub (nlay g) := by
  unfold Nfa.removeEdge
  split
  · exact .refl _
  · next arn harn =>
    split
    · exact .refl _
    · next rn hrn =>
      split
      · have ho : e.source ∈ g.adj.keys := (Dict.mem_keys_iff _ _).2 ⟨_, harn⟩
        have hl : e.distinguisher.1 ∈ arn.keys := (Dict.mem_keys_iff _ _).2 ⟨_, hrn⟩
        refine ⟨?_, fun q => ?_, fun q x => ?_⟩
        · simp only [nlay]; rw [Dict.keys_set_of_mem _ _ _ ho]
        · simp only [nlay]; rw [Dict.getD_set]
          split
          · next hq =>
            subst hq
            rw [Dict.keys_set_of_mem _ _ _ hl, Dict.getD, harn]; exact .refl _
          · exact .refl _
        · simp only [nlay, Nfa.targets]; rw [Dict.getD_set]
          split
          · next hq =>
            subst hq
            rw [Dict.getD_set]
            split
            · next hx =>
              subst hx
              rw [show (g.adj.getD e.source []).getD e.distinguisher.1 [] = rn from by rw [Dict.getD_eq, Dict.getD_eq, harn]; simp [hrn]]
              exact (Dict.erase_sublist rn _).map Prod.fst
            · rw [Dict.getD_eq g.adj, harn]; exact .refl _
          · exact .refl _
      · exact .refl _

/-- The invariant and the change of a method that removes. -/
abbrev NKeepsDown (m : PyM (Nfa A) R) : Prop := Keeps Nfa.WF (fun g g' => (nlay g').Sub (nlay g)) m

theorem ndown_refl (g : Nfa A) : (nlay g).Sub (nlay g) := .refl _
theorem ndown_trans (a b c : Nfa A) (h : (nlay b).Sub (nlay a)) (h' : (nlay c).Sub (nlay b)) : (nlay c).Sub (nlay a) := h'.trans h

theorem nlay_eraseState {g : Nfa A} (h : g.WF) (u : Nat) : Nfa.WF { g with adj := g.adj.erase u } ∧ (nlay { g with adj := g.adj.erase u }).Sub (nlay g) := by
  have hge : ∀ q d, (g.adj.erase u).get? q = some d → g.adj.get? q = some d := by
    intro q d hq
    rw [Dict.get?_erase h.outer] at hq
    split at hq
    · cases hq
    · exact hq
  refine ⟨⟨Dict.nodupKeys_erase h.outer _, fun q d hq => h.mid q d (hge _ _ hq), fun q d a e hq => h.inner q d a e (hge _ _ hq)⟩,
    (Dict.erase_sublist g.adj u).map Prod.fst, fun q => ?_, fun q x => ?_⟩
  · simp only [nlay]
    rw [Dict.getD_eq, Dict.getD_eq, Dict.get?_erase h.outer]
    split
    · exact List.nil_sublist _
    · exact .refl _
  · simp only [nlay, Nfa.targets]
    rw [Dict.getD_eq (g.adj.erase u), Dict.getD_eq g.adj, Dict.get?_erase h.outer]
    split
    · exact List.nil_sublist _
    · exact .refl _

theorem nfa_removeVertexM (u : Nat) : NKeepsDown (Nfa.removeVertexM u : PyM (Nfa A) Unit) := by
  have hE : ∀ l, NKeepsDown (PyM.each (Nfa.removeEdgeM (A := A) (N := List Nat)) l) :=
    keeps_each ndown_refl ndown_trans fun e g hg => ⟨hg.removeEdge e, nlay_removeEdge g e⟩
  refine keeps_get fun s hs => keeps_bind ndown_trans (hE _) (fun _ => keeps_get fun s hs =>
    keeps_bind ndown_trans (hE _) (fun _ => keeps_get fun s hs => ?_) s hs) s hs
  change Nfa.WF (PyM.bind (PyM.lift (s.adj.delE u)) (fun adj => PyM.put { s with adj }) s).2 ∧ _
  unfold Dict.delE
  split
  · exact nlay_eraseState hs u
  · exact ⟨hs, .refl _⟩

theorem nfa_clearM : NKeepsDown (Nfa.clearM : PyM (Nfa A) Unit) :=
  keeps_get fun s hs => keeps_each (J := Nfa.WF (A := A)) (T := fun g g' => (nlay g').Sub (nlay g)) ndown_refl ndown_trans nfa_removeVertexM
    s.vertices { s with lastVertexId := 0 } ⟨hs.outer, hs.mid, hs.inner⟩

theorem nlay_addEdge (g : Nfa A) (q r : Nat) (a : A) : (nlay g).Sub (nlay (g.addEdge q r a).2) := by
  unfold Nfa.addEdge
  refine ⟨nkeys_sub_set _ _ _, fun q' => ?_, fun q' x => ?_⟩
  · simp only [nlay]; rw [Dict.getD_set]
    split
    · next hq => subst hq; exact nkeys_sub_set _ _ _
    · exact .refl _
  · simp only [nlay, Nfa.targets]; rw [Dict.getD_set]
    split
    · next hq =>
      subst hq
      rw [Dict.getD_set]
      split
      · next hx => subst hx; exact nkeys_sub_set _ _ _
      · exact .refl _
    · exact .refl _

theorem nlay_addVertex {g : Nfa A} (h : g.lastVertexId ∉ g.adj.keys) : (nlay g).Sub (nlay g.addVertex.2) := by
  have hn := (Dict.get?_eq_none_iff _ _).2 h
  unfold Nfa.addVertex
  refine ⟨nkeys_sub_set _ _ _, fun q' => ?_, fun q' x => ?_⟩
  · simp only [nlay]; rw [Dict.getD_set]
    split
    · next hq => subst hq; rw [Dict.getD_eq, hn]; exact .refl _
    · exact .refl _
  · simp only [nlay, Nfa.targets]; rw [Dict.getD_set]
    split
    · next hq => subst hq; rw [Dict.getD_eq g.adj, hn]; exact .refl _
    · exact .refl _

/-- The states are those issued by the counter. -/
structure NUpInv (g : Nfa A) : Prop where
  wf : g.WF
  bound : ∀ u ∈ g.adj.keys, u < g.lastVertexId

theorem nfa_addVertex {g : Nfa A} (h : NUpInv g) : NUpInv g.addVertex.2 ∧ (nlay g).Sub (nlay g.addVertex.2) := by
  have hn : g.lastVertexId ∉ g.adj.keys := fun k => Nat.lt_irrefl _ (h.bound _ k)
  refine ⟨⟨h.wf.addVertex, fun u hu => ?_⟩, nlay_addVertex hn⟩
  simp only [Nfa.addVertex] at hu ⊢
  rw [Dict.mem_keys_set] at hu
  rcases hu with rfl | hu
  · exact Nat.lt_succ_self _
  · exact Nat.lt_succ_of_lt (h.bound u hu)

theorem nfa_addEdge {g : Nfa A} (h : NUpInv g) {q : Nat} (hq : q ∈ g.vertices) (r : Nat) (a : A) : NUpInv (g.addEdge q r a).2 := by
  refine ⟨h.wf.addEdge q r a, fun u hu => h.bound u ?_⟩
  have := Nfa.vertices_addEdge g r a hq
  unfold Nfa.vertices at this
  rwa [this] at hu

theorem mem_outEdges_nlay {g : Nfa A} (h : g.WF) (q : Nat) (e : EdgeDesc A) :
    (∃ ns, (⟨e.source, e.target, (e.distinguisher, ns)⟩ : EdgeDesc (A × List Nat)) ∈ g.outEdges q) ↔ e.source = q ∧ InLay nlay e g := by
  have key : ∀ x r, (∃ ns, (⟨q, r, (x, ns)⟩ : EdgeDesc (A × List Nat)) ∈ g.outEdges q) ↔ r ∈ g.targets q x := by
    intro x r
    unfold Nfa.outEdges Nfa.targets
    simp only [List.mem_flatMap, List.mem_map, EdgeDesc.mk.injEq, Prod.mk.injEq]
    have hk := Nfa.nodupKeys_getD (h.mid q)
    rw [Dict.mem_keys_iff]
    constructor
    · rintro ⟨ns, t, ht, s, hs, -, rfl, rfl, rfl⟩
      have h1 := Dict.get?_of_mem hk ht
      rw [Dict.getD_eq, h1]
      exact ⟨s.2, Dict.get?_of_mem (h.getD_inner h1) hs⟩
    · rintro ⟨ns, hn⟩
      cases hx : (g.adj.getD q []).get? x with
      | none => rw [Dict.getD_eq, hx] at hn; cases hn
      | some rn =>
        rw [Dict.getD_eq, hx] at hn
        exact ⟨ns, (x, rn), Dict.mem_of_get? hx, (r, ns), Dict.mem_of_get? hn, trivial, rfl, rfl, rfl⟩
  constructor
  · rintro ⟨ns, hm⟩
    have hq : e.source = q := by
      unfold Nfa.outEdges at hm
      simp only [List.mem_flatMap, List.mem_map, EdgeDesc.mk.injEq] at hm
      obtain ⟨-, -, -, -, k, -⟩ := hm
      exact k.symm
    subst hq
    exact ⟨rfl, (key _ _).1 ⟨ns, hm⟩⟩
  · rintro ⟨rfl, hm⟩
    exact (key _ _).2 hm

theorem mem_edges_nlay {g : Nfa A} (h : g.WF) (e : EdgeDesc A) :
    (∃ ns, (⟨e.source, e.target, (e.distinguisher, ns)⟩ : EdgeDesc (A × List Nat)) ∈ g.edges) ↔ InLay nlay e g :=
  Nfa.trans_iff h e.source e.distinguisher e.target

end Lazy
end PyBGL
