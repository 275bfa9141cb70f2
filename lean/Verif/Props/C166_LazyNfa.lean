import Verif.Spec.LazyNfa
import Verif.Props.C165_NfaFailures

/-!
# C166: loops that change the non-deterministic automaton they iterate on

`vertices()`, `edges()` and `out_edges()` of an `Nfa` copy nothing: the body of a loop over them may change the automaton. If it only adds transitions,
or only removes states and transitions, then `Delivers` (Spec/LazyIter.lean) says what happens. If it also adds states, the sources of the transitions
must be states: `add_edge` accepts other sources, whose number `add_vertex` may then return and reset.
-/

namespace PyBGL
open Lazy

variable {A : Type} [DecidableEq A]

section helpers

private theorem flag_same {op : NfaOp A} (h : Nfa.SetsFlag op) (g : Nfa A) : (Nfa.execM op g).2.adj = g.adj ∧ (Nfa.execM op g).2.lastVertexId = g.lastVertexId := by
  rcases h with ⟨q, b, rfl⟩ | ⟨qs, rfl⟩ | ⟨q, b, rfl⟩ <;> exact ⟨rfl, rfl⟩

private theorem nlay_congr {g g' : Nfa A} (h : g'.adj = g.adj) : nlay g' = nlay g := by
  unfold nlay Nfa.targets; rw [h]

private theorem wf_congr {g g' : Nfa A} (h : g'.adj = g.adj) (hg : g.WF) : g'.WF := ⟨by rw [h]; exact hg.outer, by rw [h]; exact hg.mid, by rw [h]; exact hg.inner⟩

private theorem sub_trans' (a b c : Nfa A) (h : (nlay a).Sub (nlay b)) (h' : (nlay b).Sub (nlay c)) : (nlay a).Sub (nlay c) := h.trans h'

private theorem up {X : Type} {plan : List X → List (NfaOp A)} (hp : Nfa.AddsArcs plan) : LSteady Nfa.execM plan Nfa.WF nlay true where
  ok _ h := nlay_ok h
  step xs s hs := by
    refine keeps_calls (J := Nfa.WF) (T := fun g g' => (nlay g).Sub (nlay g')) ndown_refl sub_trans' (plan xs) (fun op ho g hg => ?_) s hs
    rcases hp xs op ho with ⟨q, r, a, rfl⟩ | h
    · exact ⟨hg.addEdge q r a, nlay_addEdge g q r a⟩
    · have := (flag_same h g).1
      exact ⟨wf_congr this hg, by beta_reduce; rw [nlay_congr this]; exact .refl _⟩

private theorem down {X : Type} {plan : List X → List (NfaOp A)} (hp : Nfa.RemovesNfa plan) : LSteady Nfa.execM plan Nfa.WF nlay false where
  ok _ h := nlay_ok h
  step xs s hs := by
    refine keeps_calls (J := Nfa.WF) (T := fun g g' => (nlay g').Sub (nlay g)) ndown_refl ndown_trans (plan xs) (fun op ho g hg => ?_) s hs
    rcases hp xs op ho with ⟨e, rfl⟩ | ⟨u, rfl⟩ | rfl | h
    · exact ⟨hg.removeEdge e, nlay_removeEdge g e⟩
    · exact nfa_removeVertexM u g hg
    · exact nfa_clearM g hg
    · have := (flag_same h g).1
      exact ⟨wf_congr this hg, by beta_reduce; rw [nlay_congr this]; exact .refl _⟩

private theorem careful {X : Type} {plan : List X → List (NfaOp A)} (hp : Nfa.AddsNfa plan) : LSteady Nfa.carefulM plan NUpInv nlay true where
  ok _ h := nlay_ok h.wf
  step xs s hs := by
    refine keeps_calls (J := NUpInv) (T := fun g g' => (nlay g).Sub (nlay g')) ndown_refl sub_trans' (plan xs) (fun op ho g hg => ?_) s hs
    rcases hp xs op ho with rfl | ⟨q, r, a, rfl⟩ | h
    · exact nfa_addVertex hg
    · by_cases hq : q ∈ g.vertices
      · have : (Nfa.carefulM (.addEdge q r a) g).2 = (g.addEdge q r a).2 := by simp [Nfa.carefulM, hq, Nfa.execM]
        rw [this]
        exact ⟨nfa_addEdge hg hq r a, nlay_addEdge g q r a⟩
      · have : (Nfa.carefulM (.addEdge q r a) g).2 = g := by simp [Nfa.carefulM, hq]
        rw [this]
        exact ⟨hg, .refl _⟩
    · have e : (Nfa.carefulM op g).2 = (Nfa.execM op g).2 := by
        rcases h with ⟨q, b, rfl⟩ | ⟨qs, rfl⟩ | ⟨q, b, rfl⟩ <;> rfl
      obtain ⟨h1, h2⟩ := flag_same h g
      rw [e]
      exact ⟨⟨wf_congr h1 hg.wf, by rw [h1, h2]; exact hg.bound⟩, by beta_reduce; rw [nlay_congr h1]; exact .refl _⟩

private theorem mem_arcs {g : Nfa A} (h : g.WF) (e : EdgeDesc A) : e ∈ g.arcs ↔ InLay nlay e g := by
  rw [← mem_edges_nlay h]
  unfold Nfa.arcs
  rw [List.mem_map]
  constructor
  · rintro ⟨d, hd, rfl⟩; exact ⟨d.distinguisher.2, hd⟩
  · rintro ⟨ns, hd⟩; exact ⟨_, hd, rfl⟩

private theorem mem_arcsFrom {g : Nfa A} (h : g.WF) (q : Nat) (e : EdgeDesc A) : e ∈ g.arcsFrom q ↔ e.source = q ∧ InLay nlay e g := by
  rw [← mem_outEdges_nlay h]
  unfold Nfa.arcsFrom
  rw [List.mem_map]
  constructor
  · rintro ⟨d, hd, rfl⟩; exact ⟨d.distinguisher.2, hd⟩
  · rintro ⟨ns, hd⟩; exact ⟨_, hd, rfl⟩

private theorem tried_up {eps : A} {qs : List Nat} {n : Nat} {g : Nfa A} {l : List (NfaOp A × Except PyErr Unit)}
    (h : Tried Nfa.FromStates Nfa.execM (Nfa.init eps qs n) g l) : NUpInv g := by
  have hi : ∀ n, NUpInv (Nfa.init eps qs n) := by
    intro n
    induction n with
    | zero => exact ⟨Nfa.WF_init eps qs 0, by simp [Nfa.init, Dict.keys]⟩
    | succ n ih => exact (nfa_addVertex ih).1
  induction h with
  | start => exact hi n
  | @call s l op hp h ih =>
    have hdown : ∀ s' : Nfa A, s'.WF → (nlay s').Sub (nlay s) → s'.lastVertexId = s.lastVertexId → NUpInv s' := fun s' h1 h2 h3 =>
      ⟨h1, fun u hu => by rw [h3]; exact ih.bound u (h2.outer.mem hu)⟩
    cases op with
    | addVertex => exact (nfa_addVertex ih).1
    | addEdge q r a => exact nfa_addEdge ih (hp q r a rfl) r a
    | removeEdge e => exact hdown _ (ih.wf.removeEdge e) (nlay_removeEdge s e) (Nfa.removeEdge_keeps s e).2.1
    | removeVertex u =>
      exact hdown _ (nfa_removeVertexM u s ih.wf).1 (nfa_removeVertexM u s ih.wf).2 (Nfa.counter_removeVertexM u s)
    | setInitial q b => exact ⟨⟨ih.wf.outer, ih.wf.mid, ih.wf.inner⟩, ih.bound⟩
    | setInitials q => exact ⟨⟨ih.wf.outer, ih.wf.mid, ih.wf.inner⟩, ih.bound⟩
    | setFinal q b => exact ⟨⟨ih.wf.outer, ih.wf.mid, ih.wf.inner⟩, ih.bound⟩
    | clear =>
      show NUpInv (Nfa.clearM s).2
      rw [Nfa.clearM_eq ih.wf]
      exact ⟨⟨Dict.nodupKeys_nil, (fun _ _ h => nomatch h), (fun _ _ _ _ h => nomatch h)⟩, by simp [Dict.keys]⟩

end helpers

section anyHistory
variable {eps : A} {qs : List Nat} {n : Nat} {g : Nfa A} {l : List (NfaOp A × Except PyErr Unit)}

/-- A loop over `edges()`: each transition delivered is in the automaton at that time, none is delivered twice, the transitions there from the
beginning to the end are delivered if the loop ends normally, and it ends so exactly if no turn changes the states, the keys of `adjacencies[q]` or
those of `adjacencies[q][a]`, where `q` is the source and `a` the label of the current transition. -/
theorem C166_edges (h : Tried Anything Nfa.execM (Nfa.init eps qs n) g l) {plan : List (EdgeDesc A) → List (NfaOp A)}
    (hp : Nfa.AddsArcs plan ∨ Nfa.RemovesNfa plan) :
    Delivers Nfa.execM plan Nfa.arcs (fun e g g' => g'.vertices = g.vertices ∧ g'.labelKeys e.source = g.labelKeys e.source ∧
        g'.targets e.source e.distinguisher = g.targets e.source e.distinguisher) g
      (Nfa.forEdges Walk.obj (Walk.body Nfa.execM plan) ⟨g, []⟩) := by
  rcases hp with hp | hp
  · exact (up hp).arcs (items := Nfa.arcs) (fun s e hs => mem_arcs hs e) (Nfa.tried_wf h)
  · exact (down hp).arcs (items := Nfa.arcs) (fun s e hs => mem_arcs hs e) (Nfa.tried_wf h)

/-- A loop over `out_edges(q)`. -/
theorem C166_out_edges (h : Tried Anything Nfa.execM (Nfa.init eps qs n) g l) {plan : List (EdgeDesc A) → List (NfaOp A)}
    (hp : Nfa.AddsArcs plan ∨ Nfa.RemovesNfa plan) (q : Nat) :
    Delivers Nfa.execM plan (fun g => g.arcsFrom q) (fun e g g' => g'.labelKeys q = g.labelKeys q ∧
        g'.targets q e.distinguisher = g.targets q e.distinguisher) g
      (Nfa.forOutEdges Walk.obj q (Walk.body Nfa.execM plan) ⟨g, []⟩) := by
  rcases hp with hp | hp
  · exact (up hp).arcsOf q (items := fun g => g.arcsFrom q) (fun s e hs => mem_arcsFrom hs q e) (Nfa.tried_wf h)
  · exact (down hp).arcsOf q (items := fun g => g.arcsFrom q) (fun s e hs => mem_arcsFrom hs q e) (Nfa.tried_wf h)

/-- A loop over `vertices()`. -/
theorem C166_vertices (h : Tried Anything Nfa.execM (Nfa.init eps qs n) g l) {plan : List Nat → List (NfaOp A)}
    (hp : Nfa.AddsArcs plan ∨ Nfa.RemovesNfa plan) :
    Delivers Nfa.execM plan Nfa.vertices (fun _ g g' => g'.vertices = g.vertices) g (Nfa.forVertices Walk.obj (Walk.body Nfa.execM plan) ⟨g, []⟩) := by
  rcases hp with hp | hp
  · exact (up hp).vertices (Nfa.tried_wf h)
  · exact (down hp).vertices (Nfa.tried_wf h)

end anyHistory

section careful
variable {eps : A} {qs : List Nat} {n : Nat} {g : Nfa A} {l : List (NfaOp A × Except PyErr Unit)}

/-- A loop over `edges()` whose body adds states too, if the sources of all transitions are states. -/
theorem C166_edges_states (h : Tried Nfa.FromStates Nfa.execM (Nfa.init eps qs n) g l)
    {plan : List (EdgeDesc A) → List (NfaOp A)} (hp : Nfa.AddsNfa plan) :
    Delivers Nfa.carefulM plan Nfa.arcs (fun e g g' => g'.vertices = g.vertices ∧ g'.labelKeys e.source = g.labelKeys e.source ∧
        g'.targets e.source e.distinguisher = g.targets e.source e.distinguisher) g
      (Nfa.forEdges Walk.obj (Walk.body Nfa.carefulM plan) ⟨g, []⟩) :=
  (careful hp).arcs (items := Nfa.arcs) (fun _ e hs => mem_arcs hs.wf e) (tried_up h)

/-- A loop over `out_edges(q)`. -/
theorem C166_out_edges_states (h : Tried Nfa.FromStates Nfa.execM (Nfa.init eps qs n) g l)
    {plan : List (EdgeDesc A) → List (NfaOp A)} (hp : Nfa.AddsNfa plan) (q : Nat) :
    Delivers Nfa.carefulM plan (fun g => g.arcsFrom q) (fun e g g' => g'.labelKeys q = g.labelKeys q ∧
        g'.targets q e.distinguisher = g.targets q e.distinguisher) g
      (Nfa.forOutEdges Walk.obj q (Walk.body Nfa.carefulM plan) ⟨g, []⟩) :=
  (careful hp).arcsOf q (items := fun g => g.arcsFrom q) (fun _ e hs => mem_arcsFrom hs.wf q e) (tried_up h)

/-- A loop over `vertices()`. -/
theorem C166_vertices_states (h : Tried Nfa.FromStates Nfa.execM (Nfa.init eps qs n) g l)
    {plan : List Nat → List (NfaOp A)} (hp : Nfa.AddsNfa plan) :
    Delivers Nfa.carefulM plan Nfa.vertices (fun _ g g' => g'.vertices = g.vertices) g (Nfa.forVertices Walk.obj (Walk.body Nfa.carefulM plan) ⟨g, []⟩) :=
  (careful hp).vertices (tried_up h)

end careful

/-! ## Consequences -/

section consequences
variable {eps : A} {qs : List Nat} {n : Nat} {g : Nfa A} {l : List (NfaOp A × Except PyErr Unit)}

/-- A change of the number of targets of the current source and label stops the loop at once. -/
theorem C166_prompt (g : Nfa A) (plan : List (EdgeDesc A) → List (NfaOp A)) (w : Walk (Nfa A) (EdgeDesc A))
    (hw : (Nfa.forEdges Walk.obj (Walk.body Nfa.execM plan) ⟨g, []⟩).2 = w) :
    ∀ t ∈ turns Nfa.execM plan g [] w.seen.dropLast,
      (t.2.2.targets t.1.source t.1.distinguisher).length = (t.2.1.targets t.1.source t.1.distinguisher).length := by
  subst hw
  have hp : Prompt (leafOf Nfa.execM plan) (fun e w w' : _ => (w'.obj.targets e.source e.distinguisher).length = (w.obj.targets e.source e.distinguisher).length)
      (Nfa.forEdges Walk.obj (Walk.body Nfa.execM plan)) ⟨g, []⟩ := by
    refine forFrom_prompt (fun q s => ?_) _ _ _
    refine forFrom_prompt (fun a s => ?_) _ _ _
    obtain ⟨new, a1, a2, a3, -⟩ := forFrom_prompt_leaf (leaf := leafOf Nfa.execM plan) (items := fun w : Walk (Nfa A) (EdgeDesc A) => w.obj.targets q a)
      (body := fun r => Walk.body Nfa.execM plan ⟨q, r, a⟩) (mk := fun r => ⟨q, r, a⟩)
      (R := fun e w w' => (w'.obj.targets e.source e.distinguisher).length = (w.obj.targets e.source e.distinguisher).length) (fun _ _ => rfl)
      (fun _ _ _ h => h) (s.obj.targets q a).length (s.obj.targets q a).length s
    exact ⟨new, a1, a2, a3⟩
  obtain ⟨new, a1, a2, -⟩ := hp
  rw [a1, run_leafOf]
  simp only [List.nil_append]
  exact (allQ_leafOf (exec := Nfa.execM) (plan := plan)
    (Q := fun e s s' => (s'.targets e.source e.distinguisher).length = (s.targets e.source e.distinguisher).length) new.dropLast ⟨g, []⟩).1 a2

/-- `for e in nfa.edges(): nfa.remove_edge(e)` stops with `RuntimeError` after the first transition, if there is one. -/
theorem C166_remove_loop (h : Tried Anything Nfa.execM (Nfa.init eps qs n) g l) (hne : g.arcs ≠ []) :
    ∃ e ∈ g.arcs, Nfa.forEdges Walk.obj (Walk.body Nfa.execM fun es => es.getLast?.toList.map fun e => .removeEdge ⟨e.source, e.target, (e.distinguisher, 0)⟩)
      ⟨g, []⟩ = (.error .runtimeError, ⟨g.removeEdge ⟨e.source, e.target, (e.distinguisher, 0)⟩, [e]⟩) := by
  let plan : List (EdgeDesc A) → List (NfaOp A) := fun es => es.getLast?.toList.map fun e => .removeEdge ⟨e.source, e.target, (e.distinguisher, 0)⟩
  have hp : Nfa.RemovesNfa plan := by
    intro xs op ho
    simp only [plan, List.mem_map] at ho
    obtain ⟨e, -, rfl⟩ := ho
    exact .inl ⟨_, rfl⟩
  have hd := C166_edges h (.inr hp)
  have hpr := C166_prompt g plan _ rfl
  show ∃ e ∈ g.arcs, Nfa.forEdges Walk.obj (Walk.body Nfa.execM plan) ⟨g, []⟩ = _
  generalize Nfa.forEdges Walk.obj (Walk.body Nfa.execM plan) ⟨g, []⟩ = out at hd hpr
  have hg := Nfa.tried_wf h
  have hplan : ∀ e, plan [e] = [.removeEdge ⟨e.source, e.target, (e.distinguisher, 0)⟩] := fun _ => rfl
  have hafter : ∀ e : EdgeDesc A, afterCalls Nfa.execM (plan [e]) g = g.removeEdge ⟨e.source, e.target, (e.distinguisher, 0)⟩ := fun _ => rfl
  have hrm : ∀ e ∈ g.arcs, e ∉ (g.removeEdge (⟨e.source, e.target, (e.distinguisher, 0)⟩ : EdgeDesc (A × Nat))).arcs := by
    intro e _ hm
    have hm := (mem_arcs (hg.removeEdge _) e).1 hm
    rw [← mem_edges_nlay (hg.removeEdge _)] at hm
    obtain ⟨ns, hm⟩ := hm
    rw [Nfa.mem_edges_nums (hg.removeEdge _), Nfa.nums_removeEdge hg] at hm
    simp at hm
  have hlen : ∀ e ∈ g.arcs, ((g.removeEdge (⟨e.source, e.target, (e.distinguisher, 0)⟩ : EdgeDesc (A × Nat))).targets e.source e.distinguisher).length ≠
      (g.targets e.source e.distinguisher).length := by
    intro e he hl
    have hs := (nlay_removeEdge g (⟨e.source, e.target, (e.distinguisher, 0)⟩ : EdgeDesc (A × Nat))).tgts e.source e.distinguisher
    have heq := hs.eq_of_length hl
    refine hrm e he ((mem_arcs (hg.removeEdge _) e).2 ?_)
    show e.target ∈ (nlay _).tgts _ _
    rw [heq]
    exact (mem_arcs hg e).1 he
  rcases hs : out.2.seen with _ | ⟨e, rest⟩
  · exfalso
    have hok : out.1 = .ok () := hd.detected.2 (by rw [hs]; simp [turns])
    obtain ⟨x, hx⟩ := List.exists_mem_of_ne_nil _ hne
    have := hd.complete hok x hx (by rw [hd.obj, hs]; exact hx)
    rw [hs] at this; cases this
  · have he : e ∈ g.arcs := hd.present (e, g, _) (by rw [hs]; exact List.mem_cons_self)
    have hrest : rest = [] := by
      rcases rest with _ | ⟨y, rest⟩
      · rfl
      · exfalso
        have := hpr (e, g, afterCalls Nfa.execM (plan [e]) g) (by rw [hs]; exact List.mem_cons_self)
        rw [hafter] at this
        exact hlen e he this
    subst hrest
    refine ⟨e, he, Prod.ext ?_ ?_⟩
    · rcases hd.outcome with hok | herr
      · exfalso
        have := (hd.detected.1 hok (e, g, afterCalls Nfa.execM (plan [e]) g) (by rw [hs]; exact List.mem_cons_self)).2.2
        rw [hafter] at this
        exact hlen e he (congrArg List.length this)
      · exact herr
    · have := hd.obj
      rw [hs] at this
      rcases out with ⟨r, obj, seen⟩
      simp only at this hs
      subst hs this
      rfl

/-- A body that repeats transitions that are there, and sets initial and final states, may run in a loop over `edges()`: it ends normally, and
delivers all transitions. -/
theorem C166_repeat (h : Tried Anything Nfa.execM (Nfa.init eps qs n) g l) {plan : List (EdgeDesc A) → List (NfaOp A)}
    (hp : ∀ es, ∀ op ∈ plan es, (∃ q r a, op = .addEdge q r a ∧ g.Trans q a r) ∨ Nfa.SetsFlag op) :
    ∃ w, Nfa.forEdges Walk.obj (Walk.body Nfa.execM plan) ⟨g, []⟩ = (.ok (), w) ∧ w.seen.Nodup ∧ (∀ e, e ∈ w.seen ↔ e ∈ g.arcs) ∧
      ∀ e, e ∈ w.obj.arcs ↔ e ∈ g.arcs := by
  have hp' : Nfa.AddsArcs plan := fun es op ho => (hp es op ho).imp_left fun ⟨q, r, a, k, _⟩ => ⟨q, r, a, k⟩
  have hd := C166_edges h (.inl hp')
  generalize Nfa.forEdges Walk.obj (Walk.body Nfa.execM plan) ⟨g, []⟩ = out at hd ⊢
  have hg := Nfa.tried_wf h
  have hk : ∀ es (s : Nfa A), s.WF ∧ nlay s = nlay g → (afterCalls Nfa.execM (plan es) s).WF ∧ nlay (afterCalls Nfa.execM (plan es) s) = nlay g := by
    intro es s hs
    have := keeps_calls (J := fun s : Nfa A => s.WF ∧ nlay s = nlay g) (T := fun _ _ => True) (exec := Nfa.execM) (fun _ => trivial) (fun _ _ _ _ _ => trivial)
      (plan es) (fun op ho s hs => ⟨?_, trivial⟩) s hs
    · exact this.1
    · rcases hp es op ho with ⟨q, r, a, rfl, ht⟩ | hf
      · refine ⟨hs.1.addEdge q r a, Eq.trans ?_ hs.2⟩
        rw [Nfa.trans_iff hg] at ht
        have ht : r ∈ (nlay g).tgts q a := ht
        rw [← hs.2] at ht
        have h1 := (nlay_ok hs.1).lab _ _ _ ht
        have h2 := (nlay_ok hs.1).up _ _ h1
        show nlay (s.addEdge q r a).2 = nlay s
        unfold nlay Nfa.addEdge Nfa.targets
        simp only [Lay.mk.injEq]
        refine ⟨Dict.keys_set_of_mem _ _ _ h2, ?_, ?_⟩
        · funext q'
          rw [Dict.getD_set]
          split
          · next e => subst e; exact Dict.keys_set_of_mem _ _ _ h1
          · rfl
        · funext q' a'
          rw [Dict.getD_set]
          split
          · next e =>
            subst e
            rw [Dict.getD_set]
            split
            · next e => subst e; exact Dict.keys_set_of_mem _ _ _ ht
            · rfl
          · rfl
      · have := (flag_same hf s).1
        exact ⟨wf_congr this hs.1, (nlay_congr this).trans hs.2⟩
  have hturns : ∀ (xs past : List (EdgeDesc A)) (s : Nfa A), s.WF ∧ nlay s = nlay g →
      ((afterTurns Nfa.execM plan s past xs).WF ∧ nlay (afterTurns Nfa.execM plan s past xs) = nlay g) ∧
      ∀ t ∈ turns Nfa.execM plan s past xs, (t.2.1.WF ∧ nlay t.2.1 = nlay g) ∧ nlay t.2.2 = nlay g := by
    intro xs
    induction xs with
    | nil => intro past s hs; exact ⟨hs, by simp [turns]⟩
    | cons x xs ih =>
      intro past s hs
      have h1 := hk (past ++ [x]) s hs
      obtain ⟨h2, h3⟩ := ih (past ++ [x]) _ h1
      refine ⟨h2, fun t ht => ?_⟩
      rcases List.mem_cons.1 ht with rfl | ht
      · exact ⟨hs, h1.2⟩
      · exact h3 t ht
  obtain ⟨k1, k2⟩ := hturns out.2.seen [] g ⟨hg, rfl⟩
  have hsame : ∀ s : Nfa A, s.WF → nlay s = nlay g → ∀ e, e ∈ s.arcs ↔ e ∈ g.arcs := fun s hs hl e => by
    rw [mem_arcs hs, mem_arcs hg]; unfold InLay; rw [hl]
  have hok : out.1 = .ok () := hd.detected.2 fun t ht => by
    have e : nlay t.2.2 = nlay t.2.1 := (k2 t ht).2.trans (k2 t ht).1.2.symm
    exact ⟨congrArg Lay.outer e, congrFun (congrArg Lay.labels e) _, congrFun (congrFun (congrArg Lay.tgts e) _) _⟩
  have hobj : ∀ e, e ∈ out.2.obj.arcs ↔ e ∈ g.arcs := by rw [hd.obj]; exact hsame _ k1.1 k1.2
  refine ⟨out.2, Prod.ext hok rfl, hd.once, fun e => ⟨fun he => ?_, fun he => hd.complete hok e he ((hobj e).2 he)⟩, hobj⟩
  obtain ⟨t, ht, rfl⟩ := mem_turns (exec := Nfa.execM) (plan := plan) (past := []) (s := g) he
  exact (hsame _ (k2 t ht).1.1 (k2 t ht).1.2 _).1 (hd.present t ht)

end consequences

/-! ## Non-vacuity -/

/-- Three states, two transitions from 0 and one from 1. -/
private def nfa3 : Nfa Char := afterCalls Nfa.execM [.addEdge 0 0 'a', .addEdge 0 1 'a', .addEdge 1 2 'b'] (Nfa.init 'e' [] 3)

example : ∃ l, Tried Nfa.FromStates Nfa.execM (Nfa.init 'e' [] 3) nfa3 l :=
  ⟨_, .call (NfaOp.addEdge 1 2 'b') (by rintro q r a h; cases h; decide) (.call (NfaOp.addEdge 0 1 'a') (by rintro q r a h; cases h; decide)
    (.call (NfaOp.addEdge 0 0 'a') (by rintro q r a h; cases h; decide) .start))⟩

/-- A transition added from a state not yet visited is delivered. -/
example : (Nfa.forEdges Walk.obj (Walk.body Nfa.execM fun es => if es.length = 1 then [.addEdge 2 0 'c'] else []) ⟨nfa3, []⟩).2.seen =
    [⟨0, 0, 'a'⟩, ⟨0, 1, 'a'⟩, ⟨1, 2, 'b'⟩, ⟨2, 0, 'c'⟩] := by decide

/-- A label removed from a state not yet visited is not delivered. -/
example : (Nfa.forEdges Walk.obj (Walk.body Nfa.execM fun es => if es.length = 1 then [.removeEdge ⟨1, 2, ('b', 1)⟩] else []) ⟨nfa3, []⟩).1 = .ok () ∧
    (Nfa.forEdges Walk.obj (Walk.body Nfa.execM fun es => if es.length = 1 then [.removeEdge ⟨1, 2, ('b', 1)⟩] else []) ⟨nfa3, []⟩).2.seen =
    [⟨0, 0, 'a'⟩, ⟨0, 1, 'a'⟩] := by decide

/-- The other transition with the current label is removed: the loop stops at once. -/
example : (Nfa.forEdges Walk.obj (Walk.body Nfa.execM fun es => if es.length = 1 then [.removeEdge ⟨0, 1, ('a', 1)⟩] else []) ⟨nfa3, []⟩).1 =
      .error .runtimeError ∧
    (Nfa.forEdges Walk.obj (Walk.body Nfa.execM fun es => if es.length = 1 then [.removeEdge ⟨0, 1, ('a', 1)⟩] else []) ⟨nfa3, []⟩).2.seen =
    [⟨0, 0, 'a'⟩] := by decide

/-- A state added while the edges are listed is noticed when the next state is requested. -/
example : (Nfa.forEdges Walk.obj (Walk.body Nfa.carefulM fun es => if es.length = 1 then [.addVertex, .addEdge 3 0 'c'] else []) ⟨nfa3, []⟩).1 =
      .error .runtimeError ∧
    (Nfa.forEdges Walk.obj (Walk.body Nfa.carefulM fun es => if es.length = 1 then [.addVertex, .addEdge 3 0 'c'] else []) ⟨nfa3, []⟩).2.seen =
    [⟨0, 0, 'a'⟩, ⟨0, 1, 'a'⟩] := by decide

/-- The hypotheses of `C166_remove_loop` and `C166_repeat`. -/
example : nfa3.arcs ≠ [] ∧ nfa3.Trans 0 'a' 1 := ⟨by decide, [1], by decide⟩

end PyBGL
