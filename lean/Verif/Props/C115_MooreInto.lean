import Verif.Proofs.MooreInto
import Verif.Proofs.FailureAutomaton
import Verif.Props.C25_C28_Nfa
import Verif.Proofs.PbfsWords
import Verif.Props.C11_C13_C24_Automaton

/-!
# C115: `moore_determination` into a given automaton
-/

namespace PyBGL
variable {A : Type} [DecidableEq A]

/-- `d` is the automaton `g` whose states are numbered from `n`. -/
structure Automaton.Renumbered (n : Nat) (d g : Automaton A) : Prop where
  verts : d.vertices = g.vertices.map (n + ·)
  delta : ∀ q a, d.delta (n + q) a = (g.delta q a).map (n + ·)
  init : d.q0 = g.q0.map (n + ·)
  fin : ∀ q, d.isFinal (n + q) = g.isFinal q

namespace MooreInto
open Automaton

/-- The part of `Renumbered` which does not concern the initial state, with invariants. -/
structure Shift (n : Nat) (q0 : Option Nat) (F : Nat → Bool) (d g : Automaton A) : Prop where
  awf : AWF d
  last : d.lastVertexId = n + g.lastVertexId
  verts : d.vertices = g.vertices.map (n + ·)
  delta : ∀ q a, d.delta (n + q) a = (g.delta q a).map (n + ·)
  init : d.q0 = q0
  fin : ∀ q, d.isFinal (n + q) = (g.isFinal q || F (n + q))

theorem Shift.addVertex {n : Nat} {q0 : Option Nat} {F : Nat → Bool} {d g : Automaton A} (h : Shift n q0 F d g) (hg : AWF g) : Shift n q0 F d.addVertex.2 g.addVertex.2 := by
  refine ⟨AWF_addVertex h.awf, ?_, ?_, ?_, h.init, h.fin⟩
  · show d.lastVertexId + 1 = n + (g.lastVertexId + 1)
    rw [h.last]; omega
  · rw [vertices_addVertex h.awf, vertices_addVertex hg, h.verts, h.last]; simp
  · intro q a; rw [delta_addVertex h.awf, delta_addVertex hg, h.delta]

theorem Shift.setFinal {n : Nat} {q0 : Option Nat} {F : Nat → Bool} {d g : Automaton A} (h : Shift n q0 F d g) (q : Nat) : Shift n q0 F (d.setFinal (n + q)) (g.setFinal q) := by
  refine ⟨⟨h.awf.outer, h.awf.inner, h.awf.lt⟩, h.last, h.verts, h.delta, h.init, fun x => ?_⟩
  rw [Moore.isFinal_setFinal, Moore.isFinal_setFinal, h.fin]
  by_cases hx : q = x
  · subst hx; simp
  · rw [if_neg hx, if_neg (by omega)]

theorem Shift.setDelta {n : Nat} {q0 : Option Nat} {F : Nat → Bool} {d g : Automaton A} (h : Shift n q0 F d g) {q : Nat} (r : Nat) (a : A) (hq : q ∈ g.vertices) :
    n + q ∈ d.vertices ∧ Shift n q0 F (d.setDelta (n + q) (n + r) a) (g.setDelta q r a) := by
  have hq' : n + q ∈ d.vertices := by rw [h.verts]; exact List.mem_map.mpr ⟨q, hq, rfl⟩
  refine ⟨hq', AWF_setDelta h.awf _ a hq', h.last, ?_, ?_, h.init, h.fin⟩
  · rw [vertices_setDelta _ _ hq', vertices_setDelta _ _ hq, h.verts]
  · intro x b
    rw [delta_setDelta, delta_setDelta, h.delta]
    by_cases hx : q = x ∧ a = b
    · rw [if_pos hx, if_pos ⟨by omega, hx.2⟩]; rfl
    · rw [if_neg hx, if_neg (fun hc => hx ⟨by omega, hc.2⟩)]

theorem Shift.free {n : Nat} {q0 : Option Nat} {F : Nat → Bool} {d g : Automaton A} (h : Shift n q0 F d g) {q : Nat} {a : A} (hf : g.delta q a = none) : d.delta (n + q) a = none := by
  rw [h.delta, hf]; rfl

theorem sim_automaton (n : Nat) (q0 : Option Nat) (F : Nat → Bool) :
    Sim (Automaton.dfaOps (A := A)) (n + ·) (fun d g => d.Reachable ∧ Shift n q0 F d g) where
  vertex := fun {d g} h hg => ⟨h.2.last, h.1.exec (op := .addVertex) rfl, h.2.addVertex hg⟩
  final := fun {d g q} h => ⟨h.1.exec (op := .setFinal (n + q) true) rfl, h.2.setFinal q⟩
  edge := fun {d g q r a} h hg hq hr hf => by
    obtain ⟨h1, h2⟩ := h.2.setDelta r a hq
    have he : d.addEdge (n + q) (n + r) a = .ok (some ⟨n + q, n + r, a⟩, true, d.setDelta (n + q) (n + r) a) := addEdge_of_free (.inl (h.2.free hf)) h1
    refine ⟨_, ?_, h.1.exec (op := .addEdge (n + q) (n + r) a) ?_, h2⟩
    · show (d.addEdge (n + q) (n + r) a).map (·.2.2) = _
      rw [he]; rfl
    · show (d.addEdge (n + q) (n + r) a).map (·.2.2) = _
      rw [he]; rfl

theorem sim_incidence (n : Nat) (q0 : Option Nat) (F : Nat → Bool) :
    Sim (IAutomaton.dfaOps (A := A)) (n + ·) (fun d g => IAutomaton.SafeHistory d ∧ Shift n q0 F d.a g) where
  vertex := fun {d g} h hg => ⟨h.2.last, .step (op := .addVertex) h.1 trivial rfl, h.2.addVertex hg⟩
  final := fun {d g q} h => ⟨.step (op := .setFinal (n + q) true) h.1 trivial rfl, h.2.setFinal q⟩
  edge := fun {d g q r a} h hg hq hr hf => by
    obtain ⟨h1, h2⟩ := h.2.setDelta r a hq
    have he : d.a.addEdge (n + q) (n + r) a = .ok (some ⟨n + q, n + r, a⟩, true, d.a.setDelta (n + q) (n + r) a) := addEdge_of_free (.inl (h.2.free hf)) h1
    have hr' : n + r ∈ d.a.vertices := by rw [h.2.verts]; exact List.mem_map.mpr ⟨r, hr, rfl⟩
    obtain ⟨ins, hins⟩ := (Dict.mem_keys_iff _ _).mp ((h.1.wf.keys _).mpr hr')
    obtain ⟨d', k1, k2⟩ : ∃ d' : IAutomaton A, (d.addEdge (n + q) (n + r) a).map (·.2.2) = .ok d' ∧ d'.a = d.a.setDelta (n + q) (n + r) a := by
      unfold IAutomaton.addEdge
      rw [he]
      simp only [bind, Except.bind, if_true, Dict.getE_of_get? hins]
      cases ins.get? (n + q) with
      | none => exact ⟨_, rfl, rfl⟩
      | some s => exact ⟨_, rfl, rfl⟩
    refine ⟨d', k1, .step (op := .addEdge (n + q) (n + r) a) h.1 ?_ k1, k2 ▸ h2⟩
    show d.a.delta (n + q) a ≠ some 0
    rw [h.2.free hf]; exact nofun

theorem shift_empty {d : Automaton A} (hd : AWF d) (hv : d.vertices = []) : Shift d.lastVertexId d.q0 d.isFinal d .empty := by
  refine ⟨hd, rfl, hv, fun q a => ?_, rfl, fun q => rfl⟩
  rw [delta_not_mem a (by rw [hv]; simp)]; rfl

/-- The words of the DFA do not contain ε. -/
theorem moore_words {nfa : Nfa A} {c : Bool} {dfa : Automaton A} {map : Dict (List Nat) Nat}
    (h : Moore.MInv nfa c (fun k a => a ∈ Moore.subsetSigma nfa c k) ⟨dfa, map, []⟩) {w : List A} (hw : dfa.Lang w) : nfa.eps ∉ w := by
  obtain ⟨q, f, h1, h2, _⟩ := hw
  rw [h.q0] at h1
  cases h1
  obtain ⟨k, h3, _⟩ := (Moore.deltaWord_spec h w h.start f).mp ((deltaWord_iff h.awf).mpr h2)
  intro he
  exact Moore.alphabet_ne_eps (Moore.kpath_word h3 _ he) rfl

/-- The result of `moore_determination` into a new automaton is built by calls to the API. -/
theorem sim_default : Sim (Automaton.dfaOps (A := A)) id (fun d g => d = g ∧ d.Reachable) where
  vertex := fun {d g} h hg => ⟨h.1 ▸ rfl, h.1 ▸ rfl, h.2.exec (op := .addVertex) rfl⟩
  final := fun {d g q} h => ⟨h.1 ▸ rfl, h.2.exec (op := .setFinal q true) rfl⟩
  edge := fun {d g q r a} h hg hq hr hf => by
    obtain ⟨rfl, h⟩ := h
    have he : d.addEdge q r a = .ok (some ⟨q, r, a⟩, true, d.setDelta q r a) := addEdge_of_free (.inl hf) hq
    have he' : (d.addEdge q r a).map (·.2.2) = .ok (d.setDelta q r a) := by rw [he]; rfl
    exact ⟨_, he', rfl, h.exec (op := .addEdge q r a) he'⟩

end MooreInto

/-- The DFA built from an NFA whose dictionaries have distinct keys. -/
theorem MooreInto.default_spec {g : Nfa A} (hg : g.WF) (complete : Bool) (pick : Nat → Nat) (order : Nat → List A → List A) (hord : ∀ t l, (order t l).Perm l) :
    ∃ m, Returns (Moore.run g complete pick order) (.ok m) ∧ m.Reachable ∧ m.q0 = some 0 ∧ ∀ w, m.Lang w ↔ (g.eps ∉ w ∧ g.Lang w) := by
  obtain ⟨d', m, h1, h2, rfl, h3⟩ := MooreInto.run_rel (nfa := g) (c := complete) (pick := pick) MooreInto.sim_default hord (d0 := .empty) ⟨rfl, [], rfl⟩
  obtain ⟨m', k1, k2⟩ := Moore.correct hg complete pick order hord
  obtain ⟨r, l1, l2⟩ := Moore.run_spec g complete pick order hord
  cases returns_unique k1 h2
  cases returns_unique l1 h2
  obtain ⟨map, l2⟩ := l2
  refine ⟨d', h2, h3, l2.q0, fun w => ⟨fun h => ?_, fun h => ((k2 w h.1).2).mpr h.2⟩⟩
  have := MooreInto.moore_words l2 h
  exact ⟨this, ((k2 w this).2).mp h⟩

/-- **C115**: the DFA returned by `moore_determination(nfa)` is one to which the theorems on automata apply, and it has the language of the NFA. -/
theorem C115_default {g : Nfa A} (hg : g.Reachable) (complete : Bool) (pick : Nat → Nat) (order : Nat → List A → List A) (hord : ∀ t l, (order t l).Perm l) :
    ∃ m, Returns (Moore.run g complete pick order) (.ok m) ∧ m.Reachable ∧ m.q0 = some 0 ∧ ∀ w, m.Lang w ↔ (g.eps ∉ w ∧ g.Lang w) :=
  MooreInto.default_spec hg.wf complete pick order hord

/-- Two automata one of which is the other renumbered recognise the same language. -/
theorem Automaton.Renumbered.lang {n : Nat} {d g : Automaton A} (hd : AWF d) (hg : AWF g) (h : d.Renumbered n g) (w : List A) : d.Lang w ↔ g.Lang w := by
  have key : ∀ (w : List A) (q : Option Nat), d.deltaWord (q.map (n + ·)) w = (g.deltaWord q w).map (n + ·) := by
    intro w
    induction w with
    | nil => intro q; simp
    | cons a w ih =>
      intro q
      cases q with
      | none => simp
      | some q =>
        rw [deltaWord_cons, deltaWord_cons]
        simp only [Option.map_some, deltaO, Option.bind_some, h.delta]
        exact ih _
  rw [Automaton.lang_iff_final hd, Automaton.lang_iff_final hg]
  unfold initial
  rw [h.init, key]
  cases g.deltaWord g.q0 w with
  | none => rfl
  | some q => show d.isFinal (n + q) = true ↔ g.isFinal q = true; rw [h.fin]

/-- The English property: given an empty automaton, `moore_determination` fills it with a DFA that recognises the language of the NFA. -/
def C115_statement : Prop :=
  ∀ (g : Nfa Nat), g.Reachable → ∀ d : Automaton Nat, d.Reachable → d.vertices = [] → ∀ (complete : Bool) (pick : Nat → Nat)
    (order : Nat → List Nat → List Nat), (∀ t l, (order t l).Perm l) →
    ∃ d', Returns (MooreInto.run Automaton.dfaOps g d complete pick order) (.ok d') ∧ ∀ w, g.eps ∉ w → (d'.Lang w ↔ g.Lang w)

/-- **C115**: what `moore_determination` does with any `Automaton` without state. It returns the DFA it would build by default, its states being numbered from the next
number of `d`; but the initial state is still the one of `d`, and a state on which a final flag was left is final. -/
theorem C115_exact {g : Nfa A} {d : Automaton A} (hd : d.Reachable) (hv : d.vertices = []) (complete : Bool) (pick : Nat → Nat)
    (order : Nat → List A → List A) (hord : ∀ t l, (order t l).Perm l) :
    ∃ d' m, Returns (MooreInto.run Automaton.dfaOps g d complete pick order) (.ok d') ∧ Returns (Moore.run g complete pick order) (.ok m) ∧
      d'.Reachable ∧ d'.vertices = m.vertices.map (d.lastVertexId + ·) ∧
      (∀ q a, d'.delta (d.lastVertexId + q) a = (m.delta q a).map (d.lastVertexId + ·)) ∧ d'.q0 = d.q0 ∧
      ∀ q, d'.isFinal (d.lastVertexId + q) = (m.isFinal q || d.isFinal (d.lastVertexId + q)) := by
  obtain ⟨d', m, h1, h2, h3, h4⟩ := MooreInto.run_rel (nfa := g) (c := complete) (pick := pick) (MooreInto.sim_automaton d.lastVertexId d.q0 d.isFinal) hord
    (d0 := d) ⟨hd, MooreInto.shift_empty hd.awf hv⟩
  exact ⟨d', m, h1, h2, h3, h4.verts, h4.delta, h4.init, h4.fin⟩

/-- **C115**: the same for `IncidenceAutomaton`, whose incoming transitions are up to date in the result. -/
theorem C115_exact_incidence {g : Nfa A} {d : IAutomaton A} (hd : IAutomaton.SafeHistory d) (hv : d.a.vertices = []) (complete : Bool) (pick : Nat → Nat)
    (order : Nat → List A → List A) (hord : ∀ t l, (order t l).Perm l) :
    ∃ d' m, Returns (MooreInto.run IAutomaton.dfaOps g d complete pick order) (.ok d') ∧ Returns (Moore.run g complete pick order) (.ok m) ∧
      IAutomaton.SafeHistory d' ∧ d'.a.vertices = m.vertices.map (d.a.lastVertexId + ·) ∧
      (∀ q a, d'.a.delta (d.a.lastVertexId + q) a = (m.delta q a).map (d.a.lastVertexId + ·)) ∧ d'.a.q0 = d.a.q0 ∧
      ∀ q, d'.a.isFinal (d.a.lastVertexId + q) = (m.isFinal q || d.a.isFinal (d.a.lastVertexId + q)) := by
  obtain ⟨d', m, h1, h2, h3, h4⟩ := MooreInto.run_rel (nfa := g) (c := complete) (pick := pick) (MooreInto.sim_incidence d.a.lastVertexId d.a.q0 d.a.isFinal) hord
    (d0 := d) ⟨hd, MooreInto.shift_empty hd.wf.out hv⟩
  exact ⟨d', m, h1, h2, h3, h4.verts, h4.delta, h4.init, h4.fin⟩

/-- **C115, partial** (missing: empty automata whose next state is not the initial one, or on whose next states a final flag was left; see the counterexamples). Given an empty
`Automaton`, `moore_determination` fills it with the DFA it builds by default, states being numbered from the next number, and so recognises the language of the NFA. -/
theorem C115_automaton_partial {g : Nfa A} (hg : g.Reachable) {d : Automaton A} (hd : d.Reachable) (hv : d.vertices = []) (hq : d.q0 = some d.lastVertexId)
    (hf : ∀ q, d.lastVertexId ≤ q → d.isFinal q = false) (complete : Bool) (pick : Nat → Nat) (order : Nat → List A → List A)
    (hord : ∀ t l, (order t l).Perm l) :
    ∃ d' m, Returns (MooreInto.run Automaton.dfaOps g d complete pick order) (.ok d') ∧ Returns (Moore.run g complete pick order) (.ok m) ∧
      d'.Reachable ∧ d'.Renumbered d.lastVertexId m ∧ ∀ w, d'.Lang w ↔ (g.eps ∉ w ∧ g.Lang w) := by
  obtain ⟨d', m, h1, h2, h3, h4, h5, h6, h7⟩ := C115_exact (g := g) hd hv complete pick order hord
  obtain ⟨m', k1, k2, k3, k4⟩ := C115_default hg complete pick order hord
  cases returns_unique k1 h2
  have hR : d'.Renumbered d.lastVertexId m := ⟨h4, h5, by rw [h6, hq, k3]; rfl, fun q => by rw [h7, hf _ (Nat.le_add_right _ _), Bool.or_false]⟩
  exact ⟨d', m, h1, h2, h3, hR, fun w => (hR.lang h3.awf k2.awf w).trans (k4 w)⟩

/-- **C115, partial** (same restriction, for `IncidenceAutomaton`). -/
theorem C115_incidence_partial {g : Nfa A} (hg : g.Reachable) {d : IAutomaton A} (hd : IAutomaton.SafeHistory d) (hv : d.a.vertices = [])
    (hq : d.a.q0 = some d.a.lastVertexId) (hf : ∀ q, d.a.lastVertexId ≤ q → d.a.isFinal q = false) (complete : Bool) (pick : Nat → Nat)
    (order : Nat → List A → List A) (hord : ∀ t l, (order t l).Perm l) :
    ∃ d' m, Returns (MooreInto.run IAutomaton.dfaOps g d complete pick order) (.ok d') ∧ Returns (Moore.run g complete pick order) (.ok m) ∧
      IAutomaton.SafeHistory d' ∧ d'.a.Renumbered d.a.lastVertexId m ∧ ∀ w, d'.a.Lang w ↔ (g.eps ∉ w ∧ g.Lang w) := by
  obtain ⟨d', m, h1, h2, h3, h4, h5, h6, h7⟩ := C115_exact_incidence (g := g) hd hv complete pick order hord
  obtain ⟨m', k1, k2, k3, k4⟩ := C115_default hg complete pick order hord
  cases returns_unique k1 h2
  have hR : d'.a.Renumbered d.a.lastVertexId m := ⟨h4, h5, by rw [h6, hq, k3]; rfl, fun q => by rw [h7, hf _ (Nat.le_add_right _ _), Bool.or_false]⟩
  exact ⟨d', m, h1, h2, h3, hR, fun w => (hR.lang h3.wf.out k2.awf w).trans (k4 w)⟩

/-- An NFA with a transition by `1` from its initial state `0` to its final state `1`. -/
def moorePlain : Nfa Nat := ((Nfa.init 9 [] 2).addEdge 0 1 1).2.setFinal 1

theorem moorePlain_reachable : moorePlain.Reachable := ⟨9, [], [.addVertex, .addVertex, .addEdge 0 1 1, .setFinal 1 true], rfl⟩

/-- The states of the given automaton were removed: the initial state of the result is not one of its states. -/
theorem C115_removed_counterexample : ¬ C115_statement := by
  intro h
  have hd : (⟨1, [], some 0, []⟩ : Automaton Nat).Reachable := ⟨[.addVertex, .removeVertex 0], rfl⟩
  obtain ⟨d', h1, h2⟩ := h moorePlain moorePlain_reachable _ hd rfl false id (fun _ l => l) (fun _ _ => .refl _)
  obtain ⟨d'', m, k1, _, k2, k3, _, k4, _⟩ := C115_exact (g := moorePlain) hd rfl false id (fun _ l => l) (fun _ _ => .refl _)
  cases returns_unique h1 k1
  obtain ⟨q, f, l1, l2, _⟩ := (h2 [1] (by decide)).mpr ((C26_accepts moorePlain_reachable (by decide)).mp (by decide))
  rw [k4] at l1
  cases l1
  obtain ⟨r, l3, _⟩ := LPath.cons_iff.mp l2
  have l4 := (Automaton.trans_iff k2.awf).mp l3
  have : 0 ∉ d'.vertices := by rw [k3, List.mem_map]; rintro ⟨x, _, hx⟩; simp at hx
  rw [Automaton.delta_not_mem 1 this] at l4
  cases l4

/-- The given automaton was emptied with `clear()`: a final flag is left on the state `0`. -/
theorem C115_flag_counterexample : ¬ C115_statement := by
  intro h
  have hd : (⟨0, [], some 0, [(0, true)]⟩ : Automaton Nat).Reachable := ⟨[.addVertex, .setFinal 0 true, .clear], rfl⟩
  obtain ⟨d', h1, h2⟩ := h moorePlain moorePlain_reachable _ hd rfl false id (fun _ l => l) (fun _ _ => .refl _)
  obtain ⟨d'', m, k1, _, k2, _, _, k3, k4⟩ := C115_exact (g := moorePlain) hd rfl false id (fun _ l => l) (fun _ _ => .refl _)
  cases returns_unique h1 k1
  have l := (h2 [] (by decide)).mp ⟨0, 0, k3, .nil 0, by rw [show (0 : Nat) = 0 + 0 from rfl, k4 0, Bool.or_eq_true]; exact .inr rfl⟩
  exact absurd ((C26_accepts moorePlain_reachable (by decide)).mpr l) (by decide)

/-! The hypotheses of the theorems are met by an automaton that was used before: `clear()` after `add_vertex`, and removal followed by `set_initial`. -/
example : (⟨0, [], some 0, []⟩ : Automaton Nat).Reachable := ⟨[.addVertex, .addVertex, .addEdge 0 1 5, .clear], rfl⟩
example : (⟨1, [], some 1, []⟩ : Automaton Nat).Reachable ∧ (⟨1, [], some 1, []⟩ : Automaton Nat).vertices = [] :=
  ⟨⟨[.addVertex, .removeVertex 0, .setInitial 1 true], rfl⟩, rfl⟩
example : ∃ d', Returns (MooreInto.run Automaton.dfaOps exampleNfa ⟨1, [], some 1, []⟩ false id (fun _ l => l)) (.ok d') ∧ d'.Lang [1, 1, 2] := by
  obtain ⟨d', m, h1, _, _, _, h2⟩ := C115_automaton_partial exampleNfa_reachable (d := ⟨1, [], some 1, []⟩) ⟨[.addVertex, .removeVertex 0, .setInitial 1 true], rfl⟩ rfl rfl
    (fun _ _ => rfl) false id (fun _ l => l) (fun _ _ => .refl _)
  exact ⟨d', h1, (h2 _).mpr ⟨by decide, (C26_accepts exampleNfa_reachable (by decide)).1 (by decide)⟩⟩
example : IAutomaton.SafeHistory (IAutomaton.empty (A := Nat)) ∧ (IAutomaton.empty (A := Nat)).a.vertices = [] := ⟨.new, rfl⟩

end PyBGL
