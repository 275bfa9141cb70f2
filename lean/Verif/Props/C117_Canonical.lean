import Verif.Spec.Iso
import Verif.Props.C38_C40_Hopcroft
import Verif.Props.C115_MooreInto

/-!
# C117: the minimal automaton is a canonical form
-/

namespace PyBGL
open Automaton Hopcroft
variable {A : Type} [DecidableEq A]

/-- States reached by the same word read and accept the same words. -/
theorem canonical_transfer {g1 g2 : Automaton A} (hw1 : AWF g1) (hw2 : AWF g2) {p1 p2 : Nat} (hp1 : g1.q0 = some p1) (hp2 : g2.q0 = some p2)
    (hlang : ∀ w, g1.Lang w ↔ g2.Lang w) (hread : ∀ w, g1.Reads w ↔ g2.Reads w) {u : List A} {q1 q2 : Nat}
    (h1 : LPath g1.Trans p1 u q1) (h2 : LPath g2.Trans p2 u q2) (w : List A) :
    ((∃ r, LPath g1.Trans q1 w r) ↔ ∃ r, LPath g2.Trans q2 w r) ∧ (g1.Right q1 w ↔ g2.Right q2 w) := by
  have cut : ∀ {g : Automaton A} (hw : AWF g) {p q f : Nat}, LPath g.Trans p u q → LPath g.Trans p (u ++ w) f → LPath g.Trans q w f := by
    intro g hw p q f h h'
    rw [← deltaWord_iff hw] at h h' ⊢
    rwa [deltaWord_append, h] at h'
  constructor
  · have := hread (u ++ w)
    constructor
    · rintro ⟨r, hr⟩
      obtain ⟨p, r', e, h⟩ := this.mp ⟨p1, r, hp1, h1.append hr⟩
      rw [hp2] at e; cases e
      exact ⟨r', cut hw2 h2 h⟩
    · rintro ⟨r, hr⟩
      obtain ⟨p, r', e, h⟩ := this.mpr ⟨p2, r, hp2, h2.append hr⟩
      rw [hp1] at e; cases e
      exact ⟨r', cut hw1 h1 h⟩
  · have := hlang (u ++ w)
    constructor
    · rintro ⟨r, hr, hf⟩
      obtain ⟨p, r', e, h, hf'⟩ := this.mp ⟨p1, r, hp1, h1.append hr, hf⟩
      rw [hp2] at e; cases e
      exact ⟨r', cut hw2 h2 h, hf'⟩
    · rintro ⟨r, hr, hf⟩
      obtain ⟨p, r', e, h, hf'⟩ := this.mpr ⟨p2, r, hp2, h2.append hr, hf⟩
      rw [hp1] at e; cases e
      exact ⟨r', cut hw1 h1 h, hf'⟩

/-- **C117**: two automata whose states can all be reached, which accept the same words and read the same words, have the same minimal automaton up to
the numbers of the states, whatever the enumerations of the sets during the two minimizations. -/
theorem C117_canonical {g1 g2 : IAutomaton A} (h1 : IAutomaton.SafeHistory g1) (h2 : IAutomaton.SafeHistory g2) (hm1 : Mixed g1.a) (hm2 : Mixed g2.a)
    (hacc1 : ∀ q ∈ g1.a.vertices, ∃ q0 u, g1.a.q0 = some q0 ∧ LPath g1.a.Trans q0 u q)
    (hacc2 : ∀ q ∈ g2.a.vertices, ∃ q0 u, g2.a.q0 = some q0 ∧ LPath g2.a.Trans q0 u q)
    (hlang : ∀ w, g1.a.Lang w ↔ g2.a.Lang w) (hread : ∀ w, g1.a.Reads w ↔ g2.a.Reads w)
    {ord1 ord2 : HopcroftOrd A} (ho1 : ord1.Valid) (ho2 : ord2.Valid) :
    ∃ m1 m2 f, Returns (hopcroftMinimize ord1 g1) (.ok m1) ∧ Returns (hopcroftMinimize ord2 g2) (.ok m2) ∧ m1.a.IsoBy m2.a f := by
  classical
  obtain ⟨m1, r1, w1, _, φ, a1, a2, a3, a4, a5, a6⟩ := C39_quotient h1 hm1 ho1
  obtain ⟨m2, r2, w2, _, ψ, b1, b2, b3, b4, b5, b6⟩ := C39_quotient h2 hm2 ho2
  obtain ⟨p1, hp1v, hp1⟩ := hm1.init
  obtain ⟨p2, hp2v, hp2⟩ := hm2.init
  have hg1 := h1.wf
  have hg2 := h2.wf
  have mem1 : ∀ {u q}, LPath g1.a.Trans p1 u q → q ∈ g1.a.vertices := fun h => (hg1.lpath_mem h).elim (fun e => e ▸ hp1v) id
  have mem2 : ∀ {u q}, LPath g2.a.Trans p2 u q → q ∈ g2.a.vertices := fun h => (hg2.lpath_mem h).elim (fun e => e ▸ hp2v) id
  -- states of the two results reached by the same word
  let R : Nat → Nat → Prop := fun s t => ∃ u q r, LPath g1.a.Trans p1 u q ∧ LPath g2.a.Trans p2 u r ∧ φ q = s ∧ ψ r = t
  have hR : ∀ s ∈ m1.a.vertices, ∃ t, R s t := by
    intro s hs
    obtain ⟨q, hq, rfl⟩ := a2 s hs
    obtain ⟨q0, u, e, hu⟩ := hacc1 q hq
    rw [hp1] at e; cases e
    obtain ⟨q0, r, e, hr⟩ := (hread u).mp ⟨p1, q, hp1, hu⟩
    rw [hp2] at e; cases e
    exact ⟨ψ r, u, q, r, hu, hr, rfl, rfl⟩
  have tr := @canonical_transfer A _ g1.a g2.a hg1.out hg2.out p1 p2 hp1 hp2 hlang hread
  have hfun : ∀ {s t t'}, R s t → R s t' → t = t' := by
    rintro s t t' ⟨u, q, r, k1, k2, rfl, rfl⟩ ⟨u', q', r', k1', k2', e, rfl⟩
    have hi := (a3 q' (mem1 k1') q (mem1 k1)).mp e
    rw [b3 r (mem2 k2) r' (mem2 k2')]
    intro w
    have x := tr k1 k2 w
    have y := tr k1' k2' w
    exact ⟨x.1.symm.trans ((hi w).1.symm.trans y.1), x.2.symm.trans ((hi w).2.symm.trans y.2)⟩
  have hinj : ∀ {s s' t}, R s t → R s' t → s = s' := by
    rintro s s' t ⟨u, q, r, k1, k2, rfl, rfl⟩ ⟨u', q', r', k1', k2', rfl, e⟩
    have hi := (b3 r' (mem2 k2') r (mem2 k2)).mp e
    rw [a3 q (mem1 k1) q' (mem1 k1')]
    intro w
    have x := tr k1 k2 w
    have y := tr k1' k2' w
    exact ⟨x.1.trans ((hi w).1.symm.trans y.1.symm), x.2.trans ((hi w).2.symm.trans y.2.symm)⟩
  let f : Nat → Nat := fun s => if h : ∃ t, R s t then h.choose else 0
  have hf : ∀ {s t}, R s t → f s = t := by
    intro s t h
    have he : ∃ t, R s t := ⟨t, h⟩
    have : f s = he.choose := dif_pos he
    rw [this]
    exact hfun he.choose_spec h
  refine ⟨m1, m2, f, r1, r2, ?_, ?_, ?_, ?_, ?_, ?_⟩
  · intro s hs
    obtain ⟨t, ht⟩ := hR s hs
    rw [hf ht]
    obtain ⟨u, q, r, _, k2, _, rfl⟩ := ht
    exact b1 r (mem2 k2)
  · intro s hs s' hs' e
    obtain ⟨t, ht⟩ := hR s hs
    obtain ⟨t', ht'⟩ := hR s' hs'
    rw [hf ht, hf ht'] at e
    subst e
    exact hinj ht ht'
  · intro t ht
    obtain ⟨r, hr, rfl⟩ := b2 t ht
    obtain ⟨q0, u, e, hu⟩ := hacc2 r hr
    rw [hp2] at e; cases e
    obtain ⟨q0, q, e, hq⟩ := (hread u).mpr ⟨p2, r, hp2, hu⟩
    rw [hp1] at e; cases e
    exact ⟨φ q, a1 q (mem1 hq), hf ⟨u, q, r, hq, hu, rfl, rfl⟩⟩
  · rw [a4, b4, hp1, hp2]
    simp only [Option.map_some, Option.some.injEq]
    exact (hf ⟨[], p1, p2, .nil _, .nil _, rfl, rfl⟩).symm
  · intro s hs
    obtain ⟨t, ht⟩ := hR s hs
    rw [hf ht]
    obtain ⟨u, q, r, k1, k2, rfl, rfl⟩ := ht
    rw [a5 q (mem1 k1), b5 r (mem2 k2)]
    have := (tr k1 k2 []).2
    simp only [Right, LPath.nil_iff] at this
    rw [Bool.eq_iff_iff]
    constructor
    · intro h
      obtain ⟨_, rfl, h'⟩ := this.mpr ⟨r, rfl, h⟩
      exact h'
    · intro h
      obtain ⟨_, rfl, h'⟩ := this.mp ⟨q, rfl, h⟩
      exact h'
  · intro s hs a
    obtain ⟨t, ht⟩ := hR s hs
    rw [hf ht]
    obtain ⟨u, q, r, k1, k2, rfl, rfl⟩ := ht
    rw [a6 q (mem1 k1), b6 r (mem2 k2)]
    have one : ∀ {g : Automaton A} (hw : AWF g) {q : Nat}, (∃ r, LPath g.Trans q [a] r) ↔ ∃ r, g.delta q a = some r := by
      intro g hw q
      simp only [LPath.cons_iff, LPath.nil_iff, exists_eq_right, trans_iff hw]
    have := (tr k1 k2 [a]).1
    rw [one hg1.out, one hg2.out] at this
    cases e1 : g1.a.delta q a with
    | none =>
      cases e2 : g2.a.delta r a with
      | none => rfl
      | some r' =>
        obtain ⟨_, h⟩ := this.mpr ⟨r', e2⟩
        rw [e1] at h; cases h
    | some q' =>
      obtain ⟨r', e2⟩ := this.mp ⟨q', e1⟩
      rw [e2]
      simp only [Option.map_some, Option.some.injEq]
      exact (hf ⟨u ++ [a], q', r', k1.snoc ((trans_iff hg1.out).mpr e1), k2.snoc ((trans_iff hg2.out).mpr e2), rfl, rfl⟩).symm

/-- **C117** (trim automata): if all the states of both automata are useful, it is enough that they accept the same words. -/
theorem C117_canonical_trim {g1 g2 : IAutomaton A} (h1 : IAutomaton.SafeHistory g1) (h2 : IAutomaton.SafeHistory g2) (hm1 : Mixed g1.a) (hm2 : Mixed g2.a)
    (ht1 : ∀ q ∈ g1.a.vertices, Useful g1.a q) (ht2 : ∀ q ∈ g2.a.vertices, Useful g2.a q) (hlang : ∀ w, g1.a.Lang w ↔ g2.a.Lang w)
    {ord1 ord2 : HopcroftOrd A} (ho1 : ord1.Valid) (ho2 : ord2.Valid) :
    ∃ m1 m2 f, Returns (hopcroftMinimize ord1 g1) (.ok m1) ∧ Returns (hopcroftMinimize ord2 g2) (.ok m2) ∧ m1.a.IsoBy m2.a f := by
  have key : ∀ {g : IAutomaton A}, IAutomaton.SafeHistory g → Mixed g.a → (∀ q ∈ g.a.vertices, Useful g.a q) → ∀ w, g.a.Reads w ↔ ∃ v, g.a.Lang (w ++ v) := by
    intro g h hm ht w
    obtain ⟨p, hpv, hp⟩ := hm.init
    constructor
    · rintro ⟨q0, r, e, hr⟩
      rw [hp] at e; cases e
      have hrv : r ∈ g.a.vertices := (h.wf.lpath_mem hr).elim (fun e => e ▸ hpv) id
      obtain ⟨_, _, v, f, hv, hf⟩ := ht r hrv
      exact ⟨v, p, f, hp, hr.append hv, hf⟩
    · rintro ⟨v, q0, f, e, hf, _⟩
      obtain ⟨s, hs, _⟩ := LPath.append_iff.mp hf
      exact ⟨q0, s, e, hs⟩
  refine C117_canonical h1 h2 hm1 hm2 ?_ ?_ hlang ?_ ho1 ho2
  · intro q hq
    obtain ⟨_, ⟨q0, u, e, hu⟩, _⟩ := ht1 q hq
    exact ⟨q0, u, e, hu⟩
  · intro q hq
    obtain ⟨_, ⟨q0, u, e, hu⟩, _⟩ := ht2 q hq
    exact ⟨q0, u, e, hu⟩
  · intro w
    rw [key h1 hm1 ht1, key h2 hm2 ht2]
    simp only [hlang]

/-- The complete DFA put by `moore_determination` in a new `IncidenceAutomaton`. -/
theorem moore_complete_incidence {g : Nfa A} (hg : g.Reachable) (pick : Nat → Nat) (order : Nat → List A → List A) (hord : ∀ t l, (order t l).Perm l) :
    ∃ d, Returns (MooreInto.run IAutomaton.dfaOps g .empty true pick order) (.ok d) ∧ IAutomaton.SafeHistory d ∧
      (∀ w, d.a.Lang w ↔ g.Lang w) ∧ (∀ w, d.a.Reads w ↔ ∀ a ∈ w, a ∈ g.alphabet) ∧
      (∀ q ∈ d.a.vertices, ∃ q0 u, d.a.q0 = some q0 ∧ LPath d.a.Trans q0 u q) ∧ ∃ q0 ∈ d.a.vertices, d.a.q0 = some q0 := by
  obtain ⟨d, m, k1, k2, k3, k4, k5⟩ := C115_incidence_partial hg (d := .empty) .new rfl rfl (fun _ _ => rfl) true pick order hord
  obtain ⟨m', l1, l2, l3, l4, _, _, l5, l6⟩ := C28_subsets hg true pick order hord
  cases returns_unique l1 k2
  have hn : (IAutomaton.empty : IAutomaton A).a.lastVertexId = 0 := rfl
  rw [hn] at k4
  have hid : (fun x : Nat => 0 + x) = id := by funext x; simp
  have hv : d.a.vertices = m.vertices := by rw [k4.verts, hid, List.map_id]
  have hd : ∀ q a, d.a.delta q a = m.delta q a := fun q a => by have := k4.delta q a; rwa [Nat.zero_add, hid, Option.map_id] at this
  have hq : d.a.q0 = some 0 := by rw [k4.init, l2]; rfl
  have hdw : ∀ w q, d.a.deltaWord q w = m.deltaWord q w := by
    intro w
    induction w with
    | nil => intro q; simp
    | cons a w ih =>
      intro q
      rw [deltaWord_cons, deltaWord_cons, ih]
      congr 1
      cases q with
      | none => rfl
      | some q => exact hd q a
  have hw := k3.wf.out
  refine ⟨d, k1, k3, fun w => (k5 w).trans ⟨fun h => h.2, fun h => ⟨?_, h⟩⟩, ?_, ?_, 0, ?_, hq⟩
  · obtain ⟨_, _, _, _, u, _, rfl⟩ := h
    simp
  · intro w
    constructor
    · rintro ⟨q0, r, e, hr⟩
      rw [hq] at e; cases e
      rw [← deltaWord_iff hw, hdw] at hr
      clear k5
      induction w using List.reverseRecOn generalizing r with
      | nil => simp
      | append_singleton u a ih =>
        rw [deltaWord_snoc] at hr
        cases e : m.deltaWord (some 0) u with
        | none => rw [e] at hr; cases hr
        | some s =>
          rw [e] at hr
          intro b hb
          rcases List.mem_append.mp hb with hb | hb
          · exact ih s e b hb
          · rw [List.mem_singleton.mp hb]
            exact (l6 rfl s (l4 u s e) a).mpr ⟨r, hr⟩
    · intro h
      obtain ⟨q, hq'⟩ := l5 rfl w h
      exact ⟨0, q, hq, (deltaWord_iff hw).mp (by rw [hdw]; exact hq')⟩
  · intro q hqv
    rw [hv] at hqv
    obtain ⟨w, _, h⟩ := l3 q hqv
    exact ⟨0, w, hq, (deltaWord_iff hw).mp (by rw [hdw]; exact h)⟩
  · rw [hv]; exact l4 [] 0 (by simp)

/-- **C117** (NFAs): take two NFAs over the same alphabet, accepting the same words, at least one word over the alphabet being accepted and one not. Determinize each
(with `complete`) into an `IncidenceAutomaton`, then minimize: the results are the same up to the numbers of the states and have the language of the NFAs. -/
theorem C117_nfa {g1 g2 : Nfa A} (h1 : g1.Reachable) (h2 : g2.Reachable) (halpha : ∀ a, a ∈ g1.alphabet ↔ a ∈ g2.alphabet)
    (hlang : ∀ w, g1.Lang w ↔ g2.Lang w) (hsome : ∃ w, g1.Lang w) (hnot : ∃ w, (∀ a ∈ w, a ∈ g1.alphabet) ∧ ¬ g1.Lang w)
    (pick1 pick2 : Nat → Nat) {order1 order2 : Nat → List A → List A} (hord1 : ∀ t l, (order1 t l).Perm l) (hord2 : ∀ t l, (order2 t l).Perm l)
    {ord1 ord2 : HopcroftOrd A} (ho1 : ord1.Valid) (ho2 : ord2.Valid) :
    ∃ d1 d2 m1 m2 f, Returns (MooreInto.run IAutomaton.dfaOps g1 .empty true pick1 order1) (.ok d1) ∧
      Returns (MooreInto.run IAutomaton.dfaOps g2 .empty true pick2 order2) (.ok d2) ∧
      Returns (hopcroftMinimize ord1 d1) (.ok m1) ∧ Returns (hopcroftMinimize ord2 d2) (.ok m2) ∧ m1.a.IsoBy m2.a f ∧
      (∀ w, m1.a.accepts w = true ↔ g1.Lang w) ∧ (∀ w, m2.a.accepts w = true ↔ g1.Lang w) := by
  obtain ⟨d1, a1, a2, a3, a4, a5, q1, a6, a7⟩ := moore_complete_incidence h1 pick1 order1 hord1
  obtain ⟨d2, b1, b2, b3, b4, b5, q2, b6, b7⟩ := moore_complete_incidence h2 pick2 order2 hord2
  have mixed : ∀ {d : IAutomaton A} {q : Nat}, IAutomaton.SafeHistory d → q ∈ d.a.vertices → d.a.q0 = some q → (∀ w, d.a.Lang w ↔ g1.Lang w) →
      (∀ w, d.a.Reads w ↔ ∀ a ∈ w, a ∈ g1.alphabet) → Mixed d.a := by
    intro d q hd hv hq hl hr
    refine ⟨?_, ?_, q, hv, hq⟩
    · obtain ⟨w, hw⟩ := hsome
      obtain ⟨q', f, e, hp, hf⟩ := (hl w).mpr hw
      rw [hq] at e; cases e
      exact ⟨f, (hd.wf.lpath_mem hp).elim (fun e => e ▸ hv) id, hf⟩
    · obtain ⟨w, hw, hn⟩ := hnot
      obtain ⟨q', r, e, hp⟩ := (hr w).mpr hw
      rw [hq] at e; cases e
      refine ⟨r, (hd.wf.lpath_mem hp).elim (fun e => e ▸ hv) id, ?_⟩
      cases hf : d.a.isFinal r with
      | false => rfl
      | true => exact absurd ((hl w).mp ⟨q, r, hq, hp, hf⟩) hn
  have hl2 : ∀ w, d2.a.Lang w ↔ g1.Lang w := fun w => (b3 w).trans (hlang w).symm
  have hr2 : ∀ w, d2.a.Reads w ↔ ∀ a ∈ w, a ∈ g1.alphabet := fun w => by rw [b4]; simp only [halpha]
  obtain ⟨m1, m2, f, k1, k2, k3⟩ := C117_canonical a2 b2 (mixed a2 a6 a7 a3 a4) (mixed b2 b6 b7 hl2 hr2) a5 b5 (fun w => (a3 w).trans (hl2 w).symm)
    (fun w => (a4 w).trans (hr2 w).symm) ho1 ho2
  refine ⟨d1, d2, m1, m2, f, a1, b1, k1, k2, k3, fun w => ?_, fun w => ?_⟩
  · obtain ⟨r, l1, l2, _⟩ := C38_language a2 ho1
    cases returns_unique l1 k1
    rw [l2 m1 rfl, accepts_iff a2.wf.out, a3]
  · obtain ⟨r, l1, l2, _⟩ := C38_language b2 ho2
    cases returns_unique l1 k2
    rw [l2 m2 rfl, accepts_iff b2.wf.out, hl2]

/-! ## The hypotheses are met -/

/-- `exampleNfa` recognises `1*2`; two determinizations and minimizations with opposite enumerations give the same automaton. -/
def reverseOrd : HopcroftOrd Nat := ⟨fun _ s => s.reverse, fun _ s => s.reverse, fun _ _ s => s.reverse, fun _ s => s.reverse, fun _ s => s.reverse⟩
def forwardOrd : HopcroftOrd Nat := ⟨fun _ s => s, fun _ s => s, fun _ _ s => s, fun _ s => s, fun _ s => s⟩

example : ∃ d1 d2 m1 m2 f, Returns (MooreInto.run IAutomaton.dfaOps exampleNfa .empty true id (fun _ l => l)) (.ok d1) ∧
    Returns (MooreInto.run IAutomaton.dfaOps exampleNfa .empty true (fun t => t + 1) (fun _ l => l.reverse)) (.ok d2) ∧
    Returns (hopcroftMinimize forwardOrd d1) (.ok m1) ∧ Returns (hopcroftMinimize reverseOrd d2) (.ok m2) ∧ m1.a.IsoBy m2.a f := by
  obtain ⟨d1, d2, m1, m2, f, h1, h2, h3, h4, h5, _⟩ := C117_nfa exampleNfa_reachable exampleNfa_reachable (fun _ => Iff.rfl) (fun _ => Iff.rfl)
    ⟨[1, 1, 2], (C26_accepts exampleNfa_reachable (by decide)).1 (by decide)⟩
    ⟨[1, 1], by decide, fun h => absurd ((C26_accepts exampleNfa_reachable (by decide)).2 h) (by decide)⟩ id (fun t => t + 1) (order1 := fun _ l => l)
    (order2 := fun _ l => l.reverse) (fun _ _ => .refl _) (fun _ l => List.reverse_perm l) (ord1 := forwardOrd) (ord2 := reverseOrd)
    ⟨fun _ _ => .refl _, fun _ _ => .refl _, fun _ _ _ => .refl _, fun _ _ => .refl _, fun _ _ => .refl _⟩
    ⟨fun _ s => List.reverse_perm s, fun _ s => List.reverse_perm s, fun _ _ s => List.reverse_perm s, fun _ s => List.reverse_perm s, fun _ s => List.reverse_perm s⟩
  exact ⟨d1, d2, m1, m2, f, h1, h2, h3, h4, h5⟩

end PyBGL
