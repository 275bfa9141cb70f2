import Verif.Props.C117_Canonical

/-!
# Automata whose states are all reachable and pairwise distinguishable
-/

namespace PyBGL
open Automaton
variable {A : Type} [DecidableEq A]

/-- An automaton with an initial state, no transition towards a missing state, all of whose states are reached from the initial state and told
apart by some word. -/
structure Reduced (m : Automaton A) (p : Nat) : Prop where
  wf : AWF m
  init : m.q0 = some p
  mem : p ∈ m.vertices
  closed : ∀ q a r, m.delta q a = some r → r ∈ m.vertices
  acc : ∀ q ∈ m.vertices, ∃ u, LPath m.Trans p u q
  apart : ∀ q ∈ m.vertices, ∀ r ∈ m.vertices, m.Indist q r → q = r

theorem closed_path {m : Automaton A} (hw : AWF m) (hc : ∀ q a r, m.delta q a = some r → r ∈ m.vertices) {p q : Nat} {u : List A}
    (hp : p ∈ m.vertices) (h : LPath m.Trans p u q) : q ∈ m.vertices := by
  induction h with
  | nil => exact hp
  | cons ht _ ih => exact ih (hc _ _ _ ((trans_iff hw).mp ht))

/-- Two reduced automata which accept the same words and read the same words differ only by the numbers of their states. -/
theorem Reduced.iso {m1 m2 : Automaton A} {p1 p2 : Nat} (h1 : Reduced m1 p1) (h2 : Reduced m2 p2) (hlang : ∀ w, m1.Lang w ↔ m2.Lang w)
    (hread : ∀ w, m1.Reads w ↔ m2.Reads w) : ∃ f, m1.IsoBy m2 f := by
  classical
  have mem1 : ∀ {u q}, LPath m1.Trans p1 u q → q ∈ m1.vertices := fun h => closed_path h1.wf h1.closed h1.mem h
  have mem2 : ∀ {u q}, LPath m2.Trans p2 u q → q ∈ m2.vertices := fun h => closed_path h2.wf h2.closed h2.mem h
  let R : Nat → Nat → Prop := fun s t => ∃ u, LPath m1.Trans p1 u s ∧ LPath m2.Trans p2 u t
  have hR : ∀ s ∈ m1.vertices, ∃ t, R s t := by
    intro s hs
    obtain ⟨u, hu⟩ := h1.acc s hs
    obtain ⟨q0, r, e, hr⟩ := (hread u).mp ⟨p1, s, h1.init, hu⟩
    rw [h2.init] at e; cases e
    exact ⟨r, u, hu, hr⟩
  have tr := @canonical_transfer A _ m1 m2 h1.wf h2.wf p1 p2 h1.init h2.init hlang hread
  have hfun : ∀ {s t t'}, R s t → R s t' → t = t' := by
    rintro s t t' ⟨u, k1, k2⟩ ⟨u', k1', k2'⟩
    refine h2.apart t (mem2 k2) t' (mem2 k2') fun w => ?_
    have x := tr k1 k2 w
    have y := tr k1' k2' w
    exact ⟨x.1.symm.trans y.1, x.2.symm.trans y.2⟩
  have hinj : ∀ {s s' t}, R s t → R s' t → s = s' := by
    rintro s s' t ⟨u, k1, k2⟩ ⟨u', k1', k2'⟩
    refine h1.apart s (mem1 k1) s' (mem1 k1') fun w => ?_
    have x := tr k1 k2 w
    have y := tr k1' k2' w
    exact ⟨x.1.trans y.1.symm, x.2.trans y.2.symm⟩
  let f : Nat → Nat := fun s => if h : ∃ t, R s t then h.choose else 0
  have hf : ∀ {s t}, R s t → f s = t := by
    intro s t h
    have he : ∃ t, R s t := ⟨t, h⟩
    have : f s = he.choose := dif_pos he
    rw [this]
    exact hfun he.choose_spec h
  refine ⟨f, ?_, ?_, ?_, ?_, ?_, ?_⟩
  · intro s hs
    obtain ⟨t, ht⟩ := hR s hs
    rw [hf ht]
    obtain ⟨u, _, k2⟩ := ht
    exact mem2 k2
  · intro s hs s' hs' e
    obtain ⟨t, ht⟩ := hR s hs
    obtain ⟨t', ht'⟩ := hR s' hs'
    rw [hf ht, hf ht'] at e
    subst e
    exact hinj ht ht'
  · intro t ht
    obtain ⟨u, hu⟩ := h2.acc t ht
    obtain ⟨q0, q, e, hq⟩ := (hread u).mpr ⟨p2, t, h2.init, hu⟩
    rw [h1.init] at e; cases e
    exact ⟨q, mem1 hq, hf ⟨u, hq, hu⟩⟩
  · rw [h1.init, h2.init]
    simp only [Option.map_some, Option.some.injEq]
    exact (hf ⟨[], .nil _, .nil _⟩).symm
  · intro s hs
    obtain ⟨t, ht⟩ := hR s hs
    rw [hf ht]
    obtain ⟨u, k1, k2⟩ := ht
    have := (tr k1 k2 []).2
    simp only [Right, LPath.nil_iff] at this
    rw [Bool.eq_iff_iff]
    constructor
    · intro h
      obtain ⟨_, rfl, h'⟩ := this.mpr ⟨t, rfl, h⟩
      exact h'
    · intro h
      obtain ⟨_, rfl, h'⟩ := this.mp ⟨s, rfl, h⟩
      exact h'
  · intro s hs a
    obtain ⟨t, ht⟩ := hR s hs
    rw [hf ht]
    obtain ⟨u, k1, k2⟩ := ht
    have one : ∀ {g : Automaton A} (hw : AWF g) {q : Nat}, (∃ r, LPath g.Trans q [a] r) ↔ ∃ r, g.delta q a = some r := by
      intro g hw q
      simp only [LPath.cons_iff, LPath.nil_iff, exists_eq_right, trans_iff hw]
    have := (tr k1 k2 [a]).1
    rw [one h1.wf, one h2.wf] at this
    cases e1 : m1.delta s a with
    | none =>
      cases e2 : m2.delta t a with
      | none => rfl
      | some r' =>
        obtain ⟨_, h⟩ := this.mpr ⟨r', e2⟩
        rw [e1] at h; cases h
    | some q' =>
      obtain ⟨r', e2⟩ := this.mp ⟨q', e1⟩
      rw [e2]
      simp only [Option.map_some, Option.some.injEq]
      exact (hf ⟨u ++ [a], k1.snoc ((trans_iff h1.wf).mpr e1), k2.snoc ((trans_iff h2.wf).mpr e2)⟩).symm

theorem length_le_of_injOn {l m : List Nat} (hl : l.Nodup) (f : Nat → Nat) (hm : ∀ x ∈ l, f x ∈ m)
    (hi : ∀ x ∈ l, ∀ y ∈ l, f x = f y → x = y) : l.length ≤ m.length := by
  have hn : (l.map f).Nodup := List.Nodup.map_on hi hl
  have : (l.map f).Subperm m := List.subperm_of_subset hn fun y hy => by
    obtain ⟨x, hx, rfl⟩ := List.mem_map.mp hy
    exact hm x hx
  simpa using this.length_le

/-- A reduced automaton whose readable words are the prefixes of its words has no more states than any automaton with the same language. -/
theorem Reduced.least {m b : Automaton A} {p pb : Nat} (h : Reduced m p) (hw : AWF b) (hb : b.q0 = some pb) (hpb : pb ∈ b.vertices)
    (hc : ∀ q a r, b.delta q a = some r → r ∈ b.vertices) (hlang : ∀ w, m.Lang w ↔ b.Lang w)
    (htrim : ∀ w, m.Reads w → w = [] ∨ ∃ v, m.Lang (w ++ v)) : m.vertices.length ≤ b.vertices.length := by
  classical
  have hread : ∀ q ∈ m.vertices, ∃ u s, LPath m.Trans p u q ∧ LPath b.Trans pb u s := by
    intro q hq
    obtain ⟨u, hu⟩ := h.acc q hq
    rcases htrim u ⟨p, q, h.init, hu⟩ with rfl | ⟨v, hv⟩
    · exact ⟨[], pb, hu, .nil _⟩
    · obtain ⟨q0, f, e, hp, _⟩ := (hlang _).mp hv
      rw [hb] at e; cases e
      obtain ⟨s, hs, _⟩ := LPath.append_iff.mp hp
      exact ⟨u, s, hu, hs⟩
  have hread' : ∀ q, ∃ u s, q ∈ m.vertices → LPath m.Trans p u q ∧ LPath b.Trans pb u s := by
    intro q
    by_cases hq : q ∈ m.vertices
    · obtain ⟨u, s, h⟩ := hread q hq; exact ⟨u, s, fun _ => h⟩
    · exact ⟨[], 0, fun h => absurd h hq⟩
  choose u s hus using hread'
  refine length_le_of_injOn h.wf.outer s (fun q hq => closed_path hw hc hpb (hus q hq).2) fun q hq r hr e => ?_
  have cut : ∀ {g : Automaton A} (hw : AWF g) {p q f : Nat} {u w : List A}, LPath g.Trans p u q → LPath g.Trans p (u ++ w) f → LPath g.Trans q w f := by
    intro g hw p q f u w h h'
    rw [← deltaWord_iff hw] at h h' ⊢
    rwa [deltaWord_append, h] at h'
  -- acceptance after a word only depends on the state of `b`
  have key : ∀ x ∈ m.vertices, ∀ w, m.Right x w ↔ b.Right (s x) w := by
    intro x hx w
    obtain ⟨k1, k2⟩ := hus x hx
    constructor
    · rintro ⟨f, hf, hff⟩
      obtain ⟨q0, f', e, hp, hff'⟩ := (hlang (u x ++ w)).mp ⟨p, f, h.init, k1.append hf, hff⟩
      rw [hb] at e; cases e
      exact ⟨f', cut hw k2 hp, hff'⟩
    · rintro ⟨f, hf, hff⟩
      obtain ⟨q0, f', e, hp, hff'⟩ := (hlang (u x ++ w)).mpr ⟨pb, f, hb, k2.append hf, hff⟩
      rw [h.init] at e; cases e
      exact ⟨f', cut h.wf k1 hp, hff'⟩
  have hr' : ∀ w, m.Right q w ↔ m.Right r w := fun w => by rw [key q hq, key r hr, e]
  -- a non-empty word that can be read can be completed into an accepted one
  have comp : ∀ x ∈ m.vertices, ∀ w, w ≠ [] → ((∃ y, LPath m.Trans x w y) ↔ ∃ v, m.Right x (w ++ v)) := by
    intro x hx w hne
    obtain ⟨k1, _⟩ := hus x hx
    constructor
    · rintro ⟨y, hy⟩
      rcases htrim (u x ++ w) ⟨p, y, h.init, k1.append hy⟩ with e | ⟨v, q0, f, e, hp, hf⟩
      · exact absurd (List.append_eq_nil_iff.mp e).2 hne
      · rw [h.init] at e; cases e
        rw [List.append_assoc] at hp
        exact ⟨v, f, cut h.wf k1 hp, hf⟩
    · rintro ⟨v, f, hp, _⟩
      obtain ⟨y, hy, _⟩ := LPath.append_iff.mp hp
      exact ⟨y, hy⟩
  refine h.apart q hq r hr fun w => ⟨?_, hr' w⟩
  by_cases hne : w = []
  · subst hne; exact ⟨fun _ => ⟨r, .nil _⟩, fun _ => ⟨q, .nil _⟩⟩
  · rw [comp q hq w hne, comp r hr w hne]
    exact exists_congr fun v => hr' _

end PyBGL
