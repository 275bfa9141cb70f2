import Verif.Proofs.PbfsWords

/-!
# Product automata
-/

namespace PyBGL
open Automaton
variable {A : Type} [DecidableEq A]

namespace Product
variable {op : Bool → Bool → Bool} {g1 g2 : Automaton A}

/-- Both components are `BOTTOM`. -/
abbrev bot : StatePair := (none, none)

/-- Invariant of the map from pairs to states. -/
structure PMap (op : Bool → Bool → Bool) (g1 g2 : Automaton A) (s : Product A) : Prop where
  wf : AWF s.g12
  inj : ∀ p p' q, s.map.get? p = some q → s.map.get? p' = some q → p = p'
  verts : ∀ q, q ∈ s.g12.vertices ↔ ∃ p, s.map.get? p = some q
  fin : ∀ p q, s.map.get? p = some q → s.g12.isFinal q = op (g1.isFinalO p.1) (g2.isFinalO p.2)
  finV : ∀ q, s.g12.isFinal q = true → q ∈ s.g12.vertices
  init : ∀ p q, s.map.get? p = some q → op (g1.isInitialO p.1) (g2.isInitialO p.2) = true →
    ∃ p q, s.map.get? p = some q ∧ op (g1.isInitialO p.1) (g2.isInitialO p.2) = true ∧ s.g12.q0 = some q

theorem PMap.empty : PMap op g1 g2 ⟨[], .empty⟩ :=
  ⟨AWF_empty, by simp, by simp [Automaton.empty, vertices, Dict.keys], by simp, by simp [Automaton.empty, isFinal, Dict.getD],
    by simp⟩

theorem addVertex_spec {s : Product A} (h : PMap op g1 g2 s) {p : StatePair} (hp : s.map.get? p = none) :
    PMap op g1 g2 (s.addVertex op g1 g2 p.1 p.2).2 ∧
    (s.addVertex op g1 g2 p.1 p.2).2.map = s.map.set p (s.addVertex op g1 g2 p.1 p.2).1 ∧
    (s.addVertex op g1 g2 p.1 p.2).1 ∉ s.g12.vertices ∧
    ∀ q a, (s.addVertex op g1 g2 p.1 p.2).2.g12.delta q a = s.g12.delta q a := by
  have hfresh := fresh h.wf
  have hwf := AWF_addVertex h.wf
  have hv := vertices_addVertex h.wf
  have hd := delta_addVertex h.wf
  have hfl : s.g12.isFinal s.g12.lastVertexId = false := by
    by_contra hc
    exact hfresh (h.finV _ (by simpa using hc))
  have hlast : ∀ p, s.map.get? p ≠ some s.g12.lastVertexId := fun p hp => hfresh ((h.verts _).mpr ⟨p, hp⟩)
  refine ⟨?_, rfl, hfresh, ?_⟩
  · -- the four combinations differ only in `q0` and `final`
    have key : ∀ (bi bf : Bool), bi = op (g1.isInitialO p.1) (g2.isInitialO p.2) → bf = op (g1.isFinalO p.1) (g2.isFinalO p.2) →
        PMap op g1 g2 ⟨s.map.set p s.g12.lastVertexId,
          let g := if bi then s.g12.addVertex.2.setInitial s.g12.lastVertexId else s.g12.addVertex.2
          if bf then g.setFinal s.g12.lastVertexId else g⟩ := by
      intro bi bf hbi hbf
      have hF : ∀ q, (let g := if bi then s.g12.addVertex.2.setInitial s.g12.lastVertexId else s.g12.addVertex.2
          if bf then g.setFinal s.g12.lastVertexId else g).isFinal q = if q = s.g12.lastVertexId then bf else s.g12.isFinal q := by
        intro q
        have e0 : (if bi then s.g12.addVertex.2.setInitial s.g12.lastVertexId else s.g12.addVertex.2).isFinal q = s.g12.isFinal q := by
          cases bi <;> rfl
        cases bf
        · simp only [Bool.false_eq_true, if_false]
          rw [e0]
          split
          · rename_i e; rw [e]; exact hfl
          · rfl
        · simp only [if_true]
          show Dict.getD (Dict.set _ _ _) q false = _
          rw [Dict.getD_set]
          by_cases e : s.g12.lastVertexId = q
          · simp [e]
          · rw [if_neg e, if_neg (Ne.symm e)]; exact e0
      have hQ : (let g := if bi then s.g12.addVertex.2.setInitial s.g12.lastVertexId else s.g12.addVertex.2
          if bf then g.setFinal s.g12.lastVertexId else g).q0 = if bi then some s.g12.lastVertexId else s.g12.q0 := by
        cases bi <;> cases bf <;> rfl
      have hV : (let g := if bi then s.g12.addVertex.2.setInitial s.g12.lastVertexId else s.g12.addVertex.2
          if bf then g.setFinal s.g12.lastVertexId else g).vertices = s.g12.vertices ++ [s.g12.lastVertexId] := by
        rw [← hv]; cases bi <;> cases bf <;> rfl
      refine ⟨?_, ?_, ?_, ?_, ?_, ?_⟩
      · cases bi <;> cases bf <;> exact ⟨hwf.outer, hwf.inner, hwf.lt⟩
      · intro x y q hx hy
        rw [Dict.get?_set] at hx hy
        split at hx
        · rename_i e1
          cases hx
          split at hy
          · rename_i e2; rw [← e1, e2]
          · exact absurd hy (hlast y)
        · split at hy
          · cases hy; exact absurd hx (hlast x)
          · exact h.inj x y q hx hy
      · intro q
        simp only [hV, List.mem_append, List.mem_singleton, h.verts, Dict.get?_set]
        constructor
        · rintro (⟨x, hx⟩ | rfl)
          · exact ⟨x, by rw [if_neg (by rintro rfl; rw [hp] at hx; cases hx)]; exact hx⟩
          · exact ⟨p, by simp⟩
        · rintro ⟨x, hx⟩
          split at hx
          · cases hx; exact .inr rfl
          · exact .inl ⟨x, hx⟩
      · intro x q hx
        rw [hF]
        rw [Dict.get?_set] at hx
        split at hx
        · rename_i e; cases hx; subst e; simp [hbf]
        · rw [if_neg (by rintro rfl; exact hlast x hx)]
          exact h.fin x q hx
      · intro q hq
        simp only [hV]
        rw [hF] at hq
        split at hq
        · rename_i e; simp [e]
        · simp [h.finV q hq]
      · intro x q hx hop
        simp only [hQ]
        cases hb : bi
        · simp only [Bool.false_eq_true, if_false]
          rw [Dict.get?_set] at hx
          split at hx
          · rename_i e; subst e; rw [← hbi, hb] at hop; cases hop
          · obtain ⟨y, z, hy, hop', hz⟩ := h.init x q hx hop
            refine ⟨y, z, ?_, hop', hz⟩
            rw [Dict.get?_set, if_neg (by rintro rfl; rw [hp] at hy; cases hy)]
            exact hy
        · simp only [if_true]
          exact ⟨p, s.g12.lastVertexId, by rw [Dict.get?_set, if_pos rfl], by rw [← hbi, hb], rfl⟩
    exact key _ _ rfl rfl
  · intro q a
    show Automaton.delta (if op (g1.isFinalO p.1) (g2.isFinalO p.2) then _ else _) q a = _
    rw [← hd]
    cases op (g1.isInitialO p.1) (g2.isInitialO p.2) <;> cases op (g1.isFinalO p.1) (g2.isFinalO p.2) <;> rfl

theorem getOrCreate_spec {s : Product A} (h : PMap op g1 g2 s) {p : StatePair} (hp : p ≠ bot) :
    ∃ q s', s.getOrCreate op g1 g2 p.1 p.2 = .ok (q, s') ∧ PMap op g1 g2 s' ∧ s'.map.get? p = some q ∧
      (∀ x, x ≠ p → s'.map.get? x = s.map.get? x) ∧ (∀ x, s.map.get? p = some x → q = x) ∧ (∀ q a, s'.g12.delta q a = s.g12.delta q a) ∧
      (s.map.get? p = none → q ∉ s.g12.vertices) := by
  unfold getOrCreate
  rw [if_neg (fun e => hp (Prod.ext e.1 e.2))]
  have hpp : (p.1, p.2) = p := rfl
  rw [hpp]
  cases hm : s.map.get? p with
  | some q => exact ⟨q, s, rfl, h, hm, fun _ _ => rfl, fun x hx => by simpa using hx, fun _ _ => rfl, fun h => by cases h⟩
  | none =>
    obtain ⟨k1, k2, k3, k4⟩ := addVertex_spec h hm
    refine ⟨(s.addVertex op g1 g2 p.1 p.2).1, (s.addVertex op g1 g2 p.1 p.2).2, rfl, k1, ?_, ?_, ?_, k4, fun _ => k3⟩
    · rw [k2, Dict.get?_set, if_pos rfl]
    · intro x hx; rw [k2, Dict.get?_set, if_neg (Ne.symm hx)]
    · intro x hx; cases hx

/-- Invariant after the joint transitions `L` have been added. -/
structure PInv (op : Bool → Bool → Bool) (g1 g2 : Automaton A) (L : List (StatePair × A)) (s : Product A) : Prop extends PMap op g1 g2 s where
  dom : ∀ p, s.map.get? p ≠ none ↔ ∃ x ∈ L, p = x.1 ∨ p = Pbfs.nxt g1 g2 x.1 x.2
  delta : ∀ q a r, s.g12.delta q a = some r ↔
    ∃ p, (p, a) ∈ L ∧ s.map.get? p = some q ∧ s.map.get? (Pbfs.nxt g1 g2 p a) = some r

theorem PInv.empty : PInv op g1 g2 [] (⟨[], .empty⟩ : Product A) :=
  { PMap.empty with
    dom := by simp
    delta := by intro q a r; simp [Automaton.empty, Automaton.delta, Dict.getD] }

theorem addEdge_spec {L : List (StatePair × A)} {s : Product A} (h : PInv op g1 g2 L s) {p : StatePair} {a : A} (hp : p ≠ bot)
    (hn : Pbfs.nxt g1 g2 p a ≠ bot) :
    ∃ s', s.addEdge op g1 g2 (jointEdge g1 p.1 a) (jointEdge g2 p.2 a) = .ok s' ∧ PInv op g1 g2 (L ++ [(p, a)]) s' := by
  have es : (((jointEdge g1 p.1 a).map AEdge.source, (jointEdge g2 p.2 a).map AEdge.source) : StatePair) = p := by
    obtain ⟨p1, p2⟩ := p
    cases p1 <;> cases p2 <;> rfl
  have et : (((jointEdge g1 p.1 a).bind AEdge.target, (jointEdge g2 p.2 a).bind AEdge.target) : StatePair) = Pbfs.nxt g1 g2 p a := by
    obtain ⟨p1, p2⟩ := p
    cases p1 <;> cases p2 <;> rfl
  have el : productLabel (jointEdge g1 p.1 a) (jointEdge g2 p.2 a) = some a := by
    obtain ⟨p1, p2⟩ := p
    cases p1 <;> cases p2 <;> first | rfl | exact absurd rfl hp
  obtain ⟨q, s1, k0, k1, k2, k3, k4, k5, k6⟩ := getOrCreate_spec h.toPMap hp
  obtain ⟨r, s2, l0, l1, l2, l3, l4, l5, l6⟩ := getOrCreate_spec k1 hn
  have k0' : s.getOrCreate op g1 g2 ((jointEdge g1 p.1 a).map AEdge.source) ((jointEdge g2 p.2 a).map AEdge.source) = .ok (q, s1) := by
    have e1 := congrArg Prod.fst es
    have e2 := congrArg Prod.snd es
    simp only at e1 e2
    rw [e1, e2]; exact k0
  have l0' : s1.getOrCreate op g1 g2 ((jointEdge g1 p.1 a).bind AEdge.target) ((jointEdge g2 p.2 a).bind AEdge.target) = .ok (r, s2) := by
    have e1 := congrArg Prod.fst et
    have e2 := congrArg Prod.snd et
    simp only at e1 e2
    rw [e1, e2]; exact l0
  -- the states of known pairs do not change
  have hkeep : ∀ x y, s.map.get? x = some y → s2.map.get? x = some y := by
    intro x y hx
    have h1 : s1.map.get? x = some y := by
      by_cases e : x = p
      · subst e; rw [k2, k4 y hx]
      · rw [k3 x e]; exact hx
    by_cases e : x = Pbfs.nxt g1 g2 p a
    · subst e; rw [l2, l4 y h1]
    · rw [l3 x e]; exact h1
  have hq2 : s2.map.get? p = some q := by
    by_cases e : p = Pbfs.nxt g1 g2 p a
    · rw [e, l2, l4 q (by rw [← e]; exact k2)]
    · rw [l3 p e]; exact k2
  have hdom2 : ∀ x, s2.map.get? x ≠ none ↔ s.map.get? x ≠ none ∨ x = p ∨ x = Pbfs.nxt g1 g2 p a := by
    intro x
    by_cases e : x = Pbfs.nxt g1 g2 p a
    · subst e; rw [l2]; simp
    · rw [l3 x e]
      by_cases e' : x = p
      · subst e'; rw [k2]; simp
      · rw [k3 x e']; simp [e, e']
  have hback : ∀ x y, s2.map.get? x = some y → s.map.get? x ≠ none → s.map.get? x = some y := by
    intro x y hx hne
    cases hm : s.map.get? x with
    | none => exact absurd hm hne
    | some z => rw [hkeep x z hm] at hx; exact hx
  have hd2 : ∀ x b, s2.g12.delta x b = s.g12.delta x b := fun x b => by rw [l5, k5]
  have hqv : q ∈ s2.g12.vertices := (l1.verts q).mpr ⟨p, hq2⟩
  -- what was known of the transition from `q` by `a`
  have hcons : ∀ z, s2.g12.delta q a = some z → z = r := by
    intro z hz
    rw [hd2, h.delta] at hz
    obtain ⟨p', hp', hm1, hm2⟩ := hz
    have : p' = p := l1.inj _ _ q (hkeep _ _ hm1) hq2
    subst this
    have := hkeep _ _ hm2
    rw [l2] at this
    exact (Option.some.inj this).symm
  -- the result
  have hres : ∃ b x g', s2.g12.addEdge q r a = .ok (x, b, g') ∧ AWF g' ∧ g'.vertices = s2.g12.vertices ∧ g'.final = s2.g12.final ∧
      g'.q0 = s2.g12.q0 ∧ ∀ x b, g'.delta x b = if q = x ∧ a = b then some r else s2.g12.delta x b := by
    cases hd : s2.g12.delta q a with
    | none =>
      exact ⟨_, _, _, addEdge_of_free (.inl hd) hqv, AWF_setDelta l1.wf _ _ hqv, vertices_setDelta _ _ hqv, rfl, rfl, delta_setDelta _ _ _ _⟩
    | some z =>
      have hz := hcons z hd
      subst hz
      cases z with
      | zero =>
        exact ⟨_, _, _, addEdge_of_free (.inr hd) hqv, AWF_setDelta l1.wf _ _ hqv, vertices_setDelta _ _ hqv, rfl, rfl, delta_setDelta _ _ _ _⟩
      | succ k =>
        refine ⟨_, _, _, addEdge_of_succ hd, l1.wf, rfl, rfl, rfl, ?_⟩
        intro x b
        split
        · rename_i e; rw [← e.1, ← e.2, hd]
        · rfl
  obtain ⟨b, x, g', m0, m1, m2, m3, m4, m5⟩ := hres
  have hF : ∀ q, g'.isFinal q = s2.g12.isFinal q := fun q => by unfold isFinal; rw [m3]
  refine ⟨⟨s2.map, g'⟩, ?_, ?_⟩
  · unfold addEdge
    rw [k0']
    simp only
    rw [l0']
    simp only
    rw [el]
    simp only
    rw [m0]
  · refine { wf := m1, inj := l1.inj, verts := ?_, fin := ?_, finV := ?_, init := ?_, dom := ?_, delta := ?_ }
    · intro q; rw [m2]; exact l1.verts q
    · intro p q hpq; rw [hF]; exact l1.fin p q hpq
    · intro q hq; rw [hF] at hq; rw [m2]; exact l1.finV q hq
    · intro p q hpq hop; rw [m4]; exact l1.init p q hpq hop
    · intro x
      simp only [hdom2, h.dom, List.mem_append, List.mem_singleton]
      constructor
      · rintro (⟨y, hy, h'⟩ | h')
        · exact ⟨y, .inl hy, h'⟩
        · exact ⟨(p, a), .inr rfl, h'⟩
      · rintro ⟨y, hy | rfl, h'⟩
        · exact .inl ⟨y, hy, h'⟩
        · exact .inr h'
    · intro x c z
      simp only [m5, List.mem_append, List.mem_singleton]
      by_cases e : q = x ∧ a = c
      · rw [if_pos e]
        obtain ⟨rfl, rfl⟩ := e
        constructor
        · intro hz
          cases hz
          exact ⟨p, .inr rfl, hq2, l2⟩
        · rintro ⟨p', _, hm1, hm2⟩
          have : p' = p := l1.inj _ _ _ hm1 hq2
          subst this
          rw [l2] at hm2
          exact hm2
      · rw [if_neg e, hd2, h.delta]
        constructor
        · rintro ⟨p', hp', hm1, hm2⟩
          exact ⟨p', .inl hp', hkeep _ _ hm1, hkeep _ _ hm2⟩
        · rintro ⟨p', hp' | hp', hm1, hm2⟩
          · have d1 : s.map.get? p' ≠ none := (h.dom p').mpr ⟨_, hp', .inl rfl⟩
            have d2 : s.map.get? (Pbfs.nxt g1 g2 p' c) ≠ none := (h.dom _).mpr ⟨_, hp', .inr rfl⟩
            exact ⟨p', hp', hback _ _ hm1 d1, hback _ _ hm2 d2⟩
          · simp only [Prod.mk.injEq] at hp'
            obtain ⟨rfl, rfl⟩ := hp'
            rw [hq2] at hm1
            exact absurd ⟨Option.some.inj hm1, rfl⟩ e

/-- A visitor which only acts when edges are examined. -/
theorem emit_edges {σ : Type} {vis : Visitor (PEvent A) σ} {f : Option (AEdge A) → Option (AEdge A) → A → σ → Except PyErr σ}
    (hf : ∀ e1 e2 a s, vis (.examineEdge e1 e2 a) s = f e1 e2 a s)
    (ho : ∀ ev s, (∀ e1 e2 a, ev ≠ .examineEdge e1 e2 a) → vis ev s = .ok s) (tr : List (PEvent A)) (s : σ) :
    emit vis tr s = (Pbfs.edges tr).foldlM (fun s e => f e.1 e.2.1 e.2.2 s) s := by
  induction tr generalizing s with
  | nil => rfl
  | cons x tr ih =>
    rw [emit_cons]
    cases x with
    | examineEdge e1 e2 a =>
      simp only [hf, Pbfs.edges_cons, List.cons_append, List.nil_append, List.foldlM_cons]
      cases f e1 e2 a s with
      | error e => rfl
      | ok s' => exact ih s'
    | _ =>
      rw [ho _ _ (by intro _ _ _ h; cases h)]
      simp only [Pbfs.edges_cons, List.nil_append]
      exact ih s

/-- The pair from which a joint transition leaves. -/
def src (e : Option (AEdge A) × Option (AEdge A) × A) : StatePair := (e.1.map AEdge.source, e.2.1.map AEdge.source)

theorem src_jedge (p : StatePair) (a : A) : src (Pbfs.jedge g1 g2 p a) = p := by
  obtain ⟨p1, p2⟩ := p
  cases p1 <;> cases p2 <;> rfl

/-- Adding the joint transitions kept by `keep`. -/
theorem fold_spec {f : Option (AEdge A) → Option (AEdge A) → A → Product A → Except PyErr (Product A)} {keep : StatePair → A → Bool}
    (E : List (Option (AEdge A) × Option (AEdge A) × A))
    (hE : ∀ e ∈ E, ∃ p a, e = Pbfs.jedge g1 g2 p a ∧ (∀ s, f (jointEdge g1 p.1 a) (jointEdge g2 p.2 a) a s =
      if keep p a then s.addEdge op g1 g2 (jointEdge g1 p.1 a) (jointEdge g2 p.2 a) else .ok s) ∧
      (keep p a = true → p ≠ bot ∧ Pbfs.nxt g1 g2 p a ≠ bot)) :
    ∀ (L : List (StatePair × A)) (s : Product A), PInv op g1 g2 L s →
      ∃ s', E.foldlM (fun s e => f e.1 e.2.1 e.2.2 s) s = .ok s' ∧
        PInv op g1 g2 (L ++ ((E.map fun e => (src e, e.2.2)).filter fun x => keep x.1 x.2)) s' := by
  induction E with
  | nil => intro L s h; exact ⟨s, rfl, by simpa using h⟩
  | cons e E ih =>
    intro L s h
    obtain ⟨p, a, rfl, hf, hk⟩ := hE e (by simp)
    have ih := ih (fun e he => hE e (by simp [he]))
    simp only [List.foldlM_cons, List.map_cons, src_jedge]
    have e1 : f (Pbfs.jedge g1 g2 p a).1 (Pbfs.jedge g1 g2 p a).2.1 (Pbfs.jedge g1 g2 p a).2.2 s = _ := hf s
    rw [e1]
    have e2 : (Pbfs.jedge g1 g2 p a).2.2 = a := rfl
    rw [e2]
    cases hb : keep p a with
    | false =>
      simp only [Bool.false_eq_true, if_false, List.filter_cons, hb]
      exact ih L s h
    | true =>
      obtain ⟨s1, k0, k1⟩ := addEdge_spec h (hk hb).1 (hk hb).2
      obtain ⟨s2, l0, l1⟩ := ih _ s1 k1
      simp only [if_true, List.filter_cons, hb]
      refine ⟨s2, ?_, by simpa using l1⟩
      rw [k0]
      exact l0

/-- The pair reached from `p` by a word. -/
def walk (g1 g2 : Automaton A) : StatePair → List A → StatePair
  | p, [] => p
  | p, a :: w => walk g1 g2 (Pbfs.nxt g1 g2 p a) w

theorem walk_eq (p : StatePair) (w : List A) : walk g1 g2 p w = (g1.deltaWord p.1 w, g2.deltaWord p.2 w) := by
  induction w generalizing p with
  | nil => rfl
  | cons a w ih => rw [walk, ih, deltaWord_cons, deltaWord_cons]; rfl

/-- Paths in the product. -/
theorem PInv.deltaWord {L : List (StatePair × A)} {s : Product A} (h : PInv op g1 g2 L s) {p : StatePair} {q : Nat}
    (hp : s.map.get? p = some q) (w : List A) (r : Nat) :
    s.g12.deltaWord (some q) w = some r ↔
      (∀ u a v, w = u ++ a :: v → (walk g1 g2 p u, a) ∈ L) ∧ s.map.get? (walk g1 g2 p w) = some r := by
  induction w generalizing p q with
  | nil =>
    constructor
    · intro hr; cases hr; exact ⟨by simp, hp⟩
    · rintro ⟨_, hr⟩; rw [walk, hp] at hr; exact hr
  | cons a w ih =>
    rw [deltaWord_cons]
    simp only [deltaO, Option.bind_some, walk]
    cases hd : s.g12.delta q a with
    | none =>
      rw [deltaWord_none]
      simp only [reduceCtorEq, false_iff]
      rintro ⟨h1, _⟩
      have hL := h1 [] a w rfl
      have hn : s.map.get? (Pbfs.nxt g1 g2 p a) ≠ none := (h.dom _).mpr ⟨_, hL, .inr rfl⟩
      obtain ⟨z, hz⟩ := Option.ne_none_iff_exists'.mp hn
      have := (h.delta q a z).mpr ⟨p, hL, hp, hz⟩
      rw [hd] at this
      cases this
    | some z =>
      obtain ⟨p', hp', hm1, hm2⟩ := (h.delta q a z).mp hd
      have : p' = p := h.inj _ _ _ hm1 hp
      subst this
      rw [ih hm2]
      constructor
      · rintro ⟨k1, k2⟩
        refine ⟨?_, k2⟩
        intro u b v e
        cases u with
        | nil =>
          simp only [List.nil_append, List.cons.injEq] at e
          obtain ⟨rfl, rfl⟩ := e
          exact hp'
        | cons c u =>
          simp only [List.cons_append, List.cons.injEq] at e
          obtain ⟨rfl, e⟩ := e
          exact k1 u b v e
      · rintro ⟨k1, k2⟩
        refine ⟨?_, k2⟩
        intro u b v e
        exact k1 (a :: u) b v (by rw [e]; rfl)

end Product
end PyBGL
