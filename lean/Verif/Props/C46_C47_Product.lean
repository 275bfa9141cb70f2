import Verif.Proofs.Product
import Verif.Props.C44_C45_Pbfs

/-!
# C46, C47: intersection and union of deterministic automata
-/

namespace PyBGL
open Automaton
variable {A : Type} [DecidableEq A]

/-- A search which returns with some fuel returns the same result with more. -/
theorem Returns.of_pbfs {σ : Type} {ord : SetOracle A} {g1 : σ → Automaton A} {g2 : Automaton A} {S : List StatePair}
    {push : Option (AEdge A) → Option (AEdge A) → Bool} {vis : Visitor (PEvent A) σ} {st : σ} {n : Nat} {r}
    (h : pbfs ord g1 g2 S push vis st n = some r) : Returns (pbfs ord g1 g2 S push vis st) r := by
  refine ⟨n, fun fuel hf => ?_⟩
  unfold pbfs at h ⊢
  cases he : emit vis (S.map fun p => .start p.1 p.2) st with
  | error e => rw [he] at h; exact h
  | ok s => rw [he] at h; exact loop_mono _ h hf

theorem Returns.map_option {R R' : Type} {run : Nat → Option R} {r : R} (f : R → R') (h : Returns run r) :
    Returns (fun fuel => (run fuel).map f) (f r) := by
  obtain ⟨N, hN⟩ := h
  refine ⟨N, fun fuel hf => ?_⟩
  have : run fuel = some r := hN fuel hf
  simp only [this, Option.map_some]

namespace Product
variable {g1 g2 : Automaton A}

theorem PInv.lang_start {op : Bool → Bool → Bool} {L : List (StatePair × A)} {s : Product A} (h : PInv op g1 g2 L s) {p : StatePair} {q : Nat}
    (hp : s.map.get? p = some q) (hq : s.g12.q0 = some q) (w : List A) :
    s.g12.Lang w ↔ (∀ u a v, w = u ++ a :: v → (walk g1 g2 p u, a) ∈ L) ∧ s.map.get? (walk g1 g2 p w) ≠ none ∧
      op (g1.isFinalO (walk g1 g2 p w).1) (g2.isFinalO (walk g1 g2 p w).2) = true := by
  rw [lang_iff_final h.wf]
  unfold initial
  rw [hq]
  constructor
  · intro hf
    cases e : s.g12.deltaWord (some q) w with
    | none => rw [e] at hf; cases hf
    | some r =>
      rw [e] at hf
      obtain ⟨k1, k2⟩ := (h.deltaWord hp w r).mp e
      refine ⟨k1, by rw [k2]; simp, ?_⟩
      rw [← h.fin _ _ k2]
      exact hf
  · rintro ⟨k1, k2, k3⟩
    obtain ⟨r, hr⟩ := Option.ne_none_iff_exists'.mp k2
    rw [(h.deltaWord hp w r).mpr ⟨k1, hr⟩]
    simp only [isFinalO]
    rw [h.fin _ _ hr]
    exact k3

theorem PInv.lang_empty {op : Bool → Bool → Bool} {s : Product A} (h : PInv op g1 g2 [] s) (w : List A) : ¬s.g12.Lang w := by
  rintro ⟨q, f, _, _, hf⟩
  obtain ⟨p, hp⟩ := (h.verts f).mp (h.finV f hf)
  have := (h.dom p).mp (by rw [hp]; simp)
  simp at this

/-- Both components are defined. -/
def both (p : StatePair) : Bool := p.1.isSome && p.2.isSome

theorem both_iff {p : StatePair} : both p = true ↔ p.1 ≠ none ∧ p.2 ≠ none := by
  obtain ⟨p1, p2⟩ := p
  cases p1 <;> cases p2 <;> simp [both]

theorem both_ne_bot {p : StatePair} (h : both p = true) : p ≠ bot := by
  rintro rfl; cases h

theorem both_of_nxt {p : StatePair} {a : A} (h : both (Pbfs.nxt g1 g2 p a) = true) : both p = true := by
  obtain ⟨p1, p2⟩ := p
  cases p1 <;> cases p2 <;> first | rfl | simp [both, Pbfs.nxt, deltaO] at h

/-- Pairs pushed by the intersection. -/
def ppInter (p : StatePair) : Bool := truthy p.1 && truthy p.2

theorem ppInter_both {p : StatePair} (h : ppInter p = true) : both p = true := by
  obtain ⟨p1, p2⟩ := p
  cases p1 <;> cases p2 <;> simp [ppInter, truthy, both] at h ⊢

theorem interPush_eq (p : StatePair) (a : A) :
    interPush (jointEdge g1 p.1 a) (jointEdge g2 p.2 a) = ppInter (Pbfs.nxt g1 g2 p a) := by
  obtain ⟨p1, p2⟩ := p
  cases p1 with
  | none => simp [jointEdge, interPush, ppInter, Pbfs.nxt, deltaO, truthy]
  | some q1 =>
    cases p2 with
    | none => simp [jointEdge, interPush, ppInter, Pbfs.nxt, deltaO, truthy]
    | some q2 => simp [jointEdge, interPush, ppInter, Pbfs.nxt, deltaO]

/-- The joint transitions examined by `deterministic_intersection`, whatever the state of the visitor. -/
theorem inter_edges {ord : SetOracle A} (ho : ord.Valid) (h1 : AWF g1) (h2 : AWF g2) (i1 : g1.q0 ≠ none) (i2 : g2.q0 ≠ none) :
    ∃ (es : List (Option (AEdge A) × Option (AEdge A) × A)) (E : List StatePair) (c : Dict StatePair Color),
      (∀ st s, es.foldlM (fun s e => interVisitor g1 g2 (.examineEdge e.1 e.2.1 e.2.2) s) st = .ok s →
        Returns (pbfs ord (fun _ => g1) g2 [(g1.initial, g2.initial)] interPush (interVisitor g1 g2) st) (.ok (c, s))) ∧
      (∀ e ∈ es, ∃ p a, e = Pbfs.jedge g1 g2 p a ∧ (∀ s, interVisitor g1 g2 (.examineEdge (jointEdge g1 p.1 a) (jointEdge g2 p.2 a) a) s =
        if both (Pbfs.nxt g1 g2 p a) then s.addEdge (fun a b => a && b) g1 g2 (jointEdge g1 p.1 a) (jointEdge g2 p.2 a) else .ok s) ∧
        (both (Pbfs.nxt g1 g2 p a) = true → p ≠ bot ∧ Pbfs.nxt g1 g2 p a ≠ bot)) ∧
      (∀ p a, (p, a) ∈ ((es.map fun e => (src e, e.2.2)).filter fun x => both (Pbfs.nxt g1 g2 x.1 x.2)) ↔ p ∈ E ∧ both (Pbfs.nxt g1 g2 p a) = true) ∧
      startPair g1 g2 ∈ E ∧
      (∀ p ∈ E, ∀ a, ppInter (Pbfs.nxt g1 g2 p a) = true → Pbfs.nxt g1 g2 p a ∈ E) ∧
      (∀ P : StatePair → Prop, P (startPair g1 g2) → (∀ p, P p → ∀ a, ppInter (Pbfs.nxt g1 g2 p a) = true → P (Pbfs.nxt g1 g2 p a)) →
        ∀ p ∈ E, P p) := by
  obtain ⟨tr, c, hf, hr⟩ := Pbfs.facts (push := interPush) h1 h2 ho (pp := ppInter) interPush_eq [startPair g1 g2]
  have hboth : ∀ p ∈ Pbfs.examined tr, both p = true := by
    refine hf.ind (fun p => both p = true) ?_ ?_
    · intro p hp; simp at hp; subst hp; exact both_iff.mpr ⟨i1, i2⟩
    · intro p _ a _ h; exact ppInter_both h
  have hem := emit_edges (vis := interVisitor g1 g2) (f := fun e1 e2 a s => interVisitor g1 g2 (.examineEdge e1 e2 a) s) (fun _ _ _ _ => rfl)
    (by intro ev s h; cases ev <;> first | rfl | exact absurd rfl (h _ _ _)) ([startPair g1 g2].map (fun p => .start p.1 p.2) ++ tr)
  have hed : Pbfs.edges ([startPair g1 g2].map (fun p => .start p.1 p.2) ++ tr) = Pbfs.edges tr := by
    rw [Pbfs.edges_append, (Pbfs.starts_proj (A := A) [startPair g1 g2]).2.2.2.2.1]; rfl
  rw [hed] at hem
  have hmem : ∀ e, e ∈ Pbfs.edges tr ↔ ∃ p ∈ Pbfs.examined tr, ∃ a ∈ Pbfs.syms g1 g2 p, Pbfs.jedge g1 g2 p a = e := by
    intro e; rw [hf.edges.mem_iff]; simp
  refine ⟨Pbfs.edges tr, Pbfs.examined tr, c, ?_, ?_, ?_, ?_, ?_, ?_⟩
  · intro st s hs
    have hret := hr _ (interVisitor g1 g2) st
    unfold Pbfs.outcome at hret
    rw [hem, hs] at hret
    exact hret
  · intro e he
    obtain ⟨p, hp, a, ha, rfl⟩ := (hmem e).mp he
    refine ⟨p, a, rfl, ?_, fun h => ⟨both_ne_bot (both_of_nxt h), both_ne_bot h⟩⟩
    intro s
    obtain ⟨b1, b2⟩ := both_iff.mp (hboth p hp)
    obtain ⟨q1, e1⟩ := Option.ne_none_iff_exists'.mp b1
    obtain ⟨q2, e2⟩ := Option.ne_none_iff_exists'.mp b2
    have hn : Pbfs.nxt g1 g2 p a = (g1.delta q1 a, g2.delta q2 a) := by simp [Pbfs.nxt, e1, e2, deltaO]
    rw [hn, e1, e2]
    simp only [interVisitor, jointEdge, Option.map_some]
    cases d1 : g1.delta q1 a with
    | none => simp [both]
    | some r1 =>
      cases d2 : g2.delta q2 a with
      | none => simp [both]
      | some r2 => simp [both]
  · intro p a
    simp only [List.mem_filter, List.mem_map]
    constructor
    · rintro ⟨⟨e, he, e2⟩, hk⟩
      obtain ⟨p', hp', a', ha', rfl⟩ := (hmem e).mp he
      rw [src_jedge] at e2
      simp only [Prod.mk.injEq] at e2
      obtain ⟨rfl, rfl⟩ := e2
      exact ⟨hp', hk⟩
    · rintro ⟨hp, hk⟩
      exact ⟨⟨_, (hmem _).mpr ⟨p, hp, a, Pbfs.mem_syms.mpr (both_ne_bot hk), rfl⟩, by rw [src_jedge]; rfl⟩, hk⟩
  · rw [hf.fifo]; simp
  · intro p hp a hpp
    have ha : a ∈ Pbfs.syms g1 g2 p := Pbfs.mem_syms.mpr (both_ne_bot (ppInter_both hpp))
    rcases hf.closed p hp a ha with h | h | h
    · exact absurd rfl h
    · rw [hf.fifo, List.mem_append, List.mem_filter]; exact .inr ⟨h, hpp⟩
    · exact h
  · intro P h0 hn
    refine hf.ind P ?_ (fun p hp a _ h => hn p hp a h)
    intro p hp; simp at hp; subst hp; exact h0

/-- What `deterministic_intersection` builds. -/
theorem inter_spec {ord : SetOracle A} (ho : ord.Valid) (h1 : AWF g1) (h2 : AWF g2) (i1 : g1.q0 ≠ none) (i2 : g2.q0 ≠ none) :
    ∃ (s : Product A) (L : List (StatePair × A)) (E : List StatePair), Returns (deterministicIntersection ord g1 g2) (.ok s.g12) ∧
      PInv (fun a b => a && b) g1 g2 L s ∧ (∀ p a, (p, a) ∈ L ↔ p ∈ E ∧ both (Pbfs.nxt g1 g2 p a) = true) ∧ startPair g1 g2 ∈ E ∧
      (∀ p ∈ E, ∀ a, ppInter (Pbfs.nxt g1 g2 p a) = true → Pbfs.nxt g1 g2 p a ∈ E) ∧
      (∀ P : StatePair → Prop, P (startPair g1 g2) → (∀ p, P p → ∀ a, ppInter (Pbfs.nxt g1 g2 p a) = true → P (Pbfs.nxt g1 g2 p a)) →
        ∀ p ∈ E, P p) := by
  obtain ⟨es, E, c, hr, he, hl, k1, k2, k3⟩ := inter_edges ho h1 h2 i1 i2
  obtain ⟨s, hs, hinv⟩ := fold_spec (op := fun a b => a && b) (g1 := g1) (g2 := g2)
    (f := fun e1 e2 a s => interVisitor g1 g2 (.examineEdge e1 e2 a) s) (keep := fun p a => both (Pbfs.nxt g1 g2 p a)) es he [] ⟨[], .empty⟩ PInv.empty
  exact ⟨s, _, E, (hr _ _ hs).map_option _, hinv, by simpa using hl, k1, k2, k3⟩

/-- The language of the intersection. -/
theorem inter_lang {ord : SetOracle A} (ho : ord.Valid) (h1 : AWF g1) (h2 : AWF g2) (i1 : g1.q0 ≠ none) (i2 : g2.q0 ≠ none) :
    ∃ (g : Automaton A) (E : List StatePair), Returns (deterministicIntersection ord g1 g2) (.ok g) ∧ startPair g1 g2 ∈ E ∧
      (∀ p ∈ E, ∀ a, ppInter (Pbfs.nxt g1 g2 p a) = true → Pbfs.nxt g1 g2 p a ∈ E) ∧
      (∀ P : StatePair → Prop, P (startPair g1 g2) → (∀ p, P p → ∀ a, ppInter (Pbfs.nxt g1 g2 p a) = true → P (Pbfs.nxt g1 g2 p a)) →
        ∀ p ∈ E, P p) ∧
      ∀ w, g.Lang w ↔ g1.Lang w ∧ g2.Lang w ∧ (∃ a, both (Pbfs.nxt g1 g2 (startPair g1 g2) a) = true) ∧
        ∀ u a v, w = u ++ a :: v → walk g1 g2 (startPair g1 g2) u ∈ E := by
  obtain ⟨s, L, E, k0, k1, k2, k3, k4, k5⟩ := inter_spec ho h1 h2 i1 i2
  refine ⟨s.g12, E, k0, k3, k4, k5, ?_⟩
  intro w
  have hl1 : g1.Lang w ↔ g1.isFinalO (walk g1 g2 (startPair g1 g2) w).1 = true := by rw [walk_eq]; exact lang_iff_final h1 w
  have hl2 : g2.Lang w ↔ g2.isFinalO (walk g1 g2 (startPair g1 g2) w).2 = true := by rw [walk_eq]; exact lang_iff_final h2 w
  by_cases hex : ∃ a, both (Pbfs.nxt g1 g2 (startPair g1 g2) a) = true
  · obtain ⟨a0, ha0⟩ := hex
    have hsL : (startPair g1 g2, a0) ∈ L := (k2 _ _).mpr ⟨k3, ha0⟩
    obtain ⟨q', hq'⟩ := Option.ne_none_iff_exists'.mp ((k1.dom (startPair g1 g2)).mpr ⟨_, hsL, .inl rfl⟩)
    have hopS : (g1.isInitialO (startPair g1 g2).1 && g2.isInitialO (startPair g1 g2).2) = true := by simp [isInitialO, initial]
    obtain ⟨p, q, hp, hop, hq⟩ := k1.init _ _ hq' hopS
    have : p = startPair g1 g2 := by
      simp only [isInitialO, Bool.and_eq_true, decide_eq_true_eq] at hop
      exact Prod.ext hop.1.symm hop.2.symm
    subst this
    rw [k1.lang_start hp hq, hl1, hl2]
    simp only [Bool.and_eq_true]
    constructor
    · rintro ⟨c1, c2, c3, c4⟩
      exact ⟨c3, c4, ⟨a0, ha0⟩, fun u a v e => ((k2 _ _).mp (c1 u a v e)).1⟩
    · rintro ⟨c1, c2, _, c4⟩
      have hbw : both (walk g1 g2 (startPair g1 g2) w) = true := by
        rw [both_iff]
        constructor
        · intro e; rw [e] at c1; cases c1
        · intro e; rw [e] at c2; cases c2
      have hsplit : ∀ p x y, walk g1 g2 p (x ++ y) = walk g1 g2 (walk g1 g2 p x) y := by
        intro p x y
        induction x generalizing p with
        | nil => rfl
        | cons b x ih => exact ih _
      have hback : ∀ y p, both (walk g1 g2 p y) = true → both p = true := by
        intro y
        induction y with
        | nil => intro p h; exact h
        | cons b y ih => intro p h; exact both_of_nxt (ih _ h)
      have hL : ∀ u a v, w = u ++ a :: v → (walk g1 g2 (startPair g1 g2) u, a) ∈ L := by
        intro u a v e
        refine (k2 _ _).mpr ⟨c4 u a v e, ?_⟩
        rw [e, hsplit] at hbw
        exact hback v _ hbw
      refine ⟨hL, ?_, c1, c2⟩
      rcases List.eq_nil_or_concat w with rfl | ⟨u, a, rfl⟩
      · rw [walk, hp]; simp
      · rw [List.concat_eq_append] at hL ⊢
        rw [hsplit, k1.dom]
        exact ⟨_, hL u a [] rfl, .inr rfl⟩
  · have hE : ∀ p ∈ E, p = startPair g1 g2 := by
      refine k5 _ rfl ?_
      rintro p rfl a hpp
      exact absurd ⟨a, ppInter_both hpp⟩ hex
    have hL : L = [] := by
      rw [List.eq_nil_iff_forall_not_mem]
      rintro ⟨p, a⟩ hpa
      obtain ⟨hp, hb⟩ := (k2 p a).mp hpa
      rw [hE p hp] at hb
      exact hex ⟨a, hb⟩
    subst hL
    constructor
    · intro h; exact absurd h (k1.lang_empty w)
    · rintro ⟨_, _, h, _⟩; exact absurd h hex

end Product

/-- **C46**, the full statement. It does not hold of the code: see `C46_counterexample`. -/
def C46_statement : Prop :=
  ∀ (g1 g2 : Automaton Char) (ord : SetOracle Char), g1.Reachable → g2.Reachable → ord.Valid → g1.q0 ≠ none → g2.q0 ≠ none →
    ∃ g, Returns (deterministicIntersection ord g1 g2) (.ok g) ∧ ∀ w, g.Lang w ↔ g1.Lang w ∧ g2.Lang w

/-- **C46**: between automata which have an initial state, `deterministic_intersection` terminates without raising, whatever the order in
which symbols are enumerated, and accepts only words accepted by both. -/
theorem C46_sound {g1 g2 : Automaton A} {ord : SetOracle A} (h1 : g1.Reachable) (h2 : g2.Reachable) (ho : ord.Valid)
    (i1 : g1.q0 ≠ none) (i2 : g2.q0 ≠ none) :
    ∃ g, Returns (deterministicIntersection ord g1 g2) (.ok g) ∧ ∀ w, g.Lang w → g1.Lang w ∧ g2.Lang w := by
  obtain ⟨g, E, k0, _, _, _, k3⟩ := Product.inter_lang ho h1.awf h2.awf i1 i2
  exact ⟨g, k0, fun w hw => ⟨((k3 w).mp hw).1, ((k3 w).mp hw).2.1⟩⟩

/-- The general form of `C46_partial`. -/
theorem Product.inter_awf {g1 g2 : Automaton A} {ord : SetOracle A} (h1 : AWF g1) (h2 : AWF g2) (ho : ord.Valid)
    (i1 : g1.q0 ≠ none) (i2 : g2.q0 ≠ none)
    (hz : ∀ u r1 r2, u ≠ [] → g1.After u (some r1) → g2.After u (some r2) →
      (r1 ≠ 0 ∧ r2 ≠ 0) ∨ (g1.initial = some r1 ∧ g2.initial = some r2)) :
    ∃ g, Returns (deterministicIntersection ord g1 g2) (.ok g) ∧
      (∀ w, w ≠ [] → (g.Lang w ↔ g1.Lang w ∧ g2.Lang w)) ∧
      (g.Lang [] ↔ g1.Lang [] ∧ g2.Lang [] ∧ ∃ a r1 r2, g1.After [a] (some r1) ∧ g2.After [a] (some r2)) := by
  obtain ⟨g, E, k0, k1, k2, _, k3⟩ := Product.inter_lang ho h1 h2 i1 i2
  have hafter : ∀ w r1 r2, g1.After w (some r1) ∧ g2.After w (some r2) ↔ Product.walk g1 g2 (startPair g1 g2) w = (some r1, some r2) := by
    intro w r1 r2
    rw [after_iff h1, after_iff h2, Product.walk_eq, Prod.mk.injEq]
  have hE : ∀ u, Product.both (Product.walk g1 g2 (startPair g1 g2) u) = true → Product.walk g1 g2 (startPair g1 g2) u ∈ E := by
    intro u
    induction u using List.reverseRecOn with
    | nil => intro _; exact k1
    | append_singleton u a ih =>
      intro hb
      have hw : Product.walk g1 g2 (startPair g1 g2) (u ++ [a]) = Pbfs.nxt g1 g2 (Product.walk g1 g2 (startPair g1 g2) u) a := by
        rw [Product.walk_eq, Product.walk_eq, deltaWord_snoc, deltaWord_snoc]; rfl
      rw [hw] at hb
      have hu := ih (Product.both_of_nxt hb)
      obtain ⟨b1, b2⟩ := Product.both_iff.mp hb
      obtain ⟨r1, e1⟩ := Option.ne_none_iff_exists'.mp b1
      obtain ⟨r2, e2⟩ := Option.ne_none_iff_exists'.mp b2
      have hp : Product.walk g1 g2 (startPair g1 g2) (u ++ [a]) = (some r1, some r2) := by rw [hw]; exact Prod.ext e1 e2
      obtain ⟨a1, a2⟩ := (hafter _ _ _).mpr hp
      rcases hz (u ++ [a]) r1 r2 (by simp) a1 a2 with ⟨n1, n2⟩ | ⟨n1, n2⟩
      · rw [hw]
        refine k2 _ hu a ?_
        rw [← hw, hp]
        cases r1 with
        | zero => exact absurd rfl n1
        | succ r1 =>
          cases r2 with
          | zero => exact absurd rfl n2
          | succ r2 => rfl
      · rw [hp, ← n1, ← n2]; exact k1
  have hboth : ∀ u v, g1.Lang (u ++ v) → g2.Lang (u ++ v) → Product.both (Product.walk g1 g2 (startPair g1 g2) u) = true := by
    intro u v l1 l2
    rw [Product.walk_eq, Product.both_iff]
    rw [lang_iff_final h1, deltaWord_append] at l1
    rw [lang_iff_final h2, deltaWord_append] at l2
    refine ⟨fun e => ?_, fun e => ?_⟩
    · simp only at e; rw [e, deltaWord_none] at l1; cases l1
    · simp only at e; rw [e, deltaWord_none] at l2; cases l2
  have hfirst : (∃ a, Product.both (Pbfs.nxt g1 g2 (startPair g1 g2) a) = true) ↔ ∃ a r1 r2, g1.After [a] (some r1) ∧ g2.After [a] (some r2) := by
    refine exists_congr fun a => ?_
    simp only [hafter]
    show Product.both (Product.walk g1 g2 (startPair g1 g2) [a]) = true ↔ _
    rw [Product.both_iff]
    generalize Product.walk g1 g2 (startPair g1 g2) [a] = p
    obtain ⟨p1, p2⟩ := p
    cases p1 <;> cases p2 <;> simp
  refine ⟨g, k0, ?_, ?_⟩
  · intro w hw
    rw [k3]
    constructor
    · rintro ⟨c1, c2, _⟩; exact ⟨c1, c2⟩
    · rintro ⟨c1, c2⟩
      refine ⟨c1, c2, ?_, ?_⟩
      · cases w with
        | nil => exact absurd rfl hw
        | cons a w => exact ⟨a, hboth [a] w c1 c2⟩
      · intro u a v e
        rw [e] at c1 c2
        exact hE u (hboth u _ c1 c2)
  · rw [k3, hfirst]
    constructor
    · rintro ⟨c1, c2, c3, _⟩; exact ⟨c1, c2, c3⟩
    · rintro ⟨c1, c2, c3⟩; exact ⟨c1, c2, c3, by simp⟩

/-- **C46**, in part: if no non-empty word leads both automata to a pair containing the state 0, except the pair of initial states, then a non-empty
word is accepted iff both accept it; the empty word is accepted iff both accept it and they have a first symbol in common. Missing: the code does not
explore a pair whose first or second state is 0, because it tests targets for truth; it builds nothing when there is no common first symbol. -/
theorem C46_partial {g1 g2 : Automaton A} {ord : SetOracle A} (h1 : g1.Reachable) (h2 : g2.Reachable) (ho : ord.Valid)
    (i1 : g1.q0 ≠ none) (i2 : g2.q0 ≠ none)
    (hz : ∀ u r1 r2, u ≠ [] → g1.After u (some r1) → g2.After u (some r2) →
      (r1 ≠ 0 ∧ r2 ≠ 0) ∨ (g1.initial = some r1 ∧ g2.initial = some r2)) :
    ∃ g, Returns (deterministicIntersection ord g1 g2) (.ok g) ∧
      (∀ w, w ≠ [] → (g.Lang w ↔ g1.Lang w ∧ g2.Lang w)) ∧
      (g.Lang [] ↔ g1.Lang [] ∧ g2.Lang [] ∧ ∃ a r1 r2, g1.After [a] (some r1) ∧ g2.After [a] (some r2)) :=
  Product.inter_awf h1.awf h2.awf ho i1 i2 hz

/-- Recognises `aa*`. -/
def plusHistory : List (AOp Char) := [.addVertex, .addVertex, .addEdge 0 1 'a', .addEdge 1 1 'a', .setInitial 0 true, .setFinal 1 true]

/-- The automata of `C46_counterexample`. -/
theorem C46_case :
  ∃ g1 g2 : Automaton Char, Runs Automaton.exec Automaton.empty starHistory g1 ∧ Runs Automaton.exec Automaton.empty plusHistory g2 ∧ g1.q0 = some 0 ∧ g2.q0 = some 0 ∧
        g1.accepts ['a', 'a'] = true ∧ g2.accepts ['a', 'a'] = true ∧
        (deterministicIntersection (fun _ s => s) g1 g2 5).map (fun r => r.toOption.map fun g => g.accepts ['a', 'a']) = some (some false) :=
  ⟨_, _, rfl, rfl, rfl, rfl, by decide, by decide, by decide⟩

/-- **C46** does not hold: the intersection of `a*` and `aa*` rejects `aa`, because the pair `(0, 1)` is not explored. -/
theorem C46_counterexample : ¬C46_statement := by
  intro h
  obtain ⟨g1, g2, hg1, hg2, i1, i2, a1, a2, hrej⟩ := C46_case
  obtain ⟨g, hr, hl⟩ := h g1 g2 (fun _ s => s) ⟨_, hg1⟩ ⟨_, hg2⟩ (fun _ _ => .refl _) (by rw [i1]; simp) (by rw [i2]; simp)
  have w1 : AWF g1 := Reachable.awf ⟨_, hg1⟩
  have w2 : AWF g2 := Reachable.awf ⟨_, hg2⟩
  have ha := (hl ['a', 'a']).mpr ⟨(accepts_iff w1 _).mp a1, (accepts_iff w2 _).mp a2⟩
  cases hp : deterministicIntersection (fun _ s => s) g1 g2 5 with
  | none => rw [hp] at hrej; cases hrej
  | some r =>
    rw [hp] at hrej
    unfold deterministicIntersection at hp
    obtain ⟨r', hp', rfl⟩ := Option.map_eq_some_iff.mp hp
    have e := returns_unique hr ((Returns.of_pbfs hp').map_option _)
    rw [← e] at hrej
    have hacc : g.accepts ['a', 'a'] = false := by simpa [Except.toOption] using hrej
    obtain ⟨s, _, _, k0, k1, _⟩ := Product.inter_spec (ord := fun _ s => s) (fun _ _ => .refl _) w1 w2 (by rw [i1]; simp) (by rw [i2]; simp)
    have eg := returns_unique hr k0
    simp only [Except.ok.injEq] at eg
    subst eg
    rw [← accepts_iff k1.wf, hacc] at ha
    cases ha

/-! ## Union -/

namespace Product
variable {g1 g2 : Automaton A}

/-- The joint transitions examined by `deterministic_union`, whatever the state of the visitor. -/
theorem union_edges {ord : SetOracle A} (ho : ord.Valid) (h1 : AWF g1) (h2 : AWF g2) :
    ∃ (es : List (Option (AEdge A) × Option (AEdge A) × A)) (c : Dict StatePair Color),
      (∀ (st s : Product A), es.foldlM (fun s e => s.addEdge (fun a b => a || b) g1 g2 e.1 e.2.1) st = .ok s →
        Returns (pbfs ord (fun _ => g1) g2 [(g1.initial, g2.initial)] pushAll (unionVisitor g1 g2) st) (.ok (c, s))) ∧
      (∀ e ∈ es, ∃ p a, e = Pbfs.jedge g1 g2 p a ∧ (∀ s : Product A, s.addEdge (fun a b => a || b) g1 g2 (jointEdge g1 p.1 a) (jointEdge g2 p.2 a) =
        if decide (Pbfs.nxt g1 g2 p a ≠ bot) then s.addEdge (fun a b => a || b) g1 g2 (jointEdge g1 p.1 a) (jointEdge g2 p.2 a) else .ok s) ∧
        (decide (Pbfs.nxt g1 g2 p a ≠ bot) = true → p ≠ bot ∧ Pbfs.nxt g1 g2 p a ≠ bot)) ∧
      (∀ p a, (p, a) ∈ ((es.map fun e => (src e, e.2.2)).filter fun x => decide (Pbfs.nxt g1 g2 x.1 x.2 ≠ bot)) ↔
        (∃ w, p = Pbfs.pairOf g1 g2 w) ∧ Pbfs.nxt g1 g2 p a ≠ bot) := by
  obtain ⟨tr, c, hf, hr⟩ := Pbfs.facts (push := pushAll) h1 h2 ho (pp := fun _ => true) (fun _ _ => rfl) [startPair g1 g2]
  have hem := emit_edges (vis := unionVisitor g1 g2) (f := fun e1 e2 _ s => s.addEdge (fun a b => a || b) g1 g2 e1 e2) (fun _ _ _ _ => rfl)
    (by intro ev s h; cases ev <;> first | rfl | exact absurd rfl (h _ _ _)) ([startPair g1 g2].map (fun p => .start p.1 p.2) ++ tr)
  have hed : Pbfs.edges ([startPair g1 g2].map (fun p => .start p.1 p.2) ++ tr) = Pbfs.edges tr := by
    rw [Pbfs.edges_append, (Pbfs.starts_proj (A := A) [startPair g1 g2]).2.2.2.2.1]; rfl
  rw [hed] at hem
  have hmem : ∀ e, e ∈ Pbfs.edges tr ↔ ∃ p ∈ Pbfs.examined tr, ∃ a ∈ Pbfs.syms g1 g2 p, Pbfs.jedge g1 g2 p a = e := by
    intro e; rw [hf.edges.mem_iff]; simp
  have hne : ∀ p a, Pbfs.nxt g1 g2 p a ≠ bot → p ≠ bot := by
    rintro p a h rfl; exact h rfl
  refine ⟨Pbfs.edges tr, c, ?_, ?_, ?_⟩
  · intro st s hs
    have hret := hr _ (unionVisitor g1 g2) st
    unfold Pbfs.outcome at hret
    rw [hem, hs] at hret
    exact hret
  · intro e he
    obtain ⟨p, hp, a, ha, rfl⟩ := (hmem e).mp he
    have hn := Pbfs.mem_syms.mp ha
    refine ⟨p, a, rfl, ?_, fun h => ⟨hne p a hn, hn⟩⟩
    intro s
    rw [if_pos (by simpa using hn)]
  · intro p a
    simp only [List.mem_filter, List.mem_map, decide_eq_true_eq]
    constructor
    · rintro ⟨⟨e, he, e2⟩, hk⟩
      obtain ⟨p', hp', a', ha', rfl⟩ := (hmem e).mp he
      rw [src_jedge] at e2
      simp only [Prod.mk.injEq] at e2
      obtain ⟨rfl, rfl⟩ := e2
      obtain ⟨w, e, _⟩ := (Pbfs.mem_examined hf p').mp hp'
      exact ⟨⟨w, e⟩, hk⟩
    · rintro ⟨⟨w, hp⟩, hk⟩
      exact ⟨⟨_, (hmem _).mpr ⟨p, (Pbfs.mem_examined hf p).mpr ⟨w, hp, .inr (hne p a hk)⟩, a, Pbfs.mem_syms.mpr hk, rfl⟩,
        by rw [src_jedge]; rfl⟩, hk⟩

/-- What `deterministic_union` builds. -/
theorem union_spec {ord : SetOracle A} (ho : ord.Valid) (h1 : AWF g1) (h2 : AWF g2) :
    ∃ (s : Product A) (L : List (StatePair × A)), Returns (deterministicUnion ord g1 g2) (.ok s.g12) ∧
      PInv (fun a b => a || b) g1 g2 L s ∧
      ∀ p a, (p, a) ∈ L ↔ (∃ w, p = Pbfs.pairOf g1 g2 w) ∧ Pbfs.nxt g1 g2 p a ≠ bot := by
  obtain ⟨es, c, hr, he, hl⟩ := union_edges ho h1 h2
  obtain ⟨s, hs, hinv⟩ := fold_spec (op := fun a b => a || b) (g1 := g1) (g2 := g2)
    (f := fun e1 e2 _ s => s.addEdge (fun a b => a || b) g1 g2 e1 e2) (keep := fun p a => decide (Pbfs.nxt g1 g2 p a ≠ bot)) es he [] ⟨[], .empty⟩ PInv.empty
  exact ⟨s, _, (hr _ _ hs).map_option _, hinv, by simpa using hl⟩

end Product

/-- **C47**, the full statement. It does not hold of the code: see `C47_counterexample`. -/
def C47_statement : Prop :=
  ∀ (g1 g2 : Automaton Char) (ord : SetOracle Char), g1.Reachable → g2.Reachable → ord.Valid → g1.q0 ≠ none → g2.q0 ≠ none →
    ∃ g, Returns (deterministicUnion ord g1 g2) (.ok g) ∧ ∀ w, g.Lang w ↔ g1.Lang w ∨ g2.Lang w

/-- **C47**: `deterministic_union` terminates without raising, whatever the automata and the order in which symbols are enumerated. -/
theorem C47_total {g1 g2 : Automaton A} {ord : SetOracle A} (h1 : g1.Reachable) (h2 : g2.Reachable) (ho : ord.Valid) :
    ∃ g, Returns (deterministicUnion ord g1 g2) (.ok g) := by
  obtain ⟨s, _, h, _⟩ := Product.union_spec ho h1.awf h2.awf
  exact ⟨_, h⟩

/-- The general form of `C47_partial`. -/
theorem Product.union_awf {g1 g2 : Automaton A} {ord : SetOracle A} (h1 : AWF g1) (h2 : AWF g2) (ho : ord.Valid)
    (hz : ∀ u p, u ≠ [] → g1.After u p.1 → g2.After u p.2 → p ≠ (none, none) → p.1 = g1.initial ∨ p.2 = g2.initial → p = (g1.initial, g2.initial)) :
    ∃ g, Returns (deterministicUnion ord g1 g2) (.ok g) ∧
      (∀ w, w ≠ [] → (g.Lang w ↔ g1.Lang w ∨ g2.Lang w)) ∧
      (g.Lang [] ↔ (g1.Lang [] ∨ g2.Lang []) ∧ ∃ a r, g1.After [a] (some r) ∨ g2.After [a] (some r)) := by
  obtain ⟨s, L, k0, k1, k2⟩ := Product.union_spec ho h1 h2
  have hwalk : ∀ w, Product.walk g1 g2 (startPair g1 g2) w = Pbfs.pairOf g1 g2 w := fun w => Product.walk_eq _ _
  have hl1 : ∀ w, g1.Lang w ↔ g1.isFinalO (Pbfs.pairOf g1 g2 w).1 = true := fun w => lang_iff_final h1 w
  have hl2 : ∀ w, g2.Lang w ↔ g2.isFinalO (Pbfs.pairOf g1 g2 w).2 = true := fun w => lang_iff_final h2 w
  have hne : ∀ w, g1.Lang w ∨ g2.Lang w → Pbfs.pairOf g1 g2 w ≠ Product.bot := by
    intro w h e
    rw [hl1, hl2, e] at h
    rcases h with h | h <;> cases h
  have hstart : startPair g1 g2 = Pbfs.pairOf g1 g2 [] := rfl
  have hprefix : ∀ u v, Pbfs.pairOf g1 g2 (u ++ v) ≠ Product.bot → Pbfs.pairOf g1 g2 u ≠ Product.bot := by
    intro u v
    induction v using List.reverseRecOn with
    | nil => intro h; simpa using h
    | append_singleton v a ih => rw [← List.append_assoc]; intro h; exact ih (Pbfs.pairOf_init_ne h)
  have hfirst : (∃ a, Pbfs.nxt g1 g2 (startPair g1 g2) a ≠ Product.bot) ↔ ∃ a r, g1.After [a] (some r) ∨ g2.After [a] (some r) := by
    refine exists_congr fun a => ?_
    simp only [after_iff h1, after_iff h2]
    rw [hstart, ← Pbfs.pairOf_snoc, List.nil_append]
    unfold Pbfs.pairOf
    cases g1.deltaWord g1.initial [a] <;> cases g2.deltaWord g2.initial [a] <;> simp
  by_cases hex : ∃ a, Pbfs.nxt g1 g2 (startPair g1 g2) a ≠ Product.bot
  · obtain ⟨a0, ha0⟩ := hex
    have hsL : (startPair g1 g2, a0) ∈ L := (k2 _ _).mpr ⟨⟨[], rfl⟩, ha0⟩
    obtain ⟨q', hq'⟩ := Option.ne_none_iff_exists'.mp ((k1.dom (startPair g1 g2)).mpr ⟨_, hsL, .inl rfl⟩)
    have hopS : (g1.isInitialO (startPair g1 g2).1 || g2.isInitialO (startPair g1 g2).2) = true := by simp [isInitialO, initial]
    obtain ⟨p, q, hp, hop, hq⟩ := k1.init _ _ hq' hopS
    have : p = startPair g1 g2 := by
      obtain ⟨x, hx, hxp⟩ := (k1.dom p).mp (by rw [hp]; simp)
      obtain ⟨⟨w, hw⟩, hn⟩ := (k2 x.1 x.2).mp hx
      have hpw : ∃ u, p = Pbfs.pairOf g1 g2 u ∧ (u = [] ∨ p ≠ Product.bot) := by
        rcases hxp with rfl | rfl
        · exact ⟨w, hw, .inr (by intro e; rw [e] at hn; exact hn rfl)⟩
        · exact ⟨w ++ [x.2], by rw [Pbfs.pairOf_snoc, ← hw], .inr hn⟩
      obtain ⟨u, rfl, hu⟩ := hpw
      by_cases hu0 : u = []
      · subst hu0; rfl
      · refine hz u _ hu0 ((after_iff h1).mpr rfl) ((after_iff h2).mpr rfl) (hu.resolve_left hu0) ?_
        simp only [isInitialO, Bool.or_eq_true, decide_eq_true_eq] at hop
        rcases hop with h | h
        · exact .inl h.symm
        · exact .inr h.symm
    subst this
    have key : ∀ w, s.g12.Lang w ↔ g1.Lang w ∨ g2.Lang w := by
      intro w
      rw [k1.lang_start hp hq, hwalk]
      simp only [Bool.or_eq_true]
      rw [← hl1, ← hl2]
      constructor
      · exact fun h => h.2.2
      · intro h
        have hL : ∀ u a v, w = u ++ a :: v → (Product.walk g1 g2 (startPair g1 g2) u, a) ∈ L := by
          intro u a v e
          rw [hwalk]
          refine (k2 _ _).mpr ⟨⟨u, rfl⟩, ?_⟩
          rw [← Pbfs.pairOf_snoc]
          refine hprefix (u ++ [a]) v ?_
          have := hne w h
          rw [e] at this
          simpa using this
        refine ⟨hL, ?_, h⟩
        rcases List.eq_nil_or_concat w with rfl | ⟨u, a, rfl⟩
        · rw [← hstart, hp]; simp
        · rw [List.concat_eq_append] at hL ⊢
          have hm := hL u a [] rfl
          rw [hwalk] at hm
          rw [Pbfs.pairOf_snoc, k1.dom]
          exact ⟨_, hm, .inr rfl⟩
    refine ⟨_, k0, fun w _ => key w, ?_⟩
    rw [key, ← hfirst]
    exact ⟨fun h => ⟨h, a0, ha0⟩, fun h => h.1⟩
  · have hbotw : ∀ w, w ≠ [] → Pbfs.pairOf g1 g2 w = Product.bot := by
      intro w hw
      by_contra hc
      cases w with
      | nil => exact hw rfl
      | cons a w =>
        have := hprefix [a] w (by simpa using hc)
        rw [← List.nil_append [a], Pbfs.pairOf_snoc] at this
        exact hex ⟨a, this⟩
    have hL : L = [] := by
      rw [List.eq_nil_iff_forall_not_mem]
      rintro ⟨p, a⟩ hpa
      obtain ⟨⟨w, rfl⟩, hb⟩ := (k2 p a).mp hpa
      rw [← Pbfs.pairOf_snoc] at hb
      exact hb (hbotw _ (by simp))
    subst hL
    refine ⟨_, k0, ?_, ?_⟩
    · intro w hw
      constructor
      · intro h; exact absurd h (k1.lang_empty w)
      · intro h; exact absurd (hbotw w hw) (hne w h)
    · constructor
      · intro h; exact absurd h (k1.lang_empty _)
      · rintro ⟨_, h⟩; exact absurd (hfirst.mpr h) hex

/-- **C47**, in part: if no non-empty word brings one of the automata back to its initial state (other than both at once), then a non-empty word is accepted
iff one of them accepts it; the empty word is accepted iff one of them accepts it and one of them has a transition from its initial state. Missing: a
pair in which one state is initial is made initial by the code, in place of the initial pair; no state is created when there is no transition. -/
theorem C47_partial {g1 g2 : Automaton A} {ord : SetOracle A} (h1 : g1.Reachable) (h2 : g2.Reachable) (ho : ord.Valid)
    (hz : ∀ u p, u ≠ [] → g1.After u p.1 → g2.After u p.2 → p ≠ (none, none) → p.1 = g1.initial ∨ p.2 = g2.initial → p = (g1.initial, g2.initial)) :
    ∃ g, Returns (deterministicUnion ord g1 g2) (.ok g) ∧
      (∀ w, w ≠ [] → (g.Lang w ↔ g1.Lang w ∨ g2.Lang w)) ∧
      (g.Lang [] ↔ (g1.Lang [] ∨ g2.Lang []) ∧ ∃ a r, g1.After [a] (some r) ∨ g2.After [a] (some r)) :=
  Product.union_awf h1.awf h2.awf ho hz

/-- Recognises `b`. -/
def letterHistory : List (AOp Char) := [.addVertex, .addVertex, .addEdge 0 1 'b', .setInitial 0 true, .setFinal 1 true]

/-- The automata of `C47_counterexample`. -/
theorem C47_case :
  ∃ g1 g2 : Automaton Char, Runs Automaton.exec Automaton.empty starHistory g1 ∧ Runs Automaton.exec Automaton.empty letterHistory g2 ∧ g1.q0 = some 0 ∧ g2.q0 = some 0 ∧
        g2.accepts ['b'] = true ∧
        (deterministicUnion (fun _ s => s) g1 g2 5).map (fun r => r.toOption.map fun g => g.accepts ['b']) = some (some false) :=
  ⟨_, _, rfl, rfl, rfl, rfl, by decide, by decide⟩

/-- **C47** does not hold: the union of `a*` and `b` rejects `b`, because the pair reached by `a` replaces the initial pair. -/
theorem C47_counterexample : ¬C47_statement := by
  intro h
  obtain ⟨g1, g2, hg1, hg2, i1, i2, a2, hrej⟩ := C47_case
  obtain ⟨g, hr, hl⟩ := h g1 g2 (fun _ s => s) ⟨_, hg1⟩ ⟨_, hg2⟩ (fun _ _ => .refl _) (by rw [i1]; simp) (by rw [i2]; simp)
  have w1 : AWF g1 := Reachable.awf ⟨_, hg1⟩
  have w2 : AWF g2 := Reachable.awf ⟨_, hg2⟩
  have ha := (hl ['b']).mpr (.inr ((accepts_iff w2 _).mp a2))
  cases hp : deterministicUnion (fun _ s => s) g1 g2 5 with
  | none => rw [hp] at hrej; cases hrej
  | some r =>
    rw [hp] at hrej
    unfold deterministicUnion at hp
    obtain ⟨r', hp', rfl⟩ := Option.map_eq_some_iff.mp hp
    have e := returns_unique hr ((Returns.of_pbfs hp').map_option _)
    rw [← e] at hrej
    have hacc : g.accepts ['b'] = false := by simpa [Except.toOption] using hrej
    obtain ⟨s, _, k0, k1, _⟩ := Product.union_spec (ord := fun _ s => s) (fun _ _ => .refl _) w1 w2
    have eg := returns_unique hr k0
    simp only [Except.ok.injEq] at eg
    subst eg
    rw [← accepts_iff k1.wf, hacc] at ha
    cases ha

section Examples

/-- Recognises `aa*` with `0` never reached again. -/
example : ∃ g1 g2 : Automaton Char, Runs Automaton.exec Automaton.empty plusHistory g1 ∧
    Runs Automaton.exec Automaton.empty (letterHistory ++ [.addEdge 0 1 'a']) g2 ∧
    (∀ q a r, g1.Trans q a r → r ≠ 0) ∧ (∀ q a r, g2.Trans q a r → r ≠ 0) ∧
    (deterministicIntersection (fun _ s => s) g1 g2 10).map (fun r => r.map fun g => [['a'], ['b'], ['a', 'a'], []].map g.accepts) =
      some (.ok [true, false, false, false]) ∧
    (deterministicUnion (fun _ s => s) g1 g2 10).map (fun r => r.map fun g => [['a'], ['b'], ['a', 'a'], [], ['b', 'a']].map g.accepts) =
      some (.ok [true, true, true, false, false]) := by
  refine ⟨_, _, rfl, rfl, ?_, ?_, by decide, by decide⟩
  · intro q a r h
    have h : (⟨q, r, a⟩ : EdgeDesc Char) ∈ [⟨0, 1, 'a'⟩, ⟨1, 1, 'a'⟩] := h
    simp at h
    omega
  · intro q a r h
    have h : (⟨q, r, a⟩ : EdgeDesc Char) ∈ [⟨0, 1, 'b'⟩, ⟨0, 1, 'a'⟩] := h
    simp at h
    omega

/-- Without a common symbol, the intersection has no state and rejects the empty word; without a symbol, so does the union. -/
example : ∃ g : Automaton Char, Runs Automaton.exec Automaton.empty [.addVertex, .setFinal 0 true] g ∧ g.accepts [] = true ∧
    (deterministicIntersection (fun _ s => s) g g 10).map (fun r => r.map fun g => g.accepts []) = some (.ok false) ∧
    (deterministicUnion (fun _ s => s) g g 10).map (fun r => r.map fun g => g.accepts []) = some (.ok false) :=
  ⟨_, rfl, by decide, by decide, by decide⟩

end Examples
end PyBGL
