import Verif.Proofs.ProductInto
import Verif.Props.C46_C47_Exact

/-!
# C141: `deterministic_union` and `deterministic_intersection` into a given automaton
-/

namespace PyBGL
open Automaton
variable {A : Type} [DecidableEq A]

/-- `d'` contains `d`, unchanged, and a copy of `g` whose states are numbered from the next number of `d`. (A final flag that was set on a number which is not yet a state stays.) -/
structure Automaton.Appended (d g d' : Automaton A) : Prop where
  verts : d'.vertices = d.vertices ++ g.vertices.map (d.lastVertexId + ·)
  old : ∀ q < d.lastVertexId, (∀ a, d'.delta q a = d.delta q a) ∧ d'.isFinal q = d.isFinal q
  delta : ∀ q a, d'.delta (d.lastVertexId + q) a = (g.delta q a).map (d.lastVertexId + ·)
  fin : ∀ q, d'.isFinal (d.lastVertexId + q) = (g.isFinal q || d.isFinal (d.lastVertexId + q))

/-- The language of the copy. -/
theorem Automaton.Appended.lang {d g d' : Automaton A} (hd : AWF d') (hg : AWF g) (h : d.Appended g d') (hq : d'.q0 = g.q0.map (d.lastVertexId + ·))
    (hf : ∀ q, d.lastVertexId ≤ q → d.isFinal q = false) (w : List A) : d'.Lang w ↔ g.Lang w := by
  have key : ∀ (w : List A) (q : Option Nat), d'.deltaWord (q.map (d.lastVertexId + ·)) w = (g.deltaWord q w).map (d.lastVertexId + ·) := by
    intro w
    induction w with
    | nil => intro q; simp
    | cons a w ih =>
      intro q
      cases q with
      | none => simp
      | some q =>
        rw [deltaWord_cons, deltaWord_cons]
        simp only [Option.map_some, deltaO, Option.bind_some, h.delta]
        exact ih _
  rw [lang_iff_final hd, lang_iff_final hg]
  unfold initial
  rw [hq, key]
  cases g.deltaWord g.q0 w with
  | none => rfl
  | some q =>
    show d'.isFinal (d.lastVertexId + q) = true ↔ g.isFinal q = true
    rw [h.fin, hf _ (Nat.le_add_right _ _), Bool.or_false]

namespace Product
variable {op : Bool → Bool → Bool} {g1 g2 : Automaton A}

/-- What `Into` says, once the pair of initial states is known to have been created, or nothing at all. -/
theorem Into.result {d : Automaton A} {t s : Product A} (h : Into op g1 g2 d t s) : d.Appended s.g12 t.g12 :=
  ⟨h.verts, h.old, h.delta, h.fin⟩

theorem Into.started {d : Automaton A} {t s : Product A} (h : Into op g1 g2 d t s) {p : StatePair} (hp : s.map.get? p ≠ none)
    (ho : op (g1.isInitialO p.1) (g2.isInitialO p.2) = true) : t.g12.q0 = s.g12.q0.map (d.lastVertexId + ·) := by
  rcases h.init with k | k
  · obtain ⟨q, hq⟩ := Option.ne_none_iff_exists'.mp hp
    rw [k.2 p q hq] at ho; cases ho
  · exact k

theorem Into.default_reachable {t s : Product A} (h : Into op g1 g2 .empty t s) (e : t.g12 = s.g12) : s.g12.Reachable := e ▸ h.reach

end Product

/-- A transition leaves the initial state of `g1` or of `g2`. -/
def Automaton.SomeFirst (g1 g2 : Automaton A) : Prop := ∃ a r, g1.After [a] (some r) ∨ g2.After [a] (some r)

/-- Transitions with the same label leave the initial states of `g1` and of `g2`. -/
def Automaton.CommonFirst (g1 g2 : Automaton A) : Prop := ∃ a r1 r2, g1.After [a] (some r1) ∧ g2.After [a] (some r2)

theorem Product.union_into {g1 g2 d : Automaton A} {ord : SetOracle A} (h1 : g1.Reachable) (h2 : g2.Reachable) (hd : d.Reachable) (ho : ord.Valid) :
    ∃ d' g, Returns (deterministicUnionInto ord g1 g2 d) (.ok d') ∧ Returns (deterministicUnion ord g1 g2) (.ok g) ∧ d'.Reachable ∧ d.Appended g d' ∧
      (SomeFirst g1 g2 → d'.q0 = g.q0.map (d.lastVertexId + ·)) ∧ (¬ SomeFirst g1 g2 → d' = d) := by
  obtain ⟨es, c, hr, he, hl⟩ := Product.union_edges ho h1.awf h2.awf
  obtain ⟨t, s, k1, k2, k3⟩ := Product.Into.fold (op := fun a b => a || b) (g1 := g1) (g2 := g2) (d := d)
    (f := fun e1 e2 _ s => s.addEdge (fun a b => a || b) g1 g2 e1 e2) (keep := fun p a => decide (Pbfs.nxt g1 g2 p a ≠ Product.bot)) es he [] ⟨[], d⟩ ⟨[], .empty⟩
    (.empty hd) .empty
  obtain ⟨s', k2', k4⟩ := Product.fold_spec (op := fun a b => a || b) (g1 := g1) (g2 := g2)
    (f := fun e1 e2 _ s => s.addEdge (fun a b => a || b) g1 g2 e1 e2) (keep := fun p a => decide (Pbfs.nxt g1 g2 p a ≠ Product.bot)) es he [] ⟨[], .empty⟩ .empty
  rw [k2] at k2'
  cases k2'
  have hfirst : (∃ a, Pbfs.nxt g1 g2 (startPair g1 g2) a ≠ Product.bot) ↔ SomeFirst g1 g2 := by
    refine exists_congr fun a => ?_
    simp only [after_iff h1.awf, after_iff h2.awf]
    rw [show startPair g1 g2 = Pbfs.pairOf g1 g2 [] from rfl, ← Pbfs.pairOf_snoc, List.nil_append]
    unfold Pbfs.pairOf
    cases g1.deltaWord g1.initial [a] <;> cases g2.deltaWord g2.initial [a] <;> simp
  refine ⟨t.g12, s.g12, (hr _ _ k1).map_option _, (hr _ _ k2).map_option _, k3.reach, k3.result, ?_, ?_⟩
  · intro hs
    obtain ⟨a, ha⟩ := hfirst.mpr hs
    refine k3.started (p := startPair g1 g2) ((k4.dom _).mpr ⟨(startPair g1 g2, a), ?_, .inl rfl⟩) (by simp [isInitialO, initial])
    rw [List.nil_append]
    exact (hl _ _).mpr ⟨⟨[], rfl⟩, ha⟩
  · intro hs
    refine k3.same ?_
    have hprefix : ∀ u v, Pbfs.pairOf g1 g2 (u ++ v) ≠ Product.bot → Pbfs.pairOf g1 g2 u ≠ Product.bot := by
      intro u v
      induction v using List.reverseRecOn with
      | nil => intro h; simpa using h
      | append_singleton v a ih => rw [← List.append_assoc]; intro h; exact ih (Pbfs.pairOf_init_ne h)
    cases hm : s.map with
    | nil => rfl
    | cons x m =>
      exfalso
      have hx : s.map.get? x.1 ≠ none := by rw [hm]; simp [Dict.get?]
      obtain ⟨y, hy, _⟩ := (k4.dom _).mp hx
      rw [List.nil_append] at hy
      obtain ⟨⟨w, hw⟩, hn⟩ := (hl y.1 y.2).mp hy
      rw [hw, ← Pbfs.pairOf_snoc] at hn
      refine hs (hfirst.mp ?_)
      cases w with
      | nil => exact ⟨y.2, by rw [Pbfs.pairOf_snoc] at hn; exact hn⟩
      | cons b w =>
        refine ⟨b, ?_⟩
        have := hprefix [b] (w ++ [y.2]) (by simpa using hn)
        rw [← List.nil_append [b], Pbfs.pairOf_snoc] at this
        exact this

theorem Product.inter_into {g1 g2 d : Automaton A} {ord : SetOracle A} (h1 : g1.Reachable) (h2 : g2.Reachable) (hd : d.Reachable) (ho : ord.Valid)
    (i1 : g1.q0 ≠ none) (i2 : g2.q0 ≠ none) :
    ∃ d' g, Returns (deterministicIntersectionInto ord g1 g2 d) (.ok d') ∧ Returns (deterministicIntersection ord g1 g2) (.ok g) ∧ d'.Reachable ∧ d.Appended g d' ∧
      (CommonFirst g1 g2 → d'.q0 = g.q0.map (d.lastVertexId + ·)) ∧ (¬ CommonFirst g1 g2 → d' = d) := by
  obtain ⟨es, E, c, hr, he, hl, hE1, hE2, hE3⟩ := Product.inter_edges ho h1.awf h2.awf i1 i2
  obtain ⟨t, s, k1, k2, k3⟩ := Product.Into.fold (op := fun a b => a && b) (g1 := g1) (g2 := g2) (d := d)
    (f := fun e1 e2 a s => interVisitor g1 g2 (.examineEdge e1 e2 a) s) (keep := fun p a => Product.both (Pbfs.nxt g1 g2 p a)) es he [] ⟨[], d⟩ ⟨[], .empty⟩
    (.empty hd) .empty
  obtain ⟨s', k2', k4⟩ := Product.fold_spec (op := fun a b => a && b) (g1 := g1) (g2 := g2)
    (f := fun e1 e2 a s => interVisitor g1 g2 (.examineEdge e1 e2 a) s) (keep := fun p a => Product.both (Pbfs.nxt g1 g2 p a)) es he [] ⟨[], .empty⟩ .empty
  rw [k2] at k2'
  cases k2'
  have hfirst : (∃ a, Product.both (Pbfs.nxt g1 g2 (startPair g1 g2) a) = true) ↔ CommonFirst g1 g2 := by
    refine exists_congr fun a => ?_
    simp only [after_iff h1.awf, after_iff h2.awf]
    rw [Product.both_iff, show startPair g1 g2 = Pbfs.pairOf g1 g2 [] from rfl, ← Pbfs.pairOf_snoc, List.nil_append]
    unfold Pbfs.pairOf
    cases g1.deltaWord g1.initial [a] <;> cases g2.deltaWord g2.initial [a] <;> simp
  refine ⟨t.g12, s.g12, (hr _ _ k1).map_option _, (hr _ _ k2).map_option _, k3.reach, k3.result, ?_, ?_⟩
  · intro hs
    obtain ⟨a, ha⟩ := hfirst.mpr hs
    refine k3.started (p := startPair g1 g2) ((k4.dom _).mpr ⟨(startPair g1 g2, a), ?_, .inl rfl⟩) (by simp [isInitialO, initial])
    rw [List.nil_append]
    exact (hl _ _).mpr ⟨hE1, ha⟩
  · intro hs
    refine k3.same ?_
    have hno : ∀ a, Product.both (Pbfs.nxt g1 g2 (startPair g1 g2) a) ≠ true := fun a ha => hs (hfirst.mp ⟨a, ha⟩)
    have hEo : ∀ p ∈ E, p = startPair g1 g2 := hE3 _ rfl (fun p hp a ha => by subst hp; exact absurd (Product.ppInter_both ha) (hno a))
    cases hm : s.map with
    | nil => rfl
    | cons x m =>
      exfalso
      have hx : s.map.get? x.1 ≠ none := by rw [hm]; simp [Dict.get?]
      obtain ⟨y, hy, _⟩ := (k4.dom _).mp hx
      rw [List.nil_append] at hy
      obtain ⟨hp, hn⟩ := (hl y.1 y.2).mp hy
      rw [hEo _ hp] at hn
      exact hno _ hn

/-- **C141**: the automaton returned by `deterministic_union(g1, g2)` is one to which the theorems on automata apply, and `deterministic_union(g1, g2, g12)` appends
it to `g12`: the states and transitions of `g12` do not change. The initial state becomes the one of the union, except when no transition
leaves the initial states of `g1` and `g2`: then `g12` is returned as it was. -/
theorem C141_union {g1 g2 d : Automaton A} {ord : SetOracle A} (h1 : g1.Reachable) (h2 : g2.Reachable) (hd : d.Reachable) (ho : ord.Valid) :
    ∃ d' g, Returns (deterministicUnionInto ord g1 g2 d) (.ok d') ∧ Returns (deterministicUnion ord g1 g2) (.ok g) ∧ d'.Reachable ∧ g.Reachable ∧ d.Appended g d' ∧
      (SomeFirst g1 g2 → d'.q0 = g.q0.map (d.lastVertexId + ·)) ∧ (¬ SomeFirst g1 g2 → d' = d) := by
  obtain ⟨d', g, k1, k2, k3, k4, k5, k6⟩ := Product.union_into h1 h2 hd ho
  obtain ⟨e, g', l1, l2, l3, _⟩ := Product.union_into h1 h2 (d := .empty) ⟨[], rfl⟩ ho
  cases returns_unique l1 l2
  cases returns_unique k2 l2
  exact ⟨d', g, k1, k2, k3, l3, k4, k5, k6⟩

/-- **C141**, for `deterministic_intersection`: here `g12` is returned as it was when no symbol labels transitions that leave both initial states. -/
theorem C141_intersection {g1 g2 d : Automaton A} {ord : SetOracle A} (h1 : g1.Reachable) (h2 : g2.Reachable) (hd : d.Reachable) (ho : ord.Valid)
    (i1 : g1.q0 ≠ none) (i2 : g2.q0 ≠ none) :
    ∃ d' g, Returns (deterministicIntersectionInto ord g1 g2 d) (.ok d') ∧ Returns (deterministicIntersection ord g1 g2) (.ok g) ∧ d'.Reachable ∧ g.Reachable ∧ d.Appended g d' ∧
      (CommonFirst g1 g2 → d'.q0 = g.q0.map (d.lastVertexId + ·)) ∧ (¬ CommonFirst g1 g2 → d' = d) := by
  obtain ⟨d', g, k1, k2, k3, k4, k5, k6⟩ := Product.inter_into h1 h2 hd ho i1 i2
  obtain ⟨e, g', l1, l2, l3, _⟩ := Product.inter_into h1 h2 (d := .empty) ⟨[], rfl⟩ ho i1 i2
  cases returns_unique l1 l2
  cases returns_unique k2 l2
  exact ⟨d', g, k1, k2, k3, l3, k4, k5, k6⟩

/-- **C141**: so, when no final flag was set in advance, the language of the result is the one computed without `g12`, or the one `g12` already had. -/
theorem C141_lang {g1 g2 d : Automaton A} {ord : SetOracle A} (h1 : g1.Reachable) (h2 : g2.Reachable) (hd : d.Reachable) (ho : ord.Valid)
    (hf : ∀ q, d.lastVertexId ≤ q → d.isFinal q = false) :
    (∃ d' g, Returns (deterministicUnionInto ord g1 g2 d) (.ok d') ∧ Returns (deterministicUnion ord g1 g2) (.ok g) ∧
      (SomeFirst g1 g2 → ∀ w, d'.Lang w ↔ g.Lang w) ∧ (¬ SomeFirst g1 g2 → ∀ w, d'.Lang w ↔ d.Lang w)) ∧
    (g1.q0 ≠ none → g2.q0 ≠ none → ∃ d' g, Returns (deterministicIntersectionInto ord g1 g2 d) (.ok d') ∧ Returns (deterministicIntersection ord g1 g2) (.ok g) ∧
      (CommonFirst g1 g2 → ∀ w, d'.Lang w ↔ g.Lang w) ∧ (¬ CommonFirst g1 g2 → ∀ w, d'.Lang w ↔ d.Lang w)) := by
  constructor
  · obtain ⟨d', g, k1, k2, k3, k4, k5, k6, k7⟩ := C141_union h1 h2 hd ho
    exact ⟨d', g, k1, k2, fun h => k5.lang k3.awf k4.awf (k6 h) hf, fun h w => by rw [k7 h]⟩
  · intro i1 i2
    obtain ⟨d', g, k1, k2, k3, k4, k5, k6, k7⟩ := C141_intersection h1 h2 hd ho i1 i2
    exact ⟨d', g, k1, k2, fun h => k5.lang k3.awf k4.awf (k6 h) hf, fun h w => by rw [k7 h]⟩

/-! The hypotheses are met: the union of an automaton that accepts the word `5` with itself, put into an automaton that is not empty, accepts this word. -/
example : deterministicUnionInto (fun _ l => l) (⟨2, [(0, [(5, 1)]), (1, [])], some 0, [(1, true)]⟩ : Automaton Nat)
    ⟨2, [(0, [(5, 1)]), (1, [])], some 0, [(1, true)]⟩ ⟨1, [(0, [])], some 0, [(0, true)]⟩ 10 =
      some (.ok ⟨3, [(0, []), (1, [(5, 2)]), (2, [])], some 1, [(0, true), (2, true)]⟩) := rfl
example : (⟨2, [(0, [(5, 1)]), (1, [])], some 0, [(1, true)]⟩ : Automaton Nat).Reachable ∧ (⟨1, [(0, [])], some 0, [(0, true)]⟩ : Automaton Nat).Reachable :=
  ⟨⟨[.addVertex, .addVertex, .setFinal 1 true, .addEdge 0 1 5], rfl⟩, ⟨[.addVertex, .setFinal 0 true], rfl⟩⟩

/-- **C141**: a `g12` that was already used keeps its language when the union has no transition: the union of two automata that accept nothing, put into an automaton
that accepts the empty word. -/
theorem C141_reused : ¬ ∀ (g1 g2 d : Automaton Nat), g1.Reachable → g2.Reachable → d.Reachable → ∀ ord : SetOracle Nat, ord.Valid →
    ∃ d', Returns (deterministicUnionInto ord g1 g2 d) (.ok d') ∧ ∀ w, d'.Lang w → g1.Lang w ∨ g2.Lang w := by
  intro h
  have hd : (⟨1, [(0, [])], some 0, [(0, true)]⟩ : Automaton Nat).Reachable := ⟨[.addVertex, .setFinal 0 true], rfl⟩
  have he : (Automaton.empty (A := Nat)).Reachable := ⟨[], rfl⟩
  obtain ⟨d', k1, k2⟩ := h .empty .empty _ he he hd (fun _ l => l) (fun _ _ => .refl _)
  obtain ⟨d'', g, l1, l2, l3, l4, l5, l6, l7⟩ := C141_union he he hd (ord := fun _ l => l) (fun _ _ => .refl _)
  cases returns_unique k1 l1
  have hno : ¬ SomeFirst (Automaton.empty (A := Nat)) .empty := by
    rintro ⟨a, r, h | h⟩ <;> rw [after_iff he.awf] at h <;> cases h
  rw [l7 hno] at k2
  rcases k2 [] ⟨0, 0, rfl, .nil 0, rfl⟩ with ⟨q, f, h1, _, h3⟩ | ⟨q, f, h1, _, h3⟩ <;> cases h3

end PyBGL
