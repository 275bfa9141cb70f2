import Verif.Props.C46_C47_Product

/-!
# C46, C47: the languages computed in all cases
-/

namespace PyBGL
open Automaton
variable {A : Type} [DecidableEq A]

/-- **C46** (exactly what is accepted, whatever the automata): a non-empty word is accepted iff both automata accept it and no proper non-empty prefix of it leads to a
pair of states that contains the state 0, other than the pair of initial states; the empty word is accepted iff both accept it and they
have a first symbol in common. -/
theorem C46_exact {g1 g2 : Automaton A} {ord : SetOracle A} (h1 : g1.Reachable) (h2 : g2.Reachable) (ho : ord.Valid)
    (i1 : g1.q0 ≠ none) (i2 : g2.q0 ≠ none) :
    ∃ g, Returns (deterministicIntersection ord g1 g2) (.ok g) ∧
      (∀ w, w ≠ [] → (g.Lang w ↔ g1.Lang w ∧ g2.Lang w ∧
        ∀ u v r1 r2, w = u ++ v → u ≠ [] → v ≠ [] → g1.After u (some r1) → g2.After u (some r2) →
          (r1 ≠ 0 ∧ r2 ≠ 0) ∨ (g1.initial = some r1 ∧ g2.initial = some r2))) ∧
      (g.Lang [] ↔ g1.Lang [] ∧ g2.Lang [] ∧ ∃ a r1 r2, g1.After [a] (some r1) ∧ g2.After [a] (some r2)) := by
  obtain ⟨g, E, k0, k1, k2, k5, k3⟩ := Product.inter_lang ho h1.awf h2.awf i1 i2
  have hafter : ∀ w r1 r2, g1.After w (some r1) ∧ g2.After w (some r2) ↔ Product.walk g1 g2 (startPair g1 g2) w = (some r1, some r2) := by
    intro w r1 r2
    rw [after_iff h1.awf, after_iff h2.awf, Product.walk_eq, Prod.mk.injEq]
  have hEt : ∀ p ∈ E, p = startPair g1 g2 ∨ Product.ppInter p = true := k5 _ (.inl rfl) (fun p _ a h => .inr h)
  have hsnoc : ∀ u a, Product.walk g1 g2 (startPair g1 g2) (u ++ [a]) = Pbfs.nxt g1 g2 (Product.walk g1 g2 (startPair g1 g2) u) a := by
    intro u a
    rw [Product.walk_eq, Product.walk_eq, deltaWord_snoc, deltaWord_snoc]; rfl
  have htr : ∀ r1 r2 : Nat, Product.ppInter (some r1, some r2) = true ↔ r1 ≠ 0 ∧ r2 ≠ 0 := by
    intro r1 r2
    cases r1 <;> cases r2 <;> simp [Product.ppInter, truthy]
  have hboth : ∀ u v, g1.Lang (u ++ v) → g2.Lang (u ++ v) → Product.both (Product.walk g1 g2 (startPair g1 g2) u) = true := by
    intro u v l1 l2
    rw [Product.walk_eq, Product.both_iff]
    rw [lang_iff_final h1.awf, deltaWord_append] at l1
    rw [lang_iff_final h2.awf, deltaWord_append] at l2
    refine ⟨fun e => ?_, fun e => ?_⟩
    · simp only at e; rw [e, deltaWord_none] at l1; cases l1
    · simp only at e; rw [e, deltaWord_none] at l2; cases l2
  have hfirst : (∃ a, Product.both (Pbfs.nxt g1 g2 (startPair g1 g2) a) = true) ↔ ∃ a r1 r2, g1.After [a] (some r1) ∧ g2.After [a] (some r2) := by
    refine exists_congr fun a => ?_
    simp only [hafter]
    show Product.both (Product.walk g1 g2 (startPair g1 g2) [a]) = true ↔ _
    rw [Product.both_iff]
    generalize Product.walk g1 g2 (startPair g1 g2) [a] = p
    obtain ⟨p1, p2⟩ := p
    cases p1 <;> cases p2 <;> simp
  refine ⟨g, k0, ?_, ?_⟩
  · intro w hw
    rw [k3]
    constructor
    · rintro ⟨c1, c2, _, c4⟩
      refine ⟨c1, c2, ?_⟩
      rintro u v r1 r2 rfl hu hv a1 a2
      have hp := (hafter u r1 r2).mp ⟨a1, a2⟩
      cases v with
      | nil => exact absurd rfl hv
      | cons a v =>
        have hm := c4 u a v rfl
        rw [hp] at hm
        rcases hEt _ hm with h | h
        · refine .inr ?_
          have : (g1.initial, g2.initial) = (some r1, some r2) := h.symm
          simpa using this
        · exact .inl ((htr _ _).mp h)
    · rintro ⟨c1, c2, c3⟩
      refine ⟨c1, c2, ?_, ?_⟩
      · cases w with
        | nil => exact absurd rfl hw
        | cons a w => exact ⟨a, hboth [a] w c1 c2⟩
      · intro u
        induction u using List.reverseRecOn with
        | nil => intro _ _ _; exact k1
        | append_singleton u b ih =>
          intro a v e
          have hu := ih b (a :: v) (by rw [e]; simp)
          have hb := hboth (u ++ [b]) (a :: v) (e ▸ c1) (e ▸ c2)
          obtain ⟨b1, b2⟩ := Product.both_iff.mp hb
          obtain ⟨r1, e1⟩ := Option.ne_none_iff_exists'.mp b1
          obtain ⟨r2, e2⟩ := Option.ne_none_iff_exists'.mp b2
          have hp : Product.walk g1 g2 (startPair g1 g2) (u ++ [b]) = (some r1, some r2) := Prod.ext e1 e2
          obtain ⟨a1, a2⟩ := (hafter _ _ _).mpr hp
          rcases c3 (u ++ [b]) (a :: v) r1 r2 e (by simp) (by simp) a1 a2 with h | ⟨n1, n2⟩
          · rw [hsnoc]
            refine k2 _ hu b ?_
            rw [← hsnoc, hp]
            exact (htr _ _).mpr h
          · rw [hp, ← n1, ← n2]; exact k1
  · rw [k3, hfirst]
    constructor
    · rintro ⟨c1, c2, c3, _⟩; exact ⟨c1, c2, c3⟩
    · rintro ⟨c1, c2, c3⟩; exact ⟨c1, c2, c3, by simp⟩

/-- **C46** (automata without initial state): if one of the automata has no initial state and the other has a transition leaving its initial
state, `deterministic_intersection` raises `AttributeError`; otherwise it returns an automaton that accepts nothing. -/
theorem C46_no_initial {g1 g2 : Automaton A} {ord : SetOracle A} (h1 : g1.Reachable) (h2 : g2.Reachable) (ho : ord.Valid)
    (hi : g1.q0 = none ∨ g2.q0 = none) :
    ((∃ a r, g1.After [a] (some r) ∨ g2.After [a] (some r)) → Returns (deterministicIntersection ord g1 g2) (.error .attributeError)) ∧
    ((¬ ∃ a r, g1.After [a] (some r) ∨ g2.After [a] (some r)) →
      ∃ g, Returns (deterministicIntersection ord g1 g2) (.ok g) ∧ g.vertices = [] ∧ ∀ w, ¬ g.Lang w) := by
  obtain ⟨tr, c, hf, hr⟩ := Pbfs.facts (push := interPush) h1.awf h2.awf ho (pp := Product.ppInter) Product.interPush_eq [startPair g1 g2]
  have hnb : ∀ a, Product.both (Pbfs.nxt g1 g2 (startPair g1 g2) a) = false := by
    intro a
    rcases hi with h | h
    · simp [Product.both, Pbfs.nxt, startPair, initial, h, deltaO]
    · simp [Product.both, Pbfs.nxt, startPair, initial, h, deltaO]
  have hE : ∀ p ∈ Pbfs.examined tr, p = startPair g1 g2 := by
    refine hf.ind _ (by intro p hp; simpa using hp) ?_
    rintro p rfl a _ h
    have := Product.ppInter_both h
    rw [hnb] at this; cases this
  have hS : startPair g1 g2 ∈ Pbfs.examined tr := by rw [hf.fifo]; simp
  have hem := Product.emit_edges (vis := interVisitor g1 g2) (f := fun e1 e2 a s => interVisitor g1 g2 (.examineEdge e1 e2 a) s) (fun _ _ _ _ => rfl)
    (by intro ev s h; cases ev <;> first | rfl | exact absurd rfl (h _ _ _)) ([startPair g1 g2].map (fun p => .start p.1 p.2) ++ tr) ⟨[], .empty⟩
  have hed : Pbfs.edges ([startPair g1 g2].map (fun p => .start p.1 p.2) ++ tr) = Pbfs.edges tr := by
    rw [Pbfs.edges_append, (Pbfs.starts_proj (A := A) [startPair g1 g2]).2.2.2.2.1]; rfl
  rw [hed] at hem
  have hmem : ∀ e, e ∈ Pbfs.edges tr ↔ ∃ a ∈ Pbfs.syms g1 g2 (startPair g1 g2), Pbfs.jedge g1 g2 (startPair g1 g2) a = e := by
    intro e
    rw [hf.edges.mem_iff]
    simp only [List.mem_flatMap, List.mem_map]
    constructor
    · rintro ⟨p, hp, a, ha, rfl⟩
      rw [hE p hp] at ha ⊢
      exact ⟨a, ha, rfl⟩
    · rintro ⟨a, ha, rfl⟩
      exact ⟨_, hS, a, ha, rfl⟩
  have hsym : ∀ a, a ∈ Pbfs.syms g1 g2 (startPair g1 g2) ↔ ∃ r, g1.After [a] (some r) ∨ g2.After [a] (some r) := by
    intro a
    rw [Pbfs.mem_syms]
    simp only [after_iff h1.awf, after_iff h2.awf]
    have : Pbfs.nxt g1 g2 (startPair g1 g2) a = Pbfs.pairOf g1 g2 [a] := by
      rw [← List.nil_append [a], Pbfs.pairOf_snoc]; rfl
    rw [this]
    unfold Pbfs.pairOf
    cases g1.deltaWord g1.initial [a] <;> cases g2.deltaWord g2.initial [a] <;> simp
  have hfail : ∀ e ∈ Pbfs.edges tr, ∀ s, interVisitor g1 g2 (.examineEdge e.1 e.2.1 e.2.2) s = .error .attributeError := by
    intro e he s
    obtain ⟨a, ha, rfl⟩ := (hmem e).mp he
    have hn := Pbfs.mem_syms.mp ha
    rcases hi with h | h
    · simp [Pbfs.jedge, startPair, initial, h, jointEdge, interVisitor]
    · simp only [Pbfs.nxt, startPair, initial, h, deltaO, Option.bind_none] at hn
      cases hq : g1.q0 with
      | none => simp [hq] at hn
      | some q =>
        cases hd : g1.delta q a with
        | none => simp [hq, hd] at hn
        | some r => simp [Pbfs.jedge, startPair, initial, h, hq, jointEdge, interVisitor, hd]
  have hret := hr _ (interVisitor g1 g2) ⟨[], .empty⟩
  unfold Pbfs.outcome at hret
  rw [hem] at hret
  constructor
  · rintro ⟨a, r, h⟩
    have hin : Pbfs.jedge g1 g2 (startPair g1 g2) a ∈ Pbfs.edges tr := (hmem _).mpr ⟨a, (hsym a).mpr ⟨r, h⟩, rfl⟩
    cases he : Pbfs.edges tr with
    | nil => rw [he] at hin; cases hin
    | cons e es =>
      rw [he, List.foldlM_cons, hfail e (by rw [he]; simp)] at hret
      exact hret.map_option _
  · intro h
    have he : Pbfs.edges tr = [] := by
      rw [List.eq_nil_iff_forall_not_mem]
      intro e hin
      obtain ⟨a, ha, _⟩ := (hmem e).mp hin
      exact h ⟨a, (hsym a).mp ha⟩
    rw [he] at hret
    refine ⟨_, hret.map_option _, rfl, ?_⟩
    rintro w ⟨q, f, _, _, hfin⟩
    cases hfin

/-- **C47** (exactly what is accepted, whatever the automata): when one of the automata has a transition leaving its initial state, there is a word `u` that
does not block both and leads one of them (at least) to its initial state, such that the union accepts `w` iff one of them accepts `u ++ w`. When there is no such transition,
nothing is accepted. -/
theorem C47_exact {g1 g2 : Automaton A} {ord : SetOracle A} (h1 : g1.Reachable) (h2 : g2.Reachable) (ho : ord.Valid) :
    ∃ g, Returns (deterministicUnion ord g1 g2) (.ok g) ∧
      ((∃ a r, g1.After [a] (some r) ∨ g2.After [a] (some r)) →
        ∃ u, (g1.After u g1.initial ∨ g2.After u g2.initial) ∧ (∃ r, g1.After u (some r) ∨ g2.After u (some r)) ∧ ∀ w, g.Lang w ↔ g1.Lang (u ++ w) ∨ g2.Lang (u ++ w)) ∧
      ((¬ ∃ a r, g1.After [a] (some r) ∨ g2.After [a] (some r)) → ∀ w, ¬ g.Lang w) := by
  obtain ⟨s, L, k0, k1, k2⟩ := Product.union_spec ho h1.awf h2.awf
  have hwalk : ∀ u w, Product.walk g1 g2 (Pbfs.pairOf g1 g2 u) w = Pbfs.pairOf g1 g2 (u ++ w) := by
    intro u w
    rw [Product.walk_eq]
    simp [Pbfs.pairOf, deltaWord_append]
  have hl1 : ∀ w, g1.Lang w ↔ g1.isFinalO (Pbfs.pairOf g1 g2 w).1 = true := fun w => lang_iff_final h1.awf w
  have hl2 : ∀ w, g2.Lang w ↔ g2.isFinalO (Pbfs.pairOf g1 g2 w).2 = true := fun w => lang_iff_final h2.awf w
  have hne : ∀ w, g1.Lang w ∨ g2.Lang w → Pbfs.pairOf g1 g2 w ≠ Product.bot := by
    intro w h e
    rw [hl1, hl2, e] at h
    rcases h with h | h <;> cases h
  have hprefix : ∀ u v, Pbfs.pairOf g1 g2 (u ++ v) ≠ Product.bot → Pbfs.pairOf g1 g2 u ≠ Product.bot := by
    intro u v
    induction v using List.reverseRecOn with
    | nil => intro h; simpa using h
    | append_singleton v a ih => rw [← List.append_assoc]; intro h; exact ih (Pbfs.pairOf_init_ne h)
  have hfirst : (∃ a, Pbfs.nxt g1 g2 (startPair g1 g2) a ≠ Product.bot) ↔ ∃ a r, g1.After [a] (some r) ∨ g2.After [a] (some r) := by
    refine exists_congr fun a => ?_
    simp only [after_iff h1.awf, after_iff h2.awf]
    rw [show startPair g1 g2 = Pbfs.pairOf g1 g2 [] from rfl, ← Pbfs.pairOf_snoc, List.nil_append]
    unfold Pbfs.pairOf
    cases g1.deltaWord g1.initial [a] <;> cases g2.deltaWord g2.initial [a] <;> simp
  refine ⟨_, k0, ?_, ?_⟩
  · intro hex
    obtain ⟨a0, ha0⟩ := hfirst.mpr hex
    have hsL : (startPair g1 g2, a0) ∈ L := (k2 _ _).mpr ⟨⟨[], rfl⟩, ha0⟩
    obtain ⟨q', hq'⟩ := Option.ne_none_iff_exists'.mp ((k1.dom (startPair g1 g2)).mpr ⟨_, hsL, .inl rfl⟩)
    have hopS : (g1.isInitialO (startPair g1 g2).1 || g2.isInitialO (startPair g1 g2).2) = true := by simp [isInitialO, initial]
    obtain ⟨p, q, hp, hop, hq⟩ := k1.init _ _ hq' hopS
    obtain ⟨u, rfl, hub⟩ : ∃ u, p = Pbfs.pairOf g1 g2 u ∧ p ≠ Product.bot := by
      obtain ⟨x, hx, hxp⟩ := (k1.dom p).mp (by rw [hp]; simp)
      obtain ⟨⟨w, hw⟩, hn⟩ := (k2 x.1 x.2).mp hx
      rcases hxp with rfl | rfl
      · exact ⟨w, hw, by intro e; rw [e] at hn; exact hn rfl⟩
      · exact ⟨w ++ [x.2], by rw [Pbfs.pairOf_snoc, ← hw], hn⟩
    refine ⟨u, ?_, ?_, ?_⟩
    · simp only [isInitialO, Bool.or_eq_true, decide_eq_true_eq] at hop
      rcases hop with h | h
      · exact .inl ((after_iff h1.awf).mpr h.symm)
      · exact .inr ((after_iff h2.awf).mpr h.symm)
    · simp only [after_iff h1.awf, after_iff h2.awf]
      unfold Pbfs.pairOf at hub
      revert hub
      cases g1.deltaWord g1.initial u <;> cases g2.deltaWord g2.initial u <;> simp
    · intro w
      rw [k1.lang_start hp hq, hwalk]
      simp only [Bool.or_eq_true]
      rw [← hl1, ← hl2]
      constructor
      · exact fun h => h.2.2
      · intro h
        have hL : ∀ x a v, w = x ++ a :: v → (Product.walk g1 g2 (Pbfs.pairOf g1 g2 u) x, a) ∈ L := by
          intro x a v e
          rw [hwalk]
          refine (k2 _ _).mpr ⟨⟨u ++ x, rfl⟩, ?_⟩
          rw [← Pbfs.pairOf_snoc]
          refine hprefix (u ++ x ++ [a]) v ?_
          have := hne _ h
          rw [e] at this
          simpa using this
        refine ⟨hL, ?_, h⟩
        rcases List.eq_nil_or_concat w with rfl | ⟨x, a, rfl⟩
        · rw [List.append_nil, hp]; simp
        · rw [List.concat_eq_append] at hL ⊢
          have hm := hL x a [] rfl
          rw [hwalk] at hm
          rw [← List.append_assoc, Pbfs.pairOf_snoc, k1.dom]
          exact ⟨_, hm, .inr rfl⟩
  · intro hex
    have hex := fun h => hex (hfirst.mp h)
    have hbotw : ∀ w, w ≠ [] → Pbfs.pairOf g1 g2 w = Product.bot := by
      intro w hw
      by_contra hc
      cases w with
      | nil => exact hw rfl
      | cons a w =>
        have := hprefix [a] w (by simpa using hc)
        rw [← List.nil_append [a], Pbfs.pairOf_snoc] at this
        exact hex ⟨a, this⟩
    have hL : L = [] := by
      rw [List.eq_nil_iff_forall_not_mem]
      rintro ⟨p, a⟩ hpa
      obtain ⟨⟨w, rfl⟩, hb⟩ := (k2 p a).mp hpa
      rw [← Pbfs.pairOf_snoc] at hb
      exact hb (hbotw _ (by simp))
    subst hL
    exact fun w => k1.lang_empty w

/-- An automaton whose initial state was withdrawn. -/
def noInitialHistory : List (AOp Char) := [.addVertex, .addVertex, .addEdge 0 1 'b', .setInitial 0 false]

/-- The hypotheses of `C46_exact`, `C46_no_initial` and `C47_exact` are met: the automata of the counterexamples, and an automaton without initial state. -/
example : ∃ g1 g2 g3 : Automaton Char, Runs Automaton.exec Automaton.empty starHistory g1 ∧ Runs Automaton.exec Automaton.empty plusHistory g2 ∧
    Runs Automaton.exec Automaton.empty noInitialHistory g3 ∧ g1.q0 ≠ none ∧ g2.q0 ≠ none ∧ g3.q0 = none ∧
    (deterministicIntersection (fun _ s => s) g1 g2 5).map (fun r => r.toOption.map fun g => (g.accepts ['a'], g.accepts ['a', 'a'])) = some (some (true, false)) ∧
    (deterministicIntersection (fun _ s => s) g1 g3 5).map (fun r => r.toOption.map fun g => g.accepts []) = some none ∧
    (deterministicUnion (fun _ s => s) g2 g3 5).map (fun r => r.toOption.map fun g => g.accepts ['a', 'a']) = some (some true) :=
  ⟨_, _, _, rfl, rfl, rfl, by decide, by decide, by decide, by decide, by decide, by decide⟩

end PyBGL
