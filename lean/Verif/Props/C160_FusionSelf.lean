import Verif.Model.FusionSelf
import Verif.Proofs.ProductAlias
import Verif.Proofs.HopcroftBuild
import Verif.Props.C16_C20_Fusion

/-!
# C160: a trie inserted in itself
-/

namespace PyBGL
open Automaton
variable {A : Type} [DecidableEq A]

namespace FusionSelf

omit [DecidableEq A] in
theorem setFinal_same {g : Automaton A} {q : Nat} : (if g.isFinalO (some q) then g.setFinal q else g) = g := by
  split
  · next h =>
    have h' : g.final.get? q = some true := by
      change g.final.getD q false = true at h
      unfold Dict.getD at h
      cases hq : g.final.get? q with
      | none => rw [hq] at h; cases h
      | some b => rw [hq] at h; exact congrArg some h
    unfold Automaton.setFinal
    rw [Hopcroft.Dict.set_self h']
  · rfl

/-- The trie is the one given, and the queue holds pairs of equal states. -/
def Inv (g : Automaton A) (s : PbfsState (Fusion A)) : Prop := s.st.g1 = g ∧ ∀ p ∈ s.queue, ∃ n, p = (some n, some n)

theorem symbol {g : Automaton A} {n r : Nat} {a : A} (hr : g.delta n a = some r) (s : PbfsState (Fusion A)) (hs : Inv g s) :
    pbfsSymbolA Fusion.g1 Fusion.g1 fusionPush fusionVisitorSelf (some n) (some n) a s = pbfsSymbol Fusion.g1 g fusionPush (fusionVisitor g) (some n) (some n) a s ∧
      ∀ s', pbfsSymbol Fusion.g1 g fusionPush (fusionVisitor g) (some n) (some n) a s = .ok s' → Inv g s' := by
  obtain ⟨color, ⟨m, g1⟩, queue⟩ := s
  obtain ⟨hg, hq⟩ := hs
  simp only at hg hq
  subst hg
  have hd : g1.deltaO (some n) a = some r := hr
  have he : getEdge g1 (some n) (some r) a = some ⟨n, some r, a⟩ := by simp [getEdge, hr]
  have hc : ∀ vis : Visitor (PEvent A) (Fusion A), (∀ s, vis (.treeEdge (some ⟨n, some r, a⟩) (some ⟨n, some r, a⟩) a) s = .ok s) →
      (∀ s, vis (.discover (some r) (some r)) s = .ok s) → (∀ s, vis (.grayTarget (some ⟨n, some r, a⟩) (some ⟨n, some r, a⟩) a) s = .ok s) →
      (∀ s, vis (.blackTarget (some ⟨n, some r, a⟩) (some ⟨n, some r, a⟩) a) s = .ok s) →
      pbfsClassify fusionPush vis (some ⟨n, some r, a⟩) (some ⟨n, some r, a⟩) a (some r) (some r) ⟨color, ⟨m, g1⟩, queue⟩ =
        match colorOf color (some r, some r) with
        | .white => .ok ⟨color.set (some r, some r) .gray, ⟨m, g1⟩, queue ++ [(some r, some r)]⟩
        | _ => .ok ⟨color, ⟨m, g1⟩, queue⟩ := by
    intro vis h1 h2 h3 h4
    unfold pbfsClassify
    simp only [emit_cons, emit_nil, h1, h2, h3, h4, fusionPush, Option.isSome_some, if_true]
    cases colorOf color (some r, some r) <;> rfl
  have hf : (if g1.isFinalO (some r) then g1.setFinal r else g1) = g1 := setFinal_same
  unfold pbfsSymbolA pbfsSymbol
  simp only [hd, he, fusionVisitorSelf, fusionVisitor, fusionTarget, Option.bind_some, hf]
  rw [hc fusionVisitorSelf (fun _ => rfl) (fun _ => rfl) (fun _ => rfl) (fun _ => rfl), hc (fusionVisitor g1) (fun _ => rfl) (fun _ => rfl) (fun _ => rfl) (fun _ => rfl)]
  refine ⟨rfl, fun s' h => ?_⟩
  split at h
  · cases h
    refine ⟨rfl, fun p hp => ?_⟩
    rcases List.mem_append.1 hp with hp | hp
    · exact hq p hp
    · exact ⟨r, List.mem_singleton.1 hp⟩
  · cases h
    exact ⟨rfl, hq⟩

theorem symbols {g : Automaton A} {n : Nat} (as : List A) (has : ∀ a ∈ as, g.delta n a ≠ none) : ∀ (s : PbfsState (Fusion A)), Inv g s →
    pbfsSymbolsA Fusion.g1 Fusion.g1 fusionPush fusionVisitorSelf (some n) (some n) as s = pbfsSymbols Fusion.g1 g fusionPush (fusionVisitor g) (some n) (some n) as s ∧
      ∀ s', pbfsSymbols Fusion.g1 g fusionPush (fusionVisitor g) (some n) (some n) as s = .ok s' → Inv g s' := by
  induction as with
  | nil => intro s hs; exact ⟨rfl, fun s' h => by cases h; exact hs⟩
  | cons a as ih =>
    intro s hs
    obtain ⟨r, hr⟩ := Option.ne_none_iff_exists'.mp (has a (List.mem_cons_self ..))
    obtain ⟨k1, k2⟩ := symbol hr s hs
    unfold pbfsSymbolsA pbfsSymbols
    rw [k1]
    cases hv : pbfsSymbol Fusion.g1 g fusionPush (fusionVisitor g) (some n) (some n) a s with
    | error e => exact ⟨rfl, fun _ h => by cases h⟩
    | ok s1 => exact ih (fun a ha => has a (List.mem_cons_of_mem _ ha)) s1 (k2 _ hv)

theorem step {g : Automaton A} {ord : SetOracle A} (ho : ord.Valid) (t : Nat) (s : PbfsState (Fusion A)) (hs : Inv g s) :
    pbfsStepA ord Fusion.g1 Fusion.g1 fusionPush fusionVisitorSelf t s = pbfsStep ord Fusion.g1 g fusionPush (fusionVisitor g) t s ∧
      (∀ s', pbfsStep ord Fusion.g1 g fusionPush (fusionVisitor g) t s = .next s' → Inv g s') ∧
      ∀ r, pbfsStep ord Fusion.g1 g fusionPush (fusionVisitor g) t s = .done r → r.2.g1 = g := by
  obtain ⟨color, ⟨m, g1⟩, queue⟩ := s
  obtain ⟨hg, hq⟩ := hs
  simp only at hg hq
  subst hg
  unfold pbfsStepA pbfsStep
  cases queue with
  | nil => exact ⟨rfl, fun _ h => (by cases h), fun r h => (by cases h; rfl)⟩
  | cons p queue =>
    obtain ⟨n, rfl⟩ := hq p (List.mem_cons_self ..)
    simp only [fusionVisitorSelf, fusionVisitor]
    obtain ⟨k1, k2⟩ := symbols (g := g1) (n := n) (ord t (setUnion (g1.sigmaO (some n)) (g1.sigmaO (some n)))) (fun a ha => by
      have := (ho t _).mem_iff.mp ha
      rw [mem_setUnion, or_self_iff] at this
      exact Fuse.mem_sigmaO.mp this) ⟨color, ⟨m, g1⟩, queue⟩ ⟨rfl, fun p hp => hq p (List.mem_cons_of_mem _ hp)⟩
    rw [k1]
    cases hv : pbfsSymbols Fusion.g1 g1 fusionPush (fusionVisitor g1) (some n) (some n) (ord t (setUnion (g1.sigmaO (some n)) (g1.sigmaO (some n)))) ⟨color, ⟨m, g1⟩, queue⟩ with
    | error e => exact ⟨rfl, fun _ h => (by cases h), fun _ h => (by cases h)⟩
    | ok s1 =>
      refine ⟨rfl, fun s' h => ?_, fun _ h => by cases h⟩
      cases h
      exact ⟨(k2 _ hv).1, (k2 _ hv).2⟩

end FusionSelf

/-- **C160**: `trie.insert(trie)` terminates without raising, whatever the order in which symbols are enumerated, and leaves the trie exactly as it was. -/
theorem C160_insert_self {g : Automaton A} (hg : Trie.Made g) {ord : SetOracle A} (ho : ord.Valid) : Returns (trieFusionSelf ord g) (.ok g) := by
  have h0 : g.initial = some 0 := hg.inv.init
  have hstart : ∀ s : Fusion A, s.g1 = g → (if g.isFinalO (some 0) then s.g1.setFinalO (some 0) else s.g1) = g := by
    intro s hs
    rw [hs]
    exact FusionSelf.setFinal_same
  have hinit : FusionSelf.Inv g ⟨[], ⟨Dict.set [] (some 0) (some 0), g⟩, [(some 0, some 0)]⟩ :=
    ⟨rfl, fun p hp => ⟨0, List.mem_singleton.1 hp⟩⟩
  have e1 : ∀ fuel, trieFusionSelf ord g fuel =
      (loop (pbfsStepA ord Fusion.g1 Fusion.g1 fusionPush fusionVisitorSelf) fuel 0 ⟨[], ⟨Dict.set [] (some 0) (some 0), g⟩, [(some 0, some 0)]⟩).map (·.map (·.2.g1)) := by
    intro fuel
    unfold trieFusionSelf pbfsA
    simp only [h0, fusionVisitorSelf]
    rw [hstart ⟨[], g⟩ rfl]
  have e2 : ∀ fuel, trieFusion ord g g fuel =
      (loop (pbfsStep ord Fusion.g1 g fusionPush (fusionVisitor g)) fuel 0 ⟨[], ⟨Dict.set [] (some 0) (some 0), g⟩, [(some 0, some 0)]⟩).map (·.map (·.2.g1)) := by
    intro fuel
    unfold trieFusion pbfs
    simp only [h0, List.map_cons, List.map_nil, emit_cons, emit_nil, fusionVisitor]
    rw [hstart ⟨[], g⟩ rfl]
  have he : trieFusionSelf ord g = trieFusion ord g g := by
    funext fuel
    rw [e1, e2, loop_congr (I := FusionSelf.Inv g) (fun t s hs => (FusionSelf.step ho t s hs).1) (fun t s s' hs hn => (FusionSelf.step ho t s hs).2.1 s' hn) fuel 0 _ hinit]
  obtain ⟨g', hr, _⟩ := C16_language hg hg ho
  have hg' : g' = g := by
    obtain ⟨N, hN⟩ := hr
    have hN := hN N (Nat.le_refl _)
    rw [e2] at hN
    cases hl : loop (pbfsStep ord Fusion.g1 g fusionPush (fusionVisitor g)) N 0 ⟨[], ⟨Dict.set [] (some 0) (some 0), g⟩, [(some 0, some 0)]⟩ with
    | none => rw [hl] at hN; cases hN
    | some r =>
      rw [hl] at hN
      have hp := loop_partial (pbfsStep ord Fusion.g1 g fusionPush (fusionVisitor g)) (FusionSelf.Inv g) (fun r => ∀ x, r = .ok x → x.2.g1 = g)
        (fun t s s' hs hn => (FusionSelf.step ho t s hs).2.1 s' hn) (fun t s r hs hd x hx => by cases hx; exact (FusionSelf.step ho t s hs).2.2 r hd)
        (fun _ _ _ _ _ x hx => by cases hx) hinit hl
      cases r with
      | error e => cases hN
      | ok x =>
        have := hp x rfl
        simp only [Option.map_some, Except.map, Option.some.injEq, Except.ok.injEq] at hN
        exact hN.symm.trans this
  rw [he, ← hg']
  exact hg' ▸ hr

/-- The hypotheses are met: a trie that holds the words `ab` and `c` and the empty word. -/
example : ∃ g1 g2 g3 : Automaton Char, Trie.insert Trie.new ['a', 'b'] = .ok g1 ∧ Trie.insert g1 ['c'] = .ok g2 ∧ Trie.insert g2 [] = .ok g3 ∧ Trie.Made g3 ∧
    trieFusionSelf (fun _ s => s) g3 20 = some (.ok g3) ∧ g3.accepts ['a', 'b'] = true ∧ g3.accepts [] = true ∧ g3.accepts ['a'] = false :=
  ⟨_, _, _, rfl, rfl, rfl, .word (.word (.word .new ['a', 'b'] rfl) ['c'] rfl) [] rfl, rfl, by decide, by decide, by decide⟩

end PyBGL
