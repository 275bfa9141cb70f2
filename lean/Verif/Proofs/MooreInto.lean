import Verif.Model.MooreInto
import Verif.Proofs.Moore

/-!
# `moore_determination` into a given automaton is simulated by `moore_determination` into a new one
-/

namespace PyBGL
namespace MooreInto
open Automaton Moore
variable {D A : Type} [DecidableEq A]

/-- `P d g`: the object `d` represents the automaton `g`, whose state `q` is numbered `f q` in `d`. -/
structure Sim (o : DfaOps D A) (f : Nat → Nat) (P : D → Automaton A → Prop) : Prop where
  vertex : ∀ {d g}, P d g → AWF g → (o.addVertex d).1 = f g.lastVertexId ∧ P (o.addVertex d).2 g.addVertex.2
  final : ∀ {d g q}, P d g → P (o.setFinal d (f q)) (g.setFinal q)
  edge : ∀ {d g q r a}, P d g → AWF g → q ∈ g.vertices → r ∈ g.vertices → g.delta q a = none →
    ∃ d', o.addEdge d (f q) (f r) a = .ok d' ∧ P d' (g.setDelta q r a)

/-- Two states of the two programs. -/
structure Rel (f : Nat → Nat) (P : D → Automaton A → Prop) (s : State D) (s' : MooreState A) : Prop where
  dfa : P s.dfa s'.dfa
  map : ∀ k, s.map.get? k = (s'.map.get? k).map f
  todo : s.todo = s'.todo

variable {o : DfaOps D A} {f : Nat → Nat} {P : D → Automaton A → Prop} {nfa : Nfa A} {c : Bool}

theorem addState_rel (hS : Sim o f P) {d : D} {g : Automaton A} (hP : P d g) (hg : AWF g) {m m' : Dict (List Nat) Nat}
    (hm : ∀ k, m.get? k = (m'.get? k).map f) (qs : List Nat) :
    (addState o nfa d m qs).1 = f (Moore.addState nfa g m' qs).1 ∧ P (addState o nfa d m qs).2.1 (Moore.addState nfa g m' qs).2.1 ∧
    ∀ k, (addState o nfa d m qs).2.2.get? k = ((Moore.addState nfa g m' qs).2.2.get? k).map f := by
  obtain ⟨h1, h2⟩ := hS.vertex hP hg
  refine ⟨h1, ?_, ?_⟩
  · unfold addState Moore.addState
    simp only
    by_cases hf : qs.any nfa.isFinal = true
    · rw [if_pos hf, if_pos hf, h1]; exact hS.final h2
    · rw [if_neg hf, if_neg hf]; exact h2
  · intro k
    show (m.set qs (o.addVertex d).1).get? k = ((m'.set qs g.lastVertexId).get? k).map f
    rw [Dict.get?_set, Dict.get?_set, h1]
    split
    · rfl
    · exact hm k

/-- One symbol. -/
theorem symbolStep_rel (hS : Sim o f P) {cur : List Nat} {q : Nat} {dn : List A} {a : A} {s : State D} {s' : MooreState A} (hR : Rel f P s s')
    (h : MInv nfa c (DCur nfa c cur dn s') s') (hcur : s'.map.get? cur = some q) (ha : a ∈ subsetSigma nfa c cur) (hdn : a ∉ dn) :
    ∃ t t', symbolStep o nfa cur (f q) s a = .ok t ∧ Moore.symbolStep nfa cur q s' a = .ok t' ∧ Rel f P t t' := by
  have hreach : KReach nfa c (subsetStep nfa cur a) := by
    obtain ⟨w, hw⟩ := h.reach _ _ hcur
    exact ⟨w ++ [a], hw.snoc ⟨ha, rfl⟩⟩
  unfold symbolStep Moore.symbolStep
  cases hrs : s'.map.get? (subsetStep nfa cur a) with
  | some r =>
    have hD : ¬ DCur nfa c cur dn s' cur a := by rintro (⟨_, h2, _⟩ | ⟨_, h2⟩); exacts [h2 rfl, hdn h2]
    have hq := (h.verts q).2 ⟨_, hcur⟩
    have hr := (h.verts r).2 ⟨_, hrs⟩
    obtain ⟨d', h1, h2⟩ := hS.edge hR.dfa h.awf hq hr (h.free _ _ _ hcur hD)
    have hrs' : s.map.get? (subsetStep nfa cur a) = some (f r) := by rw [hR.map, hrs]; rfl
    refine ⟨{ s with dfa := d' }, { s' with dfa := s'.dfa.setDelta q r a }, ?_, ?_, ⟨h2, hR.map, hR.todo⟩⟩
    · simp [hrs', h1, bind, Except.bind]
    · simp [hrs, Automaton.addEdge_of_free (.inl (h.free _ _ _ hcur hD)) hq, bind, Except.bind]
  | none =>
    obtain ⟨h1, h2, h3, h4⟩ := h.addState hrs hreach
    have hD : ¬ (cur ≠ subsetStep nfa cur a ∧ DCur nfa c cur dn s' cur a) := by
      rintro ⟨_, ⟨_, h2, _⟩ | ⟨_, h2⟩⟩; exacts [h2 rfl, hdn h2]
    obtain ⟨k1, k2, k3⟩ := addState_rel (nfa := nfa) hS hR.dfa h.awf hR.map (subsetStep nfa cur a)
    have hq := (h1.verts q).2 ⟨_, h4 _ _ hcur⟩
    have hr := (h1.verts _).2 ⟨_, h2⟩
    have hfree := h1.free _ _ _ (h4 _ _ hcur) hD
    obtain ⟨d', e1, e2⟩ := hS.edge k2 h1.awf hq hr hfree
    rw [← k1] at e1
    have hrs' : s.map.get? (subsetStep nfa cur a) = none := by rw [hR.map, hrs]; rfl
    refine ⟨⟨d', (addState o nfa s.dfa s.map (subsetStep nfa cur a)).2.2, setAdd s.todo (subsetStep nfa cur a)⟩,
      ⟨(Moore.addState nfa s'.dfa s'.map (subsetStep nfa cur a)).2.1.setDelta q (Moore.addState nfa s'.dfa s'.map (subsetStep nfa cur a)).1 a,
        (Moore.addState nfa s'.dfa s'.map (subsetStep nfa cur a)).2.2, setAdd s'.todo (subsetStep nfa cur a)⟩, ?_, ?_, ⟨e2, k3, ?_⟩⟩
    · simp only [hrs']
      simp only [e1, bind, Except.bind]
    · simp only [hrs]
      rw [Automaton.addEdge_of_free (.inl hfree) hq]
      simp only [bind, Except.bind]
    · show setAdd s.todo _ = setAdd s'.todo _
      rw [hR.todo]

/-- All the symbols. -/
theorem symbols_rel (hS : Sim o f P) {cur : List Nat} {q : Nat} (l dn : List A) (hl : (dn ++ l).Nodup) (hs : ∀ a ∈ l, a ∈ subsetSigma nfa c cur)
    {s : State D} {s' : MooreState A} (hR : Rel f P s s') (h : MInv nfa c (DCur nfa c cur dn s') s') (hcur : s'.map.get? cur = some q) (hct : cur ∉ s'.todo) :
    ∃ t t', l.foldlM (symbolStep o nfa cur (f q)) s = .ok t ∧ l.foldlM (Moore.symbolStep nfa cur q) s' = .ok t' ∧ Rel f P t t' := by
  induction l generalizing dn s s' with
  | nil => exact ⟨s, s', rfl, rfl, hR⟩
  | cons a l ih =>
    have hdn : a ∉ dn := by
      intro ha
      have := List.nodup_append.1 hl
      exact this.2.2 a ha a (by simp) rfl
    obtain ⟨s1, e1, h1, hc1, ht1, -, -⟩ := symbolStep_inv h hcur hct (hs a (by simp)) hdn
    obtain ⟨t, t', k1, k2, k3⟩ := symbolStep_rel hS hR h hcur (hs a (by simp)) hdn
    rw [e1] at k2; cases k2
    obtain ⟨u, u', l1, l2, l3⟩ := ih (dn ++ [a]) (by simpa using hl) (fun b hb => hs b (by simp [hb])) k3 h1 hc1 ht1
    refine ⟨u, u', ?_, ?_, l3⟩
    · rw [List.foldlM_cons, k1]; exact l1
    · rw [List.foldlM_cons, e1]; exact l2

/-- One iteration of the `while` loop. -/
theorem step_rel (hS : Sim o f P) {pick : Nat → Nat} {order : Nat → List A → List A} (hord : ∀ t l, (order t l).Perm l) (t : Nat)
    {s : State D} {s' : MooreState A} (hR : Rel f P s s') (h : MInv nfa c (DOut nfa c s') s') :
    (step o nfa c pick order t s = .done s.dfa ∧ Moore.step nfa c pick order t s' = .done s'.dfa) ∨
    ∃ u u', step o nfa c pick order t s = .next u ∧ Moore.step nfa c pick order t s' = .next u' ∧ Rel f P u u' ∧ MInv nfa c (DOut nfa c u') u' := by
  unfold step Moore.step
  rw [hR.todo]
  cases hp : s'.todo[pick t % s'.todo.length]? with
  | none => exact .inl ⟨rfl, rfl⟩
  | some cur =>
    have hmem : cur ∈ s'.todo := List.mem_of_getElem? hp
    obtain ⟨q, hq⟩ := h.todoKey cur hmem
    have hq' : s.map.get? cur = some (f q) := by rw [hR.map, hq]; rfl
    simp only [Dict.getE_of_get? hq, Dict.getE_of_get? hq']
    have hpm := hord t (subsetSigma nfa c cur)
    have h0 : MInv nfa c (DCur nfa c cur [] { s' with todo := setDiscard s'.todo cur }) { s' with todo := setDiscard s'.todo cur } := by
      have h' : MInv nfa c (DOut nfa c s') { s' with todo := setDiscard s'.todo cur } :=
        { h with
          todoNodup := nodup_setDiscard h.todoNodup _
          todoKey := fun k hk => h.todoKey k ((mem_setDiscard _ _ _).1 hk).1 }
      refine h'.congr ?_
      intro k q' a hk
      simp only [DOut, DCur, mem_setDiscard, List.not_mem_nil, and_false, or_false]
      by_cases hkc : k = cur
      · subst hkc; simp [hmem]
      · simp [hkc]
    have hl : ([] ++ order t (subsetSigma nfa c cur)).Nodup := by simpa using hpm.nodup_iff.2 (nodup_subsetSigma nfa c cur)
    obtain ⟨s1, e1, h1, hc1, ht1, -, -⟩ := symbols_inv (order t (subsetSigma nfa c cur)) [] hl (fun a ha => hpm.mem_iff.1 ha) h0 hq (by simp)
    obtain ⟨u, u', k1, k2, k3⟩ := symbols_rel (c := c) hS (order t (subsetSigma nfa c cur)) [] hl (fun a ha => hpm.mem_iff.1 ha)
      (s := { s with todo := setDiscard s'.todo cur }) (s' := { s' with todo := setDiscard s'.todo cur }) ⟨hR.dfa, hR.map, rfl⟩ h0 hq (by simp)
    rw [e1] at k2; cases k2
    refine .inr ⟨u, s1, ?_, ?_, k3, ?_⟩
    · simp only [k1]
    · simp only [e1]
    · refine h1.congr ?_
      intro k q' a hk
      simp only [DOut, DCur, List.nil_append, hpm.mem_iff]
      by_cases hkc : k = cur
      · subst hkc; simp [ht1]
      · simp [hkc]

theorem loop_rel (hS : Sim o f P) {pick : Nat → Nat} {order : Nat → List A → List A} (hord : ∀ t l, (order t l).Perm l) (fuel : Nat) :
    ∀ (t : Nat) {s : State D} {s' : MooreState A}, Rel f P s s' → MInv nfa c (DOut nfa c s') s' → ∀ {g : Automaton A},
      loop (Moore.step nfa c pick order) fuel t s' = some (.ok g) → ∃ d, loop (step o nfa c pick order) fuel t s = some (.ok d) ∧ P d g := by
  induction fuel with
  | zero => intro t s s' _ _ g h; simp [loop] at h
  | succ n ih =>
    intro t s s' hR h g hg
    rcases step_rel (o := o) (pick := pick) hS hord t hR h with ⟨e1, e2⟩ | ⟨u, u', e1, e2, e3, e4⟩
    · simp only [loop, e2, Option.some.injEq, Except.ok.injEq] at hg
      subst hg
      exact ⟨s.dfa, by simp only [loop, e1], hR.dfa⟩
    · simp only [loop, e2] at hg
      obtain ⟨d, h1, h2⟩ := ih (t + 1) e3 e4 hg
      exact ⟨d, by simp only [loop, e1]; exact h1, h2⟩

/-- `moore_determination(nfa, dfa, complete)` returns, with an object that represents the result of `moore_determination(nfa, None, complete)`, provided that `dfa` represents a new automaton. -/
theorem run_rel (hS : Sim o f P) {pick : Nat → Nat} {order : Nat → List A → List A} (hord : ∀ t l, (order t l).Perm l) {d0 : D} (h0 : P d0 .empty) :
    ∃ d g, Returns (run o nfa d0 c pick order) (.ok d) ∧ Returns (Moore.run nfa c pick order) (.ok g) ∧ P d g := by
  obtain ⟨r, ⟨N, hN⟩, hp⟩ := Moore.run_spec nfa c pick order hord
  cases r with
  | error e => cases hp
  | ok g =>
    have hE : AWF (Automaton.empty : Automaton A) := Automaton.AWF_empty
    obtain ⟨-, k2, k3⟩ := addState_rel (nfa := nfa) hS h0 hE (m := []) (m' := []) (fun _ => rfl) (k0 nfa)
    have hR : Rel f P (start o nfa d0) (Moore.start nfa) := ⟨k2, k3, rfl⟩
    obtain ⟨d, h1, h2⟩ := loop_rel (o := o) hS hord N 0 hR (start_inv nfa c) (hN N (Nat.le_refl _))
    exact ⟨d, g, ⟨N, fun fuel hf => loop_mono _ h1 hf⟩, ⟨N, hN⟩, h2⟩

end MooreInto
end PyBGL
