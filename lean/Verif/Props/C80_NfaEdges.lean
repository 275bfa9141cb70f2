import Verif.Proofs.NfaWF

/-!
# C80: parallel transitions of `Nfa`
-/

namespace PyBGL
variable {A : Type} [DecidableEq A]
namespace Nfa

/-- Spec: how many times each transition `(q, a, r)` has been added since it was last removed. -/
def countStep (g : Nfa A) (c : Nat → A → Nat → Nat) : NfaOp A → Nat → A → Nat → Nat
  | .addVertex => fun q a r => if q = g.addVertex.1 then 0 else c q a r
  | .addEdge q r a => fun q' a' r' => if q' = q ∧ a' = a ∧ r' = r then c q a r + 1 else c q' a' r'
  | .removeEdge e => fun q a r =>
    if q = e.source ∧ a = e.distinguisher.1 ∧ r = e.target then 0 else c q a r
  | .removeVertex u => fun q a r => if q = u ∨ r = u then 0 else c q a r
  | .setInitial _ _ => c
  | .setInitials _ => c
  | .setFinal _ _ => c
  | .clear => fun _ _ _ => 0

/-- The NFA `g` has been obtained by calls to the public API during which the transitions were counted by `c`. -/
inductive CountHistory : Nfa A → (Nat → A → Nat → Nat) → Prop
  | init (eps : A) (qs : List Nat) : CountHistory (init eps qs 0) fun _ _ _ => 0
  | step {g g' : Nfa A} {c : Nat → A → Nat → Nat} {op : NfaOp A} :
    CountHistory g c → g.exec op = .ok g' → CountHistory g' (countStep g c op)

/-- The numbers stored for a transition. -/
def nums (g : Nfa A) (q : Nat) (a : A) (r : Nat) : Option (List Nat) :=
  ((g.adj.get? q).bind (·.get? a)).bind (·.get? r)

theorem mem_outEdges_nums {g : Nfa A} (hg : WF g) (q : Nat) (e : EdgeDesc (A × List Nat)) :
    e ∈ g.outEdges q ↔ e.source = q ∧ g.nums q e.distinguisher.1 e.target = some e.distinguisher.2 := by
  obtain ⟨q', r, a, s⟩ := e
  simp only [outEdges, List.mem_flatMap, List.mem_map, Dict.getD]
  cases hd : g.adj.get? q with
  | none => simp [nums, hd]
  | some d =>
    simp only [Option.getD_some, nums, hd, Option.bind_some]
    constructor
    · rintro ⟨⟨a', rn⟩, h1, ⟨r', s'⟩, h2, h3⟩
      cases h3
      have h1' := Dict.get?_of_mem (hg.mid _ _ hd) h1
      have h2' := Dict.get?_of_mem (hg.inner _ _ _ _ hd h1') h2
      exact ⟨rfl, by simp [h1', h2']⟩
    · rintro ⟨h0, h⟩
      cases h0
      cases h1 : d.get? a with
      | none => simp [h1] at h
      | some rn =>
        simp only [h1, Option.bind_some] at h
        exact ⟨(a, rn), Dict.mem_of_get? h1, (r, s), Dict.mem_of_get? h, rfl⟩

theorem mem_edges_nums {g : Nfa A} (hg : WF g) (e : EdgeDesc (A × List Nat)) :
    e ∈ g.edges ↔ g.nums e.source e.distinguisher.1 e.target = some e.distinguisher.2 := by
  obtain ⟨q, r, a, s⟩ := e
  have := mem_outEdges_nums hg q ⟨q, r, a, s⟩
  simp only [true_and] at this
  rw [← this]
  simp only [edges, outEdges, List.mem_flatMap, List.mem_map, Dict.getD]
  constructor
  · rintro ⟨⟨q', arn⟩, h1, t, h2, x, h3, h4⟩
    cases h4
    rw [Dict.get?_of_mem hg.outer h1]
    exact ⟨t, h2, x, h3, rfl⟩
  · rintro ⟨t, h2, x, h3, h4⟩
    cases hd : g.adj.get? q with
    | none => simp [hd] at h2
    | some arn =>
      rw [hd] at h2
      exact ⟨(q, arn), Dict.mem_of_get? hd, t, h2, x, h3, h4⟩

theorem nums_removeEdge {N : Type} {g : Nfa A} (hg : WF g) (e : EdgeDesc (A × N)) (q : Nat) (a : A) (r : Nat) :
    (g.removeEdge e).nums q a r =
      if q = e.source ∧ a = e.distinguisher.1 ∧ r = e.target then none else g.nums q a r := by
  unfold removeEdge
  split
  · rename_i h
    split
    · rename_i hc; obtain ⟨rfl, rfl, rfl⟩ := hc; simp [nums, h]
    · rfl
  · rename_i arn harn
    split
    · rename_i h
      split
      · rename_i hc; obtain ⟨rfl, rfl, rfl⟩ := hc; simp [nums, harn, h]
      · rfl
    · rename_i rn hrn
      split
      · simp only [nums, Dict.get?_set]
        by_cases hq : e.source = q
        · subst hq
          simp only [if_true, Option.bind_some, Dict.get?_set, true_and]
          by_cases ha : e.distinguisher.1 = a
          · subst ha
            simp only [if_true, Option.bind_some, Dict.get?_erase (hg.inner _ _ _ _ harn hrn), true_and, harn, hrn]
            by_cases hr : e.target = r
            · simp [hr]
            · simp [hr, Ne.symm hr]
          · simp [ha, Ne.symm ha, harn]
        · simp [hq, Ne.symm hq]
      · rename_i hn
        split
        · rename_i hc
          obtain ⟨rfl, rfl, rfl⟩ := hc
          simp only [nums, harn, hrn, Option.bind_some]
          simpa [Dict.contains] using hn
        · rfl

theorem nums_foldl_removeEdge {N : Type} : ∀ (es : List (EdgeDesc (A × N))) {g : Nfa A}, WF g → ∀ (q : Nat) (a : A) (r : Nat),
    (es.foldl removeEdge g).nums q a r =
      if ∃ e ∈ es, q = e.source ∧ a = e.distinguisher.1 ∧ r = e.target then none else g.nums q a r
  | [], g, _, q, a, r => by simp
  | e :: es, g, hg, q, a, r => by
    rw [List.foldl_cons, nums_foldl_removeEdge es (hg.removeEdge e), nums_removeEdge hg]
    by_cases h1 : ∃ e ∈ es, q = e.source ∧ a = e.distinguisher.1 ∧ r = e.target
    · rw [if_pos h1, if_pos]
      obtain ⟨x, hx, h⟩ := h1
      exact ⟨x, by simp [hx], h⟩
    · rw [if_neg h1]
      by_cases h2 : q = e.source ∧ a = e.distinguisher.1 ∧ r = e.target
      · rw [if_pos h2, if_pos ⟨e, by simp, h2⟩]
      · rw [if_neg h2, if_neg]
        rintro ⟨x, hx, h⟩
        rcases List.mem_cons.1 hx with rfl | hx
        · exact h2 h
        · exact h1 ⟨x, hx, h⟩

theorem nums_removeVertex {g g' : Nfa A} (hg : WF g) {u : Nat} (h : g.removeVertex u = .ok g') (q : Nat) (a : A) (r : Nat) :
    g'.nums q a r = if q = u ∨ r = u then none else g.nums q a r := by
  unfold removeVertex at h
  simp only at h
  obtain ⟨adj, h1, h2⟩ := except_bind_ok.1 h
  have hw1 := hg.foldl_removeEdge (g.edges.filter fun e => u = e.target)
  have hw := hw1.foldl_removeEdge (((g.edges.filter fun e => u = e.target).foldl Nfa.removeEdge g).outEdges u)
  rw [Dict.delE_ok_iff] at h1
  obtain ⟨_, rfl⟩ := h1
  cases h2
  by_cases hq : q = u
  · subst hq
    simp [nums, Dict.get?_erase hw.outer]
  · have h3 : ∀ g'' : Nfa A, WF g'' →
        nums { g'' with adj := g''.adj.erase u } q a r = g''.nums q a r := by
      intro g'' hw''
      simp only [nums, Dict.get?_erase hw''.outer]
      rw [if_neg (fun e => hq e.symm)]
    rw [h3 _ hw, nums_foldl_removeEdge _ hw1, nums_foldl_removeEdge _ hg]
    have hn2 : ¬ ∃ e ∈ ((g.edges.filter fun e => u = e.target).foldl Nfa.removeEdge g).outEdges u,
        q = e.source ∧ a = e.distinguisher.1 ∧ r = e.target := by
      rintro ⟨e, he, h4, _⟩
      exact hq (h4.trans ((mem_outEdges_nums hw1 _ _).1 he).1)
    rw [if_neg hn2]
    by_cases hr : r = u
    · subst hr
      have : (if q = r ∨ r = r then none else g.nums q a r) = none := if_pos (.inr rfl)
      rw [this]
      split
      · rfl
      · rename_i hn
        cases hs : g.nums q a r with
        | none => rfl
        | some s =>
          refine absurd ⟨⟨q, r, (a, s)⟩, ?_, rfl, rfl, rfl⟩ hn
          rw [List.mem_filter]
          exact ⟨(mem_edges_nums hg _).2 hs, by simp⟩
    · have hn1 : ¬ ∃ e ∈ g.edges.filter fun e => u = e.target,
          q = e.source ∧ a = e.distinguisher.1 ∧ r = e.target := by
        rintro ⟨e, he, _, _, h5⟩
        rw [List.mem_filter] at he
        have := he.2
        simp only [decide_eq_true_eq] at this
        exact hr (h5.trans this.symm)
      rw [if_neg hn1, if_neg (by simp [hq, hr])]

theorem nums_addEdge (g : Nfa A) (q r : Nat) (a : A) (q' : Nat) (a' : A) (r' : Nat) :
    (g.addEdge q r a).2.nums q' a' r' =
      if q' = q ∧ a' = a ∧ r' = r then
        some (setAdd ((g.nums q a r).getD []) (((g.nums q a r).getD []).length + 1))
      else g.nums q' a' r' := by
  have hN : (((g.adj.getD q []).getD a []).getD r []) = (g.nums q a r).getD [] := by
    simp only [nums, Dict.getD]
    cases g.adj.get? q with
    | none => simp
    | some d =>
      simp only [Option.getD_some, Option.bind_some]
      cases d.get? a with
      | none => simp
      | some rn => simp
  simp only [nums, addEdge, Dict.get?_set]
  by_cases hq : q = q'
  · subst hq
    simp only [if_true, Option.bind_some, Dict.get?_set, true_and]
    by_cases ha : a = a'
    · subst ha
      simp only [if_true, Option.bind_some, Dict.get?_set, true_and]
      by_cases hr : r = r'
      · subst hr
        simp only [if_true, hN]
        rfl
      · simp only [hr, Ne.symm hr, if_false, Dict.getD]
        cases g.adj.get? q with
        | none => simp
        | some d =>
          simp only [Option.getD_some, Option.bind_some]
          cases d.get? a <;> simp
    · simp only [ha, Ne.symm ha, if_false, false_and, Dict.getD]
      cases g.adj.get? q <;> simp
  · simp [hq, Ne.symm hq]

/-- The numbers `1, …, k`. -/
def upTo (k : Nat) : List Nat := (List.range k).map (· + 1)

theorem history_nums {g : Nfa A} {c : Nat → A → Nat → Nat} (h : CountHistory g c) :
    WF g ∧ ∀ q a r, g.nums q a r = if c q a r = 0 then none else some (upTo (c q a r)) := by
  induction h with
  | init eps qs => exact ⟨WF_init eps qs 0, fun q a r => by simp [nums, Nfa.init]⟩
  | @step g g' c op h hop ih =>
    refine ⟨WF_exec ih.1 hop, fun q a r => ?_⟩
    obtain ⟨hw, ih⟩ := ih
    cases op with
    | addVertex =>
      cases hop
      simp only [nums, Nfa.addVertex, Dict.get?_set, countStep]
      by_cases hq : q = g.lastVertexId
      · simp [hq]
      · have hq' : ¬ g.lastVertexId = q := fun e => hq e.symm
        simp only [hq, hq', if_false]
        exact ih q a r
    | addEdge q' r' a' =>
      cases hop
      rw [nums_addEdge]
      simp only [countStep]
      split
      · simp only [Nat.add_eq_zero_iff, Nat.one_ne_zero, and_false, if_false, Option.some.injEq]
        have h1 : (g.nums q' a' r').getD [] = upTo (c q' a' r') := by
          rw [ih]
          split
          · rename_i h0; simp [h0, upTo]
          · rfl
        rw [h1]
        have h2 : (upTo (c q' a' r')).length = c q' a' r' := by simp [upTo]
        have h3 : c q' a' r' + 1 ∉ upTo (c q' a' r') := by simp [upTo]
        rw [h2, setAdd, if_neg h3]
        simp [upTo, List.range_succ]
      · exact ih q a r
    | removeEdge e =>
      cases hop
      rw [nums_removeEdge hw]
      simp only [countStep]
      split
      · simp
      · exact ih q a r
    | removeVertex u =>
      rw [nums_removeVertex hw hop]
      simp only [countStep]
      split
      · simp
      · exact ih q a r
    | setInitial q b => cases hop; exact ih _ _ _
    | setInitials q => cases hop; exact ih _ _ _
    | setFinal q b => cases hop; exact ih _ _ _
    | clear =>
      simp only [exec] at hop
      rw [clear_spec hw] at hop; cases hop
      simp [nums, countStep]

end Nfa
open Nfa

/-- **C80.** `edges()` yields exactly one descriptor per transition `(q, a, r)` added and not removed since; its
distinguisher carries the numbers `1, …, k` of its `k` parallel copies. -/
theorem C80_edges {g : Nfa A} {c : Nat → A → Nat → Nat} (h : CountHistory g c) (q r : Nat) (a : A) (s : List Nat) :
    (⟨q, r, (a, s)⟩ : EdgeDesc (A × List Nat)) ∈ g.edges ↔ 0 < c q a r ∧ s = (List.range (c q a r)).map (· + 1) := by
  obtain ⟨hw, hn⟩ := history_nums h
  rw [mem_edges_nums hw]
  simp only [hn]
  by_cases h0 : c q a r = 0
  · simp [h0]
  · simp only [if_neg h0, Option.some.injEq, upTo]
    exact ⟨fun e => ⟨by omega, e.symm⟩, fun e => e.2.symm⟩

/-- **C80.** `out_edges(q)` yields those whose source is `q`. -/
theorem C80_out_edges {g : Nfa A} {c : Nat → A → Nat → Nat} (h : CountHistory g c) (q : Nat) (e : EdgeDesc (A × List Nat)) :
    e ∈ g.outEdges q ↔ e ∈ g.edges ∧ e.source = q := by
  obtain ⟨hw, _⟩ := history_nums h
  rw [mem_edges_nums hw, mem_outEdges_nums hw]
  constructor
  · rintro ⟨rfl, h⟩; exact ⟨h, rfl⟩
  · rintro ⟨h, rfl⟩; exact ⟨rfl, h⟩

/-- **C80.** `add_edge(q, r, a)` returns a descriptor numbered after the parallel copies already there. -/
theorem C80_add_edge {g : Nfa A} {c : Nat → A → Nat → Nat} (h : CountHistory g c) (q r : Nat) (a : A) :
    (g.addEdge q r a).1 = ⟨q, r, (a, c q a r + 1)⟩ := by
  obtain ⟨_, hn⟩ := history_nums h
  have hN : (((g.adj.getD q []).getD a []).getD r []) = (g.nums q a r).getD [] := by
    simp only [nums, Dict.getD]
    cases g.adj.get? q with
    | none => simp
    | some d =>
      simp only [Option.getD_some, Option.bind_some]
      cases d.get? a with
      | none => simp
      | some rn => simp
  simp only [Nfa.addEdge, hN, hn]
  by_cases h0 : c q a r = 0
  · simp [h0]
  · simp [h0, upTo]

/-- **C80.** Every NFA produced by the public API has such a history. -/
theorem C80_history {g : Nfa A} (h : g.Reachable) : ∃ c, CountHistory g c := by
  obtain ⟨eps, qs, ops, h⟩ := h
  exact Runs.invariant (Inv := fun g => ∃ c, CountHistory g c) ⟨_, .init eps qs⟩
    (fun s op s' hs h => by obtain ⟨c, hc⟩ := hs; exact ⟨_, hc.step h⟩) h

/-- Two parallel copies, then the removal of one of them, which removes both. -/
example : ((((Nfa.init 'ε' [] 2).addEdge 0 1 'a').2.addEdge 0 1 'a').2.edges = [⟨0, 1, ('a', [1, 2])⟩]) ∧
    (((((Nfa.init 'ε' [] 2).addEdge 0 1 'a').2.addEdge 0 1 'a').2.removeEdge ⟨0, 1, ('a', 1)⟩).edges = []) := by decide

end PyBGL
