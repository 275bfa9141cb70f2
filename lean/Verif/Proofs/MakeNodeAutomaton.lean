import Verif.Proofs.NodeAutomaton
import Verif.Proofs.MakeAutomaton
import Mathlib.Data.List.Sort

/-!
# `make_node_automaton`, words accepted by node automata
-/

namespace PyBGL
open Automaton
variable {A N : Type} [DecidableEq A] [DecidableEq N]

namespace NodeAutomaton

theorem delta_of_mem {g : NodeAutomaton A} {q : Nat} (hq : q ∈ g.vertices) (a : Option A) :
    g.delta q a = .ok (g.a.delta q a) := by
  obtain ⟨d, hd⟩ := (Dict.mem_keys_iff _ _).1 hq
  simp [delta, Dict.getE_of_get? hd, bind, Except.bind, Automaton.delta, Dict.getD, hd]

theorem delta_of_not_mem {g : NodeAutomaton A} {q : Nat} (hq : q ∉ g.vertices) (a : Option A) :
    g.delta q a = .error .keyError := by
  have : Dict.get? g.a.adj q = none := (Dict.get?_eq_none_iff _ _).2 hq
  simp [delta, Dict.getE, this, bind, Except.bind]

/-- `delta_word` does not raise from a state of the automaton, if the targets of the transitions are states. -/
theorem deltaWord_spec {g : NodeAutomaton A} (hc : ∀ q a r, g.a.delta q a = some r → r ∈ g.vertices) :
    ∀ (w : List A) (q : Nat), q ∈ g.vertices → g.deltaWord (some q) w = .ok (g.a.deltaWord (some q) (w.map some))
  | [], q, _ => rfl
  | a :: w, q, hq => by
    simp only [deltaWord, delta_of_mem hq, bind, Except.bind, List.map_cons, Automaton.deltaWord]
    cases h : g.a.delta q (some a) with
    | none => cases w <;> simp [deltaWord, Automaton.deltaWord]
    | some r => exact deltaWord_spec hc w r (hc _ _ _ h)

end NodeAutomaton

theorem mem_nodeNames (le : N → N → Bool) (ts : List (N × N)) (n : N) :
    n ∈ nodeNames le ts ↔ ∃ t ∈ ts, t.1 = n ∨ t.2 = n := by
  unfold nodeNames
  rw [List.mem_mergeSort, mem_mkSet, List.mem_append, List.mem_map, List.mem_map]
  constructor
  · rintro (⟨t, h, e⟩ | ⟨t, h, e⟩)
    · exact ⟨t, h, .inl e⟩
    · exact ⟨t, h, .inr e⟩
  · rintro ⟨t, h, e | e⟩
    · exact .inl ⟨t, h, e⟩
    · exact .inr ⟨t, h, e⟩

theorem nodup_nodeNames (le : N → N → Bool) (ts : List (N × N)) : (nodeNames le ts).Nodup := by
  unfold nodeNames
  exact (List.mergeSort_perm _ _).nodup_iff.2 (nodup_mkSet _)

/-- The names are listed in increasing order: there is no other such list. -/
theorem nodeNames_unique {le : N → N → Bool} (htot : ∀ a b, le a b || le b a) (htr : ∀ a b c, le a b → le b c → le a c)
    (has : ∀ a b, le a b → le b a → a = b) {ts : List (N × N)} {names : List N}
    (hs : names.Pairwise fun a b => le a b ∧ a ≠ b) (hm : ∀ n, n ∈ names ↔ ∃ t ∈ ts, t.1 = n ∨ t.2 = n) :
    nodeNames le ts = names := by
  have h1 : (nodeNames le ts).Pairwise fun a b => le a b = true := List.pairwise_mergeSort htr htot _
  have h2 : names.Pairwise fun a b => le a b = true := hs.imp fun h => h.1
  have h3 : names.Nodup := hs.imp fun h => h.2
  have h4 : (nodeNames le ts).Perm names :=
    (List.perm_ext_iff_of_nodup (nodup_nodeNames le ts) h3).2 fun n => by rw [mem_nodeNames, hm]
  haveI : Std.Antisymm fun a b => le a b = true := ⟨has⟩
  exact h4.eq_of_pairwise' h1 h2

theorem makeNodes_spec (ofInt : Nat → N) (vlabel : N → Option A) (vfinal : N → Bool) (names : List N) :
    let g := names.foldl (makeNode ofInt vlabel vfinal) NodeAutomaton.empty
    NodeAutomaton.WF g ∧ g.vertices = List.range names.length ∧ g.a.lastVertexId = names.length ∧
      (∀ q a, g.a.delta q a = none) ∧ (∀ q n, names[q]? = some n → g.symbol q = vlabel n) ∧
      ∀ q, g.a.isFinal q = true ↔ q < names.length ∧ vfinal (ofInt q) = true := by
  induction names using List.reverseRecOn with
  | nil => exact ⟨NodeAutomaton.WF_empty, rfl, rfl, fun _ _ => rfl, by simp, fun q => by
      simp [NodeAutomaton.empty, Automaton.empty, Automaton.isFinal, Dict.getD, Dict.get?]⟩
  | append_singleton names n ih =>
    obtain ⟨h1, h2, h3, h4, h5, h6⟩ := ih
    simp only [List.foldl_append, List.foldl_cons, List.foldl_nil]
    generalize names.foldl (makeNode ofInt vlabel vfinal) NodeAutomaton.empty = g at *
    have hu : (g.addVertex (vlabel n)).1 = g.a.lastVertexId := by cases vlabel n <;> rfl
    have hf : (g.addVertex (vlabel n)).2.a.final = g.a.final := by cases vlabel n <;> rfl
    have hl : (g.addVertex (vlabel n)).2.a.lastVertexId = g.a.lastVertexId + 1 := by cases vlabel n <;> rfl
    have hw := NodeAutomaton.WF_addVertex h1 (vlabel n)
    have hmk : ∃ d, makeNode ofInt vlabel vfinal g n = ⟨{ (g.addVertex (vlabel n)).2.a with final := d },
        (g.addVertex (vlabel n)).2.symbols⟩ ∧ ∀ q, Dict.getD d q false = true ↔
          (if q = g.a.lastVertexId ∧ vfinal (ofInt g.a.lastVertexId) then True else g.a.isFinal q = true) := by
      unfold makeNode
      simp only [hu]
      split
      · rename_i hv
        refine ⟨_, rfl, fun q => ?_⟩
        rw [hf]
        by_cases hq : q = g.a.lastVertexId
        · subst hq; simp [hv, Dict.getD, Dict.get?_set]
        · rw [if_neg (fun h => hq h.1)]
          simp [Dict.getD, Dict.get?_set_ne _ _ (Ne.symm hq), Automaton.isFinal]
      · rename_i hv
        refine ⟨(g.addVertex (vlabel n)).2.a.final, rfl, fun q => ?_⟩
        rw [hf, if_neg (fun h => hv h.2)]
        rfl
    obtain ⟨d, hd1, hd2⟩ := hmk
    rw [hd1]
    refine ⟨⟨⟨hw.out.outer, hw.out.inner, hw.out.lt⟩, hw.label, hw.closed, hw.symLt⟩, ?_, ?_, ?_, ?_, ?_⟩
    · show (g.addVertex (vlabel n)).2.a.vertices = _
      rw [NodeAutomaton.addVertex_a, vertices_addVertex h1.out]
      show g.vertices ++ _ = _
      rw [h2, h3, List.length_append, List.length_singleton, List.range_succ]
    · show (g.addVertex (vlabel n)).2.a.lastVertexId = _
      rw [hl, h3]; simp
    · intro q a
      show (g.addVertex (vlabel n)).2.a.delta q a = _
      rw [NodeAutomaton.addVertex_a, delta_addVertex h1.out, h4]
    · intro q m hq
      show (g.addVertex (vlabel n)).2.symbol q = _
      by_cases hql : q = g.a.lastVertexId
      · subst hql
        rw [NodeAutomaton.symbol_addVertex_self h1]
        rw [h3] at hq
        simp at hq
        rw [hq]
      · rw [NodeAutomaton.symbol_addVertex_ne g _ hql]
        apply h5
        rw [h3] at hql
        rcases Nat.lt_or_ge q names.length with hlt | hge
        · rwa [List.getElem?_append_left hlt] at hq
        · have := (List.getElem?_eq_some_iff.1 hq).1
          simp at this; omega
    · intro q
      show Dict.getD d q false = true ↔ _
      rw [hd2]
      split
      · rename_i h; obtain ⟨rfl, h⟩ := h
        simp [h3, h3 ▸ h]
      · rename_i h
        rw [h6]
        rw [h3] at h
        simp only [List.length_append, List.length_singleton]
        constructor
        · rintro ⟨a, b⟩; exact ⟨by omega, b⟩
        · rintro ⟨a, b⟩
          refine ⟨?_, b⟩
          by_contra hc
          have : q = names.length := by omega
          subst this
          exact h ⟨rfl, b⟩

theorem makeNodeEdges_spec {names : List N} {vlabel : N → Option A} (hnd : names.Nodup) :
    ∀ (ts dne : List (N × N)), (∀ t ∈ dne ++ ts, t.1 ∈ names ∧ t.2 ∈ names) →
    (∀ t ∈ dne ++ ts, ∀ t' ∈ dne ++ ts, t.1 = t'.1 → vlabel t.2 = vlabel t'.2 → t.2 = t'.2) →
    ∀ g : NodeAutomaton A, NodeAutomaton.WF g → g.vertices = List.range names.length →
    (∀ q n, names[q]? = some n → g.symbol q = vlabel n) →
    (∀ q a r, g.a.delta q a = some r ↔ ∃ t ∈ dne, names.idxOf t.1 = q ∧ vlabel t.2 = a ∧ names.idxOf t.2 = r) →
    ∃ g', ts.foldlM (makeNodeEdge names) g = .ok g' ∧ NodeAutomaton.WF g' ∧ g'.vertices = List.range names.length ∧
      g'.symbols = g.symbols ∧ g'.a.final = g.a.final ∧
      ∀ q a r, g'.a.delta q a = some r ↔
        ∃ t ∈ dne ++ ts, names.idxOf t.1 = q ∧ vlabel t.2 = a ∧ names.idxOf t.2 = r
  | [], dne, _, _, g, hw, hv, _, hd => ⟨g, rfl, hw, hv, rfl, rfl, by simpa using hd⟩
  | t :: ts, dne, hn, hdet, g, hw, hv, hsym, hd => by
    obtain ⟨h1, h2⟩ := hn t (by simp)
    have hq : names.idxOf t.1 ∈ g.vertices := by
      rw [hv, List.mem_range]; exact List.idxOf_lt_length_of_mem h1
    have hr : names.idxOf t.2 ∈ g.vertices := by
      rw [hv, List.mem_range]; exact List.idxOf_lt_length_of_mem h2
    have hget : names[names.idxOf t.2]? = some t.2 := by
      rw [List.getElem?_eq_getElem (List.idxOf_lt_length_of_mem h2), List.getElem_idxOf]
    have hs : g.symbol (names.idxOf t.2) = vlabel t.2 := hsym _ _ hget
    have key : ∃ g1, makeNodeEdge names g t = .ok g1 ∧ NodeAutomaton.WF g1 ∧ g1.vertices = List.range names.length ∧
        g1.symbols = g.symbols ∧ g1.a.final = g.a.final ∧
        ∀ q a r, g1.a.delta q a = some r ↔
          ∃ t' ∈ dne ++ [t], names.idxOf t'.1 = q ∧ vlabel t'.2 = a ∧ names.idxOf t'.2 = r := by
      cases hx : g.a.delta (names.idxOf t.1) (vlabel t.2) with
      | some r' =>
        refine ⟨g, ?_, hw, hv, rfl, rfl, ?_⟩
        · unfold makeNodeEdge
          rw [nameIndex_mem h1, nameIndex_mem h2]
          simp only [bind, Except.bind, (NodeAutomaton.addEdge_spec (names.idxOf t.2) hq).1 r' (by rw [hs]; exact hx)]
        · intro q a r
          rw [hd]
          obtain ⟨t', a1, a2, a3, a4⟩ := (hd _ _ _).1 hx
          have e1 : t'.1 = t.1 := (List.idxOf_inj (hn t' (by simp [a1])).1).1 a2
          have e2 := hdet t' (by simp [a1]) t (by simp) e1 a3
          have e3 : t' = t := Prod.ext e1 e2
          subst e3
          simp only [List.mem_append, List.mem_singleton]
          constructor
          · rintro ⟨x, hx, h⟩; exact ⟨x, .inl hx, h⟩
          · rintro ⟨x, hx | rfl, h⟩
            · exact ⟨x, hx, h⟩
            · exact ⟨_, a1, h⟩
      | none =>
        refine ⟨⟨g.a.setDelta (names.idxOf t.1) (names.idxOf t.2) (g.symbol (names.idxOf t.2)), g.symbols⟩, ?_,
          NodeAutomaton.WF_setDelta hw hq hr, (vertices_setDelta _ _ hq).trans hv, rfl, rfl, ?_⟩
        · unfold makeNodeEdge
          rw [nameIndex_mem h1, nameIndex_mem h2]
          simp only [bind, Except.bind, (NodeAutomaton.addEdge_spec (names.idxOf t.2) hq).2 (by rw [hs]; exact hx)]
        · intro q a r
          simp only
          rw [delta_setDelta, hs]
          simp only [List.mem_append, List.mem_singleton]
          by_cases hc : names.idxOf t.1 = q ∧ vlabel t.2 = a
          · rw [if_pos hc]
            obtain ⟨rfl, rfl⟩ := hc
            constructor
            · intro h; injection h with h; exact ⟨t, .inr rfl, rfl, rfl, h⟩
            · rintro ⟨t', h' | rfl, e1, e2, e3⟩
              · have := (hd _ _ _).2 ⟨t', h', e1, e2, rfl⟩
                rw [hx] at this; cases this
              · rw [e3]
          · rw [if_neg hc, hd]
            constructor
            · rintro ⟨t', h', e⟩; exact ⟨t', .inl h', e⟩
            · rintro ⟨t', h' | rfl, e1, e2, e3⟩
              · exact ⟨t', h', e1, e2, e3⟩
              · exact absurd ⟨e1, e2⟩ hc
    obtain ⟨g1, k1, k2, k3, k4, k5, k6⟩ := key
    obtain ⟨g', i1, i2, i3, i4, i5, i6⟩ := makeNodeEdges_spec hnd ts (dne ++ [t]) (by simpa using hn) (by simpa using hdet)
      g1 k2 k3 (by intro q n hqn; rw [NodeAutomaton.symbol, k4]; exact hsym q n hqn) k6
    refine ⟨g', ?_, i2, i3, i4.trans k4, i5.trans k5, by simpa using i6⟩
    rw [List.foldlM_cons, k1]; exact i1

end PyBGL
