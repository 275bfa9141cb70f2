import Verif.Proofs.BKTree

/-!
# `BKTree.search` when the distance is not a metric
-/

namespace PyBGL
namespace BKTree
open Automaton
variable {X : Type} {dist : X → X → Nat}

/-- A transition of the tree leads to a greater node. -/
theorem Inv.deltaWord_le {t : BKTree X} (h : Inv dist t) : ∀ (v : List Nat) {p y : Nat}, t.a.deltaWord (some p) v = some y → p ≤ y
  | [], p, y, e => by simp at e; omega
  | d :: v, p, y, e => by
    rw [deltaWord_cons] at e
    cases hd : t.a.delta p d with
    | none => simp [deltaO, hd, deltaWord_none] at e
    | some c =>
      simp only [deltaO, Option.bind_some, hd] at e
      have := h.mono _ _ _ hd
      have := h.deltaWord_le v e
      omega

theorem Inv.deltaWord_lt {t : BKTree X} (h : Inv dist t) {d : Nat} {v : List Nat} {p y : Nat}
    (e : t.a.deltaWord (some p) (d :: v) = some y) : p < y := by
  rw [deltaWord_cons] at e
  cases hd : t.a.delta p d with
  | none => simp [deltaO, hd, deltaWord_none] at e
  | some c =>
    simp only [deltaO, Option.bind_some, hd] at e
    have := h.mono _ _ _ hd
    have := h.deltaWord_le v e
    omega

/-- What the result of a search owes to one stored element `x`, for which the cut-off criterion is off by at most `n`. -/
def BoundPost (dist : X → X → Nat) (P : X → Prop) (w : X) (dMax : Option Nat) (n : Nat) :
    Except PyErr (Option (X × Option Nat)) → Prop
  | .error _ => False
  | .ok none => leInf n dMax = false
  | .ok (some (x, d)) => P x ∧ d = some (dist w x) ∧ leInf (dist w x) dMax = true ∧ dist w x ≤ n

theorem search_bound {t : BKTree X} (h : Inv dist t) (w : X) (dMax : Option Nat) {y₀ : Nat} {x₀ : X} {v₀ : List Nat} {n : Nat}
    (hv₀ : t.a.deltaWord (some 0) v₀ = some y₀) (hx₀ : t.elements.get? y₀ = some x₀) (hn₀ : dist w x₀ ≤ n)
    (hcut : ∀ p xp d v, t.a.deltaWord (some p) (d :: v) = some y₀ → t.elements.get? p = some xp →
      absDiff (dist x₀ xp) (dist w xp) ≤ n) :
    ∃ r, Returns (t.search dist w dMax none) r ∧ BoundPost dist (fun x => ∃ y, t.elements.get? y = some x) w dMax n r := by
  have hrun : ∀ fuel, t.search dist w dMax none fuel =
      loop (t.searchStep dist w) fuel 0 ⟨[0], none, dMax⟩ := by
    intro fuel; unfold search; rw [h.root]; rfl
  simp only [Returns, hrun]
  obtain ⟨W, hW⟩ := exists_weight (fun q => (t.a.outEdges q).map (·.target)) t.a.lastVertexId (by
    intro q c hc
    obtain ⟨e, he, rfl⟩ := List.mem_map.1 hc
    rw [mem_outEdges h.trie.wf] at he
    obtain ⟨rfl, he⟩ := he
    exact ⟨h.mono _ _ _ he, h.trie.wf.lt _ (h.trie.closed _ _ _ he)⟩)
  let P : X → Prop := fun x => ∃ y, t.elements.get? y = some x
  let LI : SearchState X → Prop := fun s =>
    (∀ q ∈ s.queue, ∃ v, t.a.deltaWord (some 0) v = some q) ∧
    ((∃ q ∈ s.queue, ∃ v, t.a.deltaWord (some q) v = some y₀) ∨ Settled s.best s.dBest n) ∧
    (∀ x, s.best = some x → P x ∧ s.dBest = some (dist w x) ∧ leInf (dist w x) dMax = true) ∧
    (s.best = none → s.dBest = dMax)
  refine loop_total _ LI (fun s => (s.queue.map W).sum) (BoundPost dist P w dMax n) ?_ ?_ ?_ ?_ 0
  · rintro tt ⟨queue, best, dBest⟩ s' ⟨hq, hy, hb, hn⟩ hs
    simp only at hq hy hb hn
    cases queue with
    | nil => simp [searchStep] at hs
    | cons u rest =>
      obtain ⟨vu, hvu⟩ := hq u (by simp)
      obtain ⟨xu, hxu⟩ := h.elem_of_reached hvu
      simp only [searchStep, element, Dict.getE_of_get? hxu] at hs
      obtain ⟨best', dBest', hbd, hbetter, hbest', hset, hb', hn'⟩ :
          ∃ best' dBest', (if leInf (dist w xu) dBest then (some xu, some (dist w xu)) else (best, dBest)) =
              (best', dBest') ∧
            (∀ c, dBest = some c → ∃ c', dBest' = some c' ∧ c' ≤ c) ∧ (best'.isSome ∨ best' = best) ∧
            Settled best' dBest' (dist w xu) ∧
            (∀ x, best' = some x → P x ∧ dBest' = some (dist w x) ∧ leInf (dist w x) dMax = true) ∧
            (best' = none → dBest' = dMax) := by
        by_cases hle : leInf (dist w xu) dBest = true
        · refine ⟨some xu, some (dist w xu), by rw [if_pos hle], ?_, .inl rfl, Nat.le_refl _, ?_, by simp⟩
          · intro c hc; subst hc
            exact ⟨_, rfl, by simpa [leInf] using hle⟩
          · intro x hx; cases hx
            refine ⟨⟨u, hxu⟩, rfl, ?_⟩
            cases hbest : best with
            | none => rw [← hn hbest]; exact hle
            | some x0 =>
              obtain ⟨_, h2, h3⟩ := hb x0 hbest
              rw [h2] at hle
              cases dMax with
              | none => rfl
              | some b => simp [leInf] at hle h3 ⊢; omega
        · refine ⟨best, dBest, by rw [if_neg hle], fun c hc => ⟨c, hc, Nat.le_refl _⟩, .inr rfl, ?_, hb, hn⟩
          cases dBest with
          | none => exact absurd rfl hle
          | some b =>
            have : b < dist w xu := by simpa [leInf] using hle
            cases best with
            | none => exact this
            | some _ => exact Nat.le_of_lt this
      rw [hbd] at hs
      simp only [Step.next.injEq] at hs
      subst hs
      refine ⟨⟨?_, ?_, hb', hn'⟩, ?_⟩
      · intro q hqm
        simp only [List.mem_append, List.mem_map, List.mem_filter] at hqm
        rcases hqm with hqm | ⟨e, ⟨he, _⟩, rfl⟩
        · exact hq q (by simp [hqm])
        · rw [mem_outEdges h.trie.wf] at he
          refine ⟨vu ++ [e.distinguisher], ?_⟩
          rw [deltaWord_snoc, hvu, ← he.1]; exact he.2
      · rcases hy with ⟨q, hqm, v', hv'⟩ | hs'
        · rcases List.mem_cons.1 hqm with rfl | hqm
          · cases v' with
            | nil =>
              simp at hv'; subst hv'
              rw [hxu] at hx₀; cases hx₀
              refine .inr ?_
              cases best' with
              | none => cases dBest' with
                | none => cases hset
                | some b => exact Nat.lt_of_lt_of_le hset hn₀
              | some _ => cases dBest' with
                | none => cases hset
                | some b => exact Nat.le_trans hset hn₀
            | cons d v' =>
              have hl := h.label vu d v' q y₀ xu x₀ hvu (by rw [deltaWord_append, hvu]; exact hv') hxu hx₀
              have hbound := hcut q xu d v' hv' hxu
              rw [hl] at hbound
              rw [deltaWord_cons] at hv'
              cases hd : t.a.delta q d with
              | none => simp [deltaO, hd, deltaWord_none] at hv'
              | some c =>
                simp only [deltaO, Option.bind_some, hd] at hv'
                by_cases hc : leInf (absDiff d (dist w xu)) dBest' = true
                · left
                  refine ⟨c, ?_, v', hv'⟩
                  simp only [List.mem_append, List.mem_map, List.mem_filter]
                  exact .inr ⟨⟨q, c, d⟩, ⟨(mem_outEdges h.trie.wf).2 ⟨rfl, hd⟩, hc⟩, rfl⟩
                · right
                  cases dBest' with
                  | none => exact absurd rfl hc
                  | some b =>
                    have hlt : b < n := by
                      have hc : ¬ absDiff d (dist w xu) ≤ b := fun hh => hc (decide_eq_true hh)
                      omega
                    cases best' with
                    | none => exact hlt
                    | some _ => exact Nat.le_of_lt hlt
          · exact .inl ⟨q, by simp [hqm], v', hv'⟩
        · exact .inr (hs'.better hbetter hbest')
      · simp only [List.map_append, List.sum_append, List.map_cons, List.sum_cons, List.map_map]
        rw [hW u, List.map_map]
        have := sum_map_filter_le (t.a.outEdges u) (fun e => leInf (absDiff e.distinguisher (dist w xu)) dBest')
          (W ∘ fun e => e.target)
        omega
  · rintro tt ⟨queue, best, dBest⟩ r ⟨hq, hy, hb, hn⟩ hs
    simp only at hq hy hb hn
    cases queue with
    | nil =>
      simp only [searchStep, Step.done.injEq] at hs
      subst hs
      have hs' : Settled best dBest n := by
        rcases hy with ⟨q, hq, _⟩ | hs'
        · simp at hq
        · exact hs'
      cases best with
      | none =>
        show leInf n dMax = false
        rw [hn rfl] at hs'
        cases dMax with
        | none => cases hs'
        | some b =>
          have : b < n := hs'
          simp [leInf]; omega
      | some x0 =>
        obtain ⟨h1, h2, h3⟩ := hb x0 rfl
        refine ⟨h1, h2, h3, ?_⟩
        rw [h2] at hs'; exact hs'
    | cons u rest =>
      obtain ⟨vu, hvu⟩ := hq u (by simp)
      obtain ⟨xu, hxu⟩ := h.elem_of_reached hvu
      simp [searchStep, element, Dict.getE_of_get? hxu] at hs
  · rintro tt ⟨queue, best, dBest⟩ e ⟨hq, hy, hb, hn⟩ hs
    cases queue with
    | nil => simp [searchStep] at hs
    | cons u rest =>
      obtain ⟨vu, hvu⟩ := hq u (by simp)
      obtain ⟨xu, hxu⟩ := h.elem_of_reached hvu
      simp [searchStep, element, Dict.getE_of_get? hxu] at hs
  · refine ⟨?_, .inl ⟨0, by simp, v₀, hv₀⟩, by simp, fun _ => rfl⟩
    intro q hq; simp at hq; subst hq; exact ⟨[], rfl⟩

end BKTree
end PyBGL
