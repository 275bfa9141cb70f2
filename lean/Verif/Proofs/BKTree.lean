import Verif.Model.BKTree
import Verif.Spec.Edit
import Verif.Proofs.TrieLemmas
import Verif.Proofs.Weight

/-!
# Proofs about `BKTree`
-/

namespace PyBGL
namespace BKTree
open Automaton
variable {X : Type} {dist : X → X → Nat}

/-- Invariant of a non-empty tree. -/
structure Inv (dist : X → X → Nat) (t : BKTree X) : Prop where
  trie : TrieInv t.a
  root : t.root = some 0
  mono : ∀ q d r, t.a.delta q d = some r → q < r
  elems : ∀ q, q ∈ t.a.vertices ↔ ∃ x, t.elements.get? q = some x
  label : ∀ u d v p y xp xy, t.a.deltaWord (some 0) u = some p → t.a.deltaWord (some 0) (u ++ d :: v) = some y →
    t.elements.get? p = some xp → t.elements.get? y = some xy → dist xy xp = d
  inj : ∀ p q x, t.elements.get? p = some x → t.elements.get? q = some x → p = q
  nodup : Dict.NodupKeys t.elements

/-- The elements stored in a tree: `element(u)` for the vertices `u`. -/
def Stored (t : BKTree X) (x : X) : Prop := ∃ u ∈ t.a.vertices, t.element u = .ok x

theorem stored_iff {t : BKTree X} (h : Inv dist t) (x : X) : t.Stored x ↔ ∃ u, t.elements.get? u = some x := by
  unfold Stored element
  constructor
  · rintro ⟨u, _, hu⟩; exact ⟨u, (Dict.getE_ok_iff _ _ _).1 hu⟩
  · rintro ⟨u, hu⟩; exact ⟨u, (h.elems u).2 ⟨x, hu⟩, Dict.getE_of_get? hu⟩

theorem Inv.elem_of_reached {t : BKTree X} (h : Inv dist t) {u : List Nat} {q : Nat}
    (hu : t.a.deltaWord (some 0) u = some q) : ∃ x, t.elements.get? q = some x :=
  (h.elems q).1 (h.trie.reached hu)

theorem inv_first (w : X) : Inv dist { (empty.addVertex w).2 with root := some 0 } := by
  have hT : TrieInv (Trie.new : Automaton Nat) := TrieInv.new
  have hd : ∀ q a, (Trie.new : Automaton Nat).delta q a = none := by
    intro q a
    show Dict.get? (Dict.getD [(0, [])] q []) a = none
    unfold Dict.getD
    by_cases h : (0 : Nat) = q <;> simp [Dict.get?, h]
  have ha : (empty.addVertex w : Nat × BKTree X).2.a = Trie.new := rfl
  have he : (empty.addVertex w : Nat × BKTree X).2.elements = [(0, w)] := rfl
  refine ⟨hT, rfl, ?_, ?_, ?_, ?_, ?_⟩
  · intro q d r h
    change (Trie.new : Automaton Nat).delta q d = some r at h
    rw [hd] at h; cases h
  · intro q
    show q ∈ (Trie.new : Automaton Nat).vertices ↔ ∃ x, Dict.get? [(0, w)] q = some x
    rw [hT.mem_vertices]
    show q < 1 ↔ _
    constructor
    · intro h
      have : q = 0 := by omega
      subst this; exact ⟨w, rfl⟩
    · rintro ⟨x, h⟩
      by_cases hq : 0 = q
      · omega
      · simp [Dict.get?, hq] at h
  · intro u d v p y xp xy _ h2
    change (Trie.new : Automaton Nat).deltaWord (some 0) (u ++ d :: v) = some y at h2
    rw [deltaWord_append] at h2
    cases h : (Trie.new : Automaton Nat).deltaWord (some 0) u with
    | none => rw [h] at h2; simp [deltaWord_none] at h2
    | some p => rw [h, deltaWord_cons] at h2; simp [deltaO, hd] at h2
  · intro p q x h1 h2
    change Dict.get? [(0, w)] p = some x at h1
    change Dict.get? [(0, w)] q = some x at h2
    simp [Dict.get?] at h1 h2
    omega
  · show Dict.NodupKeys [(0, w)]
    simp [Dict.NodupKeys]

/-- Adding a leaf. -/
theorem inv_leaf {t : BKTree X} (h : Inv dist t) {p : List Nat} {u : Nat} {w xu : X}
    (hp : t.a.deltaWord (some 0) p = some u) (hxu : t.elements.get? u = some xu)
    (hnew : ∀ q x, t.elements.get? q = some x → x ≠ w)
    (hpath : ∀ p₁ d p₂ r x, p = p₁ ++ d :: p₂ → t.a.deltaWord (some 0) p₁ = some r → t.elements.get? r = some x →
      dist w x = d)
    (hd : t.a.delta u (dist w xu) = none) :
    ∃ t', t.insertStep dist w 0 u = (if dist w xu = 0 then .done (u, t) else .done (t.a.lastVertexId, t')) ∧
      Inv dist t' ∧ t'.a.vertices = t.a.vertices ++ [t.a.lastVertexId] ∧
      t'.elements = t.elements.set t.a.lastVertexId w := by
  have hu := h.trie.reached hp
  have hT := h.trie.addLeaf hu hd
  have hlast : t.a.lastVertexId ∉ t.a.vertices := fresh h.trie.wf
  have hW := deltaWord_addLeaf h.trie hp hd
  refine ⟨⟨addLeaf t.a u (dist w xu), t.elements.set t.a.lastVertexId w, t.root⟩, ?_, ?_, ?_, rfl⟩
  · have e := addLeaf_eq h.trie.wf hu hd
    simp only [insertStep, element, Dict.getE_of_get? hxu, hd, addVertex]
    rw [show t.a.addVertex.1 = t.a.lastVertexId from rfl, e]
  · have hnone : t.elements.get? t.a.lastVertexId = none := by
      cases hc : t.elements.get? t.a.lastVertexId with
      | none => rfl
      | some x => exact absurd ((h.elems _).2 ⟨x, hc⟩) hlast
    have hreach : ∀ x s, t.a.deltaWord (some 0) x = some s → s ≠ t.a.lastVertexId := by
      intro x s hs e; exact hlast (e ▸ h.trie.reached hs)
    refine ⟨hT, h.root, ?_, ?_, ?_, ?_, Dict.nodupKeys_set h.nodup _ _⟩
    · intro q d r hr
      simp only [delta_addLeaf h.trie.wf] at hr
      split at hr
      · rename_i hc; cases hr; rw [← hc.1]; exact h.trie.wf.lt _ hu
      · exact h.mono _ _ _ hr
    · intro q
      simp only [Dict.get?_set]
      show q ∈ (addLeaf t.a u _).vertices ↔ _
      have : (addLeaf t.a u (dist w xu)).vertices = t.a.vertices ++ [t.a.lastVertexId] := by
        unfold addLeaf
        rw [vertices_setDelta, vertices_addVertex h.trie.wf]
        rw [vertices_addVertex h.trie.wf]; simp [hu]
      rw [this, List.mem_append, List.mem_singleton, h.elems]
      by_cases hq : t.a.lastVertexId = q
      · simp [hq]
      · simp [hq, Ne.symm hq]
    · intro p₁ d v r y xr xy h1 h2 h3 h4
      simp only [hW] at h1 h2
      simp only [Dict.get?_set] at h3 h4
      have hr : t.a.deltaWord (some 0) p₁ = some r := by
        split at h1
        · rename_i e
          subst e
          rw [if_neg (by intro e; have := congrArg List.length e; simp at this)] at h2
          rw [deltaWord_append, deltaWord_append, hp, deltaWord_cons, deltaWord_cons] at h2
          simp [deltaO, hd, deltaWord_none] at h2
        · exact h1
      rw [if_neg (Ne.symm (hreach _ _ hr))] at h3
      split at h2
      · rename_i e
        cases h2
        rw [if_pos rfl] at h4; cases h4
        rcases List.eq_nil_or_concat v with rfl | ⟨v', b, rfl⟩
        · obtain ⟨rfl, e2⟩ := List.append_inj' e rfl
          rw [hp] at hr; cases hr
          rw [hxu] at h3; cases h3
          simp at e2; exact e2.symm
        · rw [List.concat_eq_append, ← List.cons_append, ← List.append_assoc] at e
          obtain ⟨e1, _⟩ := List.append_inj' e rfl
          exact hpath _ _ _ _ _ e1.symm hr h3
      · rw [if_neg (Ne.symm (hreach _ _ h2))] at h4
        exact h.label _ _ _ _ _ _ _ hr h2 h3 h4
    · intro q q' x h1 h2
      simp only [Dict.get?_set] at h1 h2
      split at h1
      · rename_i e
        cases h1
        split at h2
        · rename_i e'; exact e.symm.trans e'
        · exact absurd rfl (hnew _ _ h2)
      · split at h2
        · cases h2; exact absurd rfl (hnew _ _ h1)
        · exact h.inj _ _ _ h1 h2
  · unfold addLeaf
    rw [vertices_setDelta, vertices_addVertex h.trie.wf]
    rw [vertices_addVertex h.trie.wf]; simp [hu]

/-- Specification of `insert`. -/
def InsertPost (dist : X → X → Nat) (t : BKTree X) (w : X) : Except PyErr (Nat × BKTree X) → Prop
  | .error _ => False
  | .ok (u, t') => Inv dist t' ∧ t'.elements.get? u = some w ∧
      ((∃ v, t.elements.get? v = some w) → t' = t) ∧
      ((¬ ∃ v, t.elements.get? v = some w) → u = t.a.lastVertexId ∧
        t'.elements = t.elements.set t.a.lastVertexId w ∧ t'.a.vertices = t.a.vertices ++ [u])

theorem insert_inv (hz : ∀ x y, dist x y = 0 ↔ x = y) {t : BKTree X} (h : Inv dist t) (w : X) :
    ∃ r, Returns (t.insert dist w none) r ∧ InsertPost dist t w r := by
  have hrun : ∀ fuel, t.insert dist w none fuel = loop (t.insertStep dist w) fuel 0 0 := by
    intro fuel; unfold insert; rw [h.root]; rfl
  simp only [Returns, hrun]
  let LI : Nat → Prop := fun u => ∃ p, t.a.deltaWord (some 0) p = some u ∧
    (∀ p₁ d p₂ r x, p = p₁ ++ d :: p₂ → t.a.deltaWord (some 0) p₁ = some r → t.elements.get? r = some x →
      dist w x = d) ∧
    (∀ y, t.elements.get? y = some w → ∃ v, t.a.deltaWord (some u) v = some y)
  have hstep : ∀ tt u, t.insertStep dist w tt u = t.insertStep dist w 0 u := fun _ _ => rfl
  refine loop_total _ LI (fun u => t.a.lastVertexId - u) (InsertPost dist t w) ?_ ?_ ?_ ?_ 0
  · rintro tt u u' ⟨p, hp, hpath, hstored⟩ hs
    obtain ⟨xu, hxu⟩ := h.elem_of_reached hp
    have hu := h.trie.wf.lt _ (h.trie.reached hp)
    simp only [insertStep, element, Dict.getE_of_get? hxu] at hs
    split at hs
    · cases hs
    · rename_i hne
      split at hs
      · rename_i v hv
        cases hs
        refine ⟨⟨p ++ [dist w xu], ?_, ?_, ?_⟩, ?_⟩
        · rw [deltaWord_snoc, hp]; exact hv
        · intro p₁ d p₂ r x e h1 h2
          rcases List.eq_nil_or_concat p₂ with rfl | ⟨p₂', b, rfl⟩
          · obtain ⟨rfl, e2⟩ := List.append_inj' e rfl
            rw [hp] at h1; cases h1; rw [hxu] at h2; cases h2
            simp at e2; exact e2
          · rw [List.concat_eq_append, ← List.cons_append, ← List.append_assoc] at e
            obtain ⟨e1, _⟩ := List.append_inj' e rfl
            exact hpath _ _ _ _ _ e1 h1 h2
        · intro y hy
          obtain ⟨v', hv'⟩ := hstored y hy
          cases v' with
          | nil =>
            simp at hv'; subst hv'
            rw [hxu] at hy; cases hy
            exact absurd ((hz _ _).2 rfl) hne
          | cons d v' =>
            have hl := h.label p d v' u y xu w hp (by rw [deltaWord_append, hp]; exact hv') hxu hy
            rw [deltaWord_cons] at hv'
            simp only [deltaO, Option.bind_some, ← hl, hv] at hv'
            exact ⟨v', hv'⟩
        · have h1 := h.mono _ _ _ hv
          have h2 := h.trie.wf.lt _ (h.trie.closed _ _ _ hv)
          show t.a.lastVertexId - _ < t.a.lastVertexId - u
          omega
      · split at hs <;> cases hs
  · rintro tt u r ⟨p, hp, hpath, hstored⟩ hs
    obtain ⟨xu, hxu⟩ := h.elem_of_reached hp
    by_cases hne : dist w xu = 0
    · simp only [insertStep, element, Dict.getE_of_get? hxu, if_pos hne] at hs
      cases hs
      rw [hz] at hne; subst hne
      exact ⟨h, hxu, fun _ => rfl, fun hc => absurd ⟨u, hxu⟩ hc⟩
    · cases hd : t.a.delta u (dist w xu) with
      | some v =>
        simp only [insertStep, element, Dict.getE_of_get? hxu, if_neg hne, hd] at hs
        cases hs
      | none =>
        have hnew : ∀ q x, t.elements.get? q = some x → x ≠ w := by
          rintro y x hy rfl
          obtain ⟨v', hv'⟩ := hstored y hy
          cases v' with
          | nil =>
            simp at hv'; subst hv'
            rw [hxu] at hy; cases hy
            exact hne ((hz _ _).2 rfl)
          | cons d v' =>
            have hl := h.label p d v' u y xu x hp (by rw [deltaWord_append, hp]; exact hv') hxu hy
            rw [deltaWord_cons] at hv'
            simp only [deltaO, Option.bind_some, ← hl, hd] at hv'
            simp [deltaWord_none] at hv'
        obtain ⟨t', e, h1, h2, h3⟩ := inv_leaf h hp hxu hnew hpath hd
        rw [hstep, e, if_neg hne] at hs
        cases hs
        refine ⟨h1, by rw [h3, Dict.get?_set, if_pos rfl], ?_, fun _ => ⟨rfl, h3, h2⟩⟩
        rintro ⟨v, hv⟩; exact absurd rfl (hnew _ _ hv)
  · rintro tt u e ⟨p, hp, hpath, hstored⟩ hs
    obtain ⟨xu, hxu⟩ := h.elem_of_reached hp
    simp only [insertStep, element, Dict.getE_of_get? hxu] at hs
    split at hs
    · cases hs
    · split at hs
      · cases hs
      · rename_i hd
        simp only [addVertex] at hs
        rw [show t.a.addVertex.1 = t.a.lastVertexId from rfl, addLeaf_eq h.trie.wf (h.trie.reached hp) hd] at hs
        cases hs
  · refine ⟨[], rfl, ?_, ?_⟩
    · intro p₁ d p₂ r x e; simp at e
    · intro y hy
      exact h.trie.surj _ ((h.elems y).2 ⟨w, hy⟩)

/-! ## Search -/

/-- The element at distance `d` needs no further consideration. -/
def Settled : Option X → Option Nat → Nat → Prop
  | some _, some b, d => b ≤ d
  | none, some b, d => b < d
  | _, none, _ => False

theorem Settled.better {best best' : Option X} {b b' : Option Nat} {d : Nat} (h : Settled best b d)
    (hb : ∀ c, b = some c → ∃ c', b' = some c' ∧ c' ≤ c) (hbest : best'.isSome ∨ best' = best) :
    Settled best' b' d := by
  cases best with
  | none =>
    cases b with
    | none => cases h
    | some c =>
      obtain ⟨c', rfl, hc⟩ := hb c rfl
      have : c < d := h
      cases best' with
      | none => show c' < d; omega
      | some _ => show c' ≤ d; omega
  | some x =>
    cases b with
    | none => cases h
    | some c =>
      obtain ⟨c', rfl, hc⟩ := hb c rfl
      have : c ≤ d := h
      cases best' with
      | none => simp at hbest
      | some _ => show c' ≤ d; omega

/-- Specification of the result of `search`, for the stored elements satisfying `P`. -/
def SearchPost (dist : X → X → Nat) (P : X → Prop) (w : X) (dMax : Option Nat) :
    Except PyErr (Option (X × Option Nat)) → Prop
  | .error _ => False
  | .ok none => ∀ y, P y → leInf (dist w y) dMax = false
  | .ok (some (x, d)) => P x ∧ d = some (dist w x) ∧ leInf (dist w x) dMax = true ∧
      ∀ y, P y → dist w x ≤ dist w y

theorem search_inv (hm : IsMetric dist) {t : BKTree X} (h : Inv dist t) (w : X) (dMax : Option Nat) (r₀ : Nat)
    (hr₀ : r₀ ∈ t.a.vertices) :
    ∃ r, Returns (t.search dist w dMax (some r₀)) r ∧
      SearchPost dist (fun x => ∃ y v, t.a.deltaWord (some r₀) v = some y ∧ t.elements.get? y = some x) w dMax r := by
  have hrun : ∀ fuel, t.search dist w dMax (some r₀) fuel =
      loop (t.searchStep dist w) fuel 0 ⟨[r₀], none, dMax⟩ := by
    intro fuel; unfold search; rw [h.root]; rfl
  simp only [Returns, hrun]
  obtain ⟨W, hW⟩ := exists_weight (fun q => (t.a.outEdges q).map (·.target)) t.a.lastVertexId (by
    intro q c hc
    obtain ⟨e, he, rfl⟩ := List.mem_map.1 hc
    rw [mem_outEdges h.trie.wf] at he
    obtain ⟨rfl, he⟩ := he
    exact ⟨h.mono _ _ _ he, h.trie.wf.lt _ (h.trie.closed _ _ _ he)⟩)
  let P : X → Prop := fun x => ∃ y v, t.a.deltaWord (some r₀) v = some y ∧ t.elements.get? y = some x
  let LI : SearchState X → Prop := fun s =>
    (∀ q ∈ s.queue, ∃ v, t.a.deltaWord (some r₀) v = some q) ∧
    (∀ y v x, t.a.deltaWord (some r₀) v = some y → t.elements.get? y = some x →
      (∃ q ∈ s.queue, ∃ v, t.a.deltaWord (some q) v = some y) ∨ Settled s.best s.dBest (dist w x)) ∧
    (∀ x, s.best = some x → P x ∧ s.dBest = some (dist w x) ∧ leInf (dist w x) dMax = true) ∧
    (s.best = none → s.dBest = dMax)
  obtain ⟨p₀, hp₀⟩ := h.trie.surj _ hr₀
  have hel : ∀ v q, t.a.deltaWord (some r₀) v = some q →
      t.a.deltaWord (some 0) (p₀ ++ v) = some q ∧ ∃ x, t.elements.get? q = some x := by
    intro v q hv
    have : t.a.deltaWord (some 0) (p₀ ++ v) = some q := by rw [deltaWord_append, hp₀]; exact hv
    exact ⟨this, h.elem_of_reached this⟩
  refine loop_total _ LI (fun s => (s.queue.map W).sum) (SearchPost dist P w dMax) ?_ ?_ ?_ ?_ 0
  · rintro tt ⟨queue, best, dBest⟩ s' ⟨hq, hy, hb, hn⟩ hs
    simp only at hq hy hb hn
    cases queue with
    | nil => simp [searchStep] at hs
    | cons u rest =>
      obtain ⟨vu, hvu⟩ := hq u (by simp)
      obtain ⟨hpu, xu, hxu⟩ := hel _ _ hvu
      simp only [searchStep, element, Dict.getE_of_get? hxu] at hs
      -- the new best
      obtain ⟨best', dBest', hbd, hbetter, hbest', hset, hb', hn'⟩ :
          ∃ best' dBest', (if leInf (dist w xu) dBest then (some xu, some (dist w xu)) else (best, dBest)) =
              (best', dBest') ∧
            (∀ c, dBest = some c → ∃ c', dBest' = some c' ∧ c' ≤ c) ∧ (best'.isSome ∨ best' = best) ∧
            Settled best' dBest' (dist w xu) ∧
            (∀ x, best' = some x → P x ∧ dBest' = some (dist w x) ∧ leInf (dist w x) dMax = true) ∧
            (best' = none → dBest' = dMax) := by
        by_cases hle : leInf (dist w xu) dBest = true
        · refine ⟨some xu, some (dist w xu), by rw [if_pos hle], ?_, .inl rfl, Nat.le_refl _, ?_, by simp⟩
          · intro c hc; subst hc
            exact ⟨_, rfl, by simpa [leInf] using hle⟩
          · intro x hx; cases hx
            refine ⟨⟨u, vu, hvu, hxu⟩, rfl, ?_⟩
            cases hbest : best with
            | none => rw [← hn hbest]; exact hle
            | some x0 =>
              obtain ⟨_, h2, h3⟩ := hb x0 hbest
              rw [h2] at hle
              cases dMax with
              | none => rfl
              | some b => simp [leInf] at hle h3 ⊢; omega
        · refine ⟨best, dBest, by rw [if_neg hle], fun c hc => ⟨c, hc, Nat.le_refl _⟩, .inr rfl, ?_, hb, hn⟩
          cases dBest with
          | none => exact absurd rfl hle
          | some b =>
            have : b < dist w xu := by simpa [leInf] using hle
            cases best with
            | none => exact this
            | some _ => exact Nat.le_of_lt this
      rw [hbd] at hs
      simp only [Step.next.injEq] at hs
      subst hs
      refine ⟨⟨?_, ?_, hb', hn'⟩, ?_⟩
      · intro q hqm
        simp only [List.mem_append, List.mem_map, List.mem_filter] at hqm
        rcases hqm with hqm | ⟨e, ⟨he, _⟩, rfl⟩
        · exact hq q (by simp [hqm])
        · rw [mem_outEdges h.trie.wf] at he
          refine ⟨vu ++ [e.distinguisher], ?_⟩
          rw [deltaWord_snoc, hvu, ← he.1]; exact he.2
      · intro y v x hv hx
        rcases hy y v x hv hx with ⟨q, hqm, v', hv'⟩ | hs'
        · rcases List.mem_cons.1 hqm with rfl | hqm
          · cases v' with
            | nil =>
              simp at hv'; subst hv'
              rw [hxu] at hx; cases hx
              exact .inr hset
            | cons d v' =>
              have hl := h.label (p₀ ++ vu) d v' q y xu x hpu (by rw [deltaWord_append, hpu]; exact hv') hxu hx
              rw [deltaWord_cons] at hv'
              cases hd : t.a.delta q d with
              | none => simp [deltaO, hd, deltaWord_none] at hv'
              | some c =>
                simp only [deltaO, Option.bind_some, hd] at hv'
                by_cases hcut : leInf (absDiff d (dist w xu)) dBest' = true
                · left
                  refine ⟨c, ?_, v', hv'⟩
                  simp only [List.mem_append, List.mem_map, List.mem_filter]
                  exact .inr ⟨⟨q, c, d⟩, ⟨(mem_outEdges h.trie.wf).2 ⟨rfl, hd⟩, hcut⟩, rfl⟩
                · right
                  have t1 := hm.triangle w x xu
                  have t2 := hm.triangle x w xu
                  have t3 := hm.symm x w
                  cases dBest' with
                  | none => exact absurd rfl hcut
                  | some b =>
                    have hlt : b < dist w x := by
                      have hc : ¬ absDiff d (dist w xu) ≤ b := fun hh => hcut (decide_eq_true hh)
                      unfold absDiff at hc
                      omega
                    cases best' with
                    | none => exact hlt
                    | some _ => exact Nat.le_of_lt hlt
          · exact .inl ⟨q, by simp [hqm], v', hv'⟩
        · exact .inr (hs'.better hbetter hbest')
      · simp only [List.map_append, List.sum_append, List.map_cons, List.sum_cons, List.map_map]
        rw [hW u, List.map_map]
        have := sum_map_filter_le (t.a.outEdges u) (fun e => leInf (absDiff e.distinguisher (dist w xu)) dBest')
          (W ∘ fun e => e.target)
        omega
  · rintro tt ⟨queue, best, dBest⟩ r ⟨hq, hy, hb, hn⟩ hs
    simp only at hq hy hb hn
    cases queue with
    | nil =>
      simp only [searchStep, Step.done.injEq] at hs
      subst hs
      cases best with
      | none =>
        rintro x ⟨y, v, hv, hx⟩
        rcases hy y v x hv hx with ⟨q, hq, _⟩ | hs'
        · simp at hq
        · rw [hn rfl] at hs'
          cases dMax with
          | none => cases hs'
          | some b =>
            have : b < dist w x := hs'
            simp [leInf]; omega
      | some x0 =>
        obtain ⟨h1, h2, h3⟩ := hb x0 rfl
        refine ⟨h1, h2, h3, ?_⟩
        rintro x ⟨y, v, hv, hx⟩
        rcases hy y v x hv hx with ⟨q, hq, _⟩ | hs'
        · simp at hq
        · rw [h2] at hs'; exact hs'
    | cons u rest =>
      obtain ⟨vu, hvu⟩ := hq u (by simp)
      obtain ⟨hpu, xu, hxu⟩ := hel _ _ hvu
      simp [searchStep, element, Dict.getE_of_get? hxu] at hs
  · rintro tt ⟨queue, best, dBest⟩ e ⟨hq, hy, hb, hn⟩ hs
    cases queue with
    | nil => simp [searchStep] at hs
    | cons u rest =>
      obtain ⟨vu, hvu⟩ := hq u (by simp)
      obtain ⟨hpu, xu, hxu⟩ := hel _ _ hvu
      simp [searchStep, element, Dict.getE_of_get? hxu] at hs
  · refine ⟨?_, ?_, by simp, fun _ => rfl⟩
    · intro q hq; simp at hq; subst hq; exact ⟨[], rfl⟩
    · intro y v x hv hx; exact .inl ⟨r₀, by simp, v, hv⟩

end BKTree
end PyBGL
