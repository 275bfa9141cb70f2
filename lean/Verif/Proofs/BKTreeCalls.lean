import Verif.Model.BKTreeCalls
import Verif.Proofs.BKTree
import Mathlib.Data.List.Perm.Subperm

/-!
# `BKTree` with any distance: shape of the trees, ends of the loops, calls to the distance
-/

namespace PyBGL
namespace BKTree
open Automaton
variable {X S : Type}

/-- What holds of a non-empty tree whatever the distance does. -/
structure Shape (t : BKTree X) : Prop where
  trie : TrieInv t.a
  root : t.root = some 0
  mono : ∀ q d r, t.a.delta q d = some r → q < r
  elems : ∀ q, q ∈ t.a.vertices ↔ ∃ x, t.elements.get? q = some x
  nodup : Dict.NodupKeys t.elements

theorem Inv.shape {dist : X → X → Nat} {t : BKTree X} (h : Inv dist t) : Shape t := ⟨h.trie, h.root, h.mono, h.elems, h.nodup⟩

/-- The tree with a new leaf below `u`. -/
def withLeaf (t : BKTree X) (u d : Nat) (w : X) : BKTree X := ⟨addLeaf t.a u d, t.elements.set t.a.lastVertexId w, t.root⟩

theorem withLeaf_vertices {t : BKTree X} (h : Shape t) {u d : Nat} (w : X) (hu : u ∈ t.a.vertices) :
    (t.withLeaf u d w).a.vertices = t.a.vertices ++ [t.a.lastVertexId] := by
  show (addLeaf t.a u d).vertices = _
  unfold addLeaf
  rw [vertices_setDelta, vertices_addVertex h.trie.wf]
  rw [vertices_addVertex h.trie.wf]; simp [hu]

theorem shape_leaf {t : BKTree X} (h : Shape t) {u d : Nat} (w : X) (hu : u ∈ t.a.vertices) (hd : t.a.delta u d = none) :
    Shape (t.withLeaf u d w) := by
  have hlast : t.a.lastVertexId ∉ t.a.vertices := fresh h.trie.wf
  refine ⟨h.trie.addLeaf hu hd, h.root, ?_, ?_, Dict.nodupKeys_set h.nodup _ _⟩
  · intro q d' r hr
    change (addLeaf t.a u d).delta q d' = some r at hr
    rw [delta_addLeaf h.trie.wf] at hr
    split at hr
    · rename_i hc; cases hr; rw [← hc.1]; exact h.trie.wf.lt _ hu
    · exact h.mono _ _ _ hr
  · intro q
    rw [withLeaf_vertices h w hu, List.mem_append, List.mem_singleton, h.elems]
    show _ ↔ ∃ x, (t.elements.set t.a.lastVertexId w).get? q = some x
    simp only [Dict.get?_set]
    by_cases hq : t.a.lastVertexId = q
    · simp [hq]
    · simp [hq, Ne.symm hq]

theorem Shape.length {t : BKTree X} (h : Shape t) : t.elements.length = t.a.lastVertexId := by
  have h1 : (t.elements.map Prod.fst).Perm t.a.vertices := by
    refine (List.perm_ext_iff_of_nodup h.nodup (by rw [h.trie.verts]; exact List.nodup_range)).2 ?_
    intro q
    rw [h.elems, List.mem_map]
    constructor
    · rintro ⟨⟨q', x⟩, hx, rfl⟩; exact ⟨x, Dict.get?_of_mem h.nodup hx⟩
    · rintro ⟨x, hx⟩; exact ⟨(q, x), Dict.mem_of_get? hx, rfl⟩
  have := h1.length_eq
  rw [List.length_map, h.trie.verts, List.length_range] at this
  exact this

/-! ## Sums over the elements -/

/-- The sum of the costs of the elements of some nodes. -/
def sumAt (t : BKTree X) (c : X → Nat) (vs : List Nat) : Nat := (vs.map fun q => ((t.elements.get? q).map c).getD 0).sum

/-- The sum of the costs of all the elements. -/
def sumAll (t : BKTree X) (c : X → Nat) : Nat := (t.elements.map fun p => c p.2).sum

theorem sum_le_of_subperm (f : Nat → Nat) {l m : List Nat} (h : l.Subperm m) : (l.map f).sum ≤ (m.map f).sum := by
  obtain ⟨l', hp, hs⟩ := h
  have h1 : (l'.map f).sum = (l.map f).sum := by
    clear hs
    induction hp with
    | nil => rfl
    | cons x _ ih => simp only [List.map_cons, List.sum_cons]; rw [ih]
    | swap x y l => simp only [List.map_cons, List.sum_cons]; omega
    | trans _ _ ih1 ih2 => exact ih1.trans ih2
  have h2 : (l'.map f).sum ≤ (m.map f).sum := by
    clear h1 hp
    induction hs with
    | slnil => exact Nat.le_refl _
    | cons a _ ih => simp only [List.map_cons, List.sum_cons]; omega
    | cons_cons a _ ih => simp only [List.map_cons, List.sum_cons]; omega
  omega

theorem sumAt_le {t : BKTree X} (h : Shape t) (c : X → Nat) {vs : List Nat} (hn : vs.Nodup) (hv : ∀ q ∈ vs, q ∈ t.a.vertices) :
    t.sumAt c vs ≤ t.sumAll c := by
  have hk : ∀ q ∈ vs, q ∈ t.elements.map Prod.fst := by
    intro q hq
    obtain ⟨x, hx⟩ := (h.elems q).1 (hv q hq)
    exact List.mem_map.2 ⟨(q, x), Dict.mem_of_get? hx, rfl⟩
  have hsub : vs.Subperm (t.elements.map Prod.fst) := hn.subperm hk
  have e : t.sumAll c = ((t.elements.map Prod.fst).map fun q => ((t.elements.get? q).map c).getD 0).sum := by
    unfold sumAll
    rw [List.map_map]
    congr 1
    apply List.map_congr_left
    rintro ⟨q, x⟩ hq
    simp only [Function.comp, Dict.get?_of_mem h.nodup hq, Option.map_some, Option.getD_some]
  rw [e]
  exact sum_le_of_subperm _ hsub

theorem sumAt_snoc {t : BKTree X} (c : X → Nat) (vs : List Nat) {u : Nat} {x : X} (hx : t.elements.get? u = some x) :
    t.sumAt c (vs ++ [u]) = t.sumAt c vs + c x := by
  simp [sumAt, hx]

/-! ## Insertion -/

/-- What an insertion leaves. -/
def InsertLeaves (t : BKTree X) (w : X) : Except PyErr Nat → BKTree X → Prop
  | .error _, t' => t' = t
  | .ok v, t' => (v ∈ t.a.vertices ∧ t' = t) ∨
      (∃ u d, u ∈ t.a.vertices ∧ t.a.delta u d = none ∧ v = t.a.lastVertexId ∧ t' = t.withLeaf u d w)

theorem insertFromM_spec {dist : X → X → PyM S Nat} {cost : S → Nat} {c : X → X → Nat} (hc : ∀ x y s, cost (dist x y s).2 ≤ cost s + c x y)
    {t : BKTree X} (h : Shape t) (w : X) (K : Nat) : ∀ k u s vs, u ∈ t.a.vertices → t.a.lastVertexId ≤ u + k → vs.Nodup →
      (∀ q ∈ vs, q < u ∧ q ∈ t.a.vertices) → cost s ≤ K + t.sumAt (c w) vs →
      ∃ r, (∀ fuel, k ≤ fuel → insertFromM dist t w fuel u s = some r) ∧ cost r.2.2 ≤ K + t.sumAll (c w) ∧ InsertLeaves t w r.1 r.2.1 := by
  intro k
  induction k with
  | zero =>
    intro u s vs hu hk
    have := h.trie.wf.lt _ hu
    omega
  | succ k ih =>
    intro u s vs hu hk hn hv hs
    obtain ⟨xu, hxu⟩ := (h.elems u).1 hu
    have hn' : (vs ++ [u]).Nodup := by
      rw [List.nodup_append]
      refine ⟨hn, by simp, ?_⟩
      intro a ha b hb
      rw [List.mem_singleton] at hb
      subst hb
      exact Nat.ne_of_lt (hv a ha).1
    have hv' : ∀ q ∈ vs ++ [u], q ∈ t.a.vertices := by
      intro q hq
      rcases List.mem_append.1 hq with hq | hq
      · exact (hv q hq).2
      · rw [List.mem_singleton] at hq; subst hq; exact hu
    have hcost := hc w xu s
    have hs' : cost (dist w xu s).2 ≤ K + t.sumAt (c w) (vs ++ [u]) := by
      rw [sumAt_snoc (c w) vs hxu]; omega
    have hle := sumAt_le h (c w) hn' hv'
    generalize hd : dist w xu s = o at hs'
    obtain ⟨o, s'⟩ := o
    simp only at hs'
    have hstep : ∀ fuel, insertFromM dist t w (fuel + 1) u s =
        match (o, s') with
        | (.error e, s) => some (.error e, t, s)
        | (.ok d, s) =>
          if d = 0 then some (.ok u, t, s)
          else match t.a.delta u d with
            | some v => insertFromM dist t w fuel v s
            | none =>
              match (t.addVertex w).2.a.addEdge u (t.addVertex w).1 d with
              | .error e => some (.error e, (t.addVertex w).2, s)
              | .ok (_, _, a) => some (.ok (t.addVertex w).1, { (t.addVertex w).2 with a }, s) := by
      intro fuel
      conv => lhs; unfold insertFromM
      simp only [element, Dict.getE_of_get? hxu, hd]
      rfl
    cases o with
    | error e =>
      refine ⟨(.error e, t, s'), ?_, Nat.le_trans hs' (Nat.add_le_add_left hle K), rfl⟩
      intro fuel hf
      obtain ⟨f, rfl⟩ : ∃ f, fuel = f + 1 := ⟨fuel - 1, by omega⟩
      rw [hstep]
    | ok d =>
      by_cases hd0 : d = 0
      · refine ⟨(.ok u, t, s'), ?_, Nat.le_trans hs' (Nat.add_le_add_left hle K), .inl ⟨hu, rfl⟩⟩
        intro fuel hf
        obtain ⟨f, rfl⟩ : ∃ f, fuel = f + 1 := ⟨fuel - 1, by omega⟩
        rw [hstep]; simp only [if_pos hd0]
      · cases hv1 : t.a.delta u d with
        | some v =>
          have huv := h.mono _ _ _ hv1
          obtain ⟨r, h1, h2⟩ := ih v s' (vs ++ [u]) (h.trie.closed _ _ _ hv1) (by omega) hn' (by
            intro q hq
            refine ⟨?_, hv' q hq⟩
            rcases List.mem_append.1 hq with hq | hq
            · have := (hv q hq).1; omega
            · rw [List.mem_singleton] at hq; omega) hs'
          refine ⟨r, ?_, h2⟩
          intro fuel hf
          obtain ⟨f, rfl⟩ : ∃ f, fuel = f + 1 := ⟨fuel - 1, by omega⟩
          rw [hstep]; simp only [if_neg hd0, hv1]
          exact h1 f (by omega)
        | none =>
          refine ⟨(.ok t.a.lastVertexId, t.withLeaf u d w, s'), ?_, Nat.le_trans hs' (Nat.add_le_add_left hle K), .inr ⟨u, d, hu, hv1, rfl, rfl⟩⟩
          intro fuel hf
          obtain ⟨f, rfl⟩ : ∃ f, fuel = f + 1 := ⟨fuel - 1, by omega⟩
          rw [hstep]; simp only [if_neg hd0, hv1]
          have e := addLeaf_eq h.trie.wf hu hv1
          simp only [addVertex]
          rw [show t.a.addVertex.1 = t.a.lastVertexId from rfl, e]
          rfl

theorem insertFromM_keyError (dist : X → X → PyM S Nat) {t : BKTree X} (h : Shape t) (w : X) {u : Nat} (hu : u ∉ t.a.vertices) (fuel : Nat) (s : S) :
    insertFromM dist t w (fuel + 1) u s = some (.error .keyError, t, s) := by
  have hx : t.elements.get? u = none := by
    cases hc : t.elements.get? u with
    | none => rfl
    | some x => exact absurd ((h.elems u).2 ⟨x, hc⟩) hu
  unfold insertFromM
  simp [element, Dict.getE, hx]

/-! ## Search -/

theorem parent_unique {t : BKTree X} (h : Shape t) {p d p' d' v : Nat} (h1 : t.a.delta p d = some v) (h2 : t.a.delta p' d' = some v) : p = p' ∧ d = d' := by
  have hm : ∀ {q a r}, t.a.delta q a = some r → q ∈ t.a.vertices := by
    intro q a r hq
    by_contra hc
    rw [delta_not_mem a hc] at hq; cases hq
  obtain ⟨x, hx⟩ := h.trie.surj p (hm h1)
  obtain ⟨y, hy⟩ := h.trie.surj p' (hm h2)
  have e := h.trie.inj (x ++ [d]) (y ++ [d']) v (by rw [deltaWord_snoc, hx]; exact h1) (by rw [deltaWord_snoc, hy]; exact h2)
  obtain ⟨e1, e2⟩ := List.append_inj' e rfl
  subst e1
  rw [hx] at hy; cases hy
  exact ⟨rfl, by simpa using e2⟩

theorem children_nodup {t : BKTree X} (h : Shape t) (u : Nat) : ((t.a.outEdges u).map (·.target)).Nodup := by
  have h1 : (t.a.outEdges u).Nodup := by
    unfold outEdges Dict.getD
    cases hd : Dict.get? t.a.adj u with
    | none => simp
    | some d =>
      have := h.trie.wf.inner _ _ hd
      refine List.Nodup.map ?_ (List.Nodup.of_map _ this)
      rintro ⟨a, b⟩ ⟨a', b'⟩ e
      simp only [EdgeDesc.mk.injEq, true_and] at e
      simp [e.1, e.2]
  refine List.Nodup.map_on ?_ h1
  intro e he e' he' ht
  rw [mem_outEdges h.trie.wf] at he he'
  obtain ⟨_, hd⟩ := parent_unique h he.2 (by rw [ht]; exact he'.2)
  have hs : e.source = e'.source := he.1.trans he'.1.symm
  cases e; cases e'
  simp_all

theorem searchFromM_spec {dist : X → X → PyM S Nat} {cost : S → Nat} {c : X → X → Nat} (hc : ∀ x y s, cost (dist x y s).2 ≤ cost s + c x y)
    {t : BKTree X} (h : Shape t) (w : X) (K start : Nat) : ∀ k (st : SearchState X) s vs, t.a.vertices.length + 1 ≤ vs.length + k → (vs ++ st.queue).Nodup →
      (∀ q ∈ vs ++ st.queue, q ∈ t.a.vertices ∧ start ≤ q ∧ (q = start ∨ ∃ p ∈ vs, ∃ d, t.a.delta p d = some q)) → cost s ≤ K + t.sumAt (c w) vs →
      ∃ r, (∀ fuel, k ≤ fuel → searchFromM dist t w fuel st s = some r) ∧ cost r.2 ≤ K + t.sumAll (c w) := by
  intro k
  induction k with
  | zero =>
    intro st s vs hk hn hv
    have hs : (vs ++ st.queue).Subperm t.a.vertices := hn.subperm fun q hq => (hv q hq).1
    have := hs.length_le
    rw [List.length_append] at this
    omega
  | succ k ih =>
    intro st s vs hk hn hv hs
    obtain ⟨queue, best, dBest⟩ := st
    simp only at hn hv
    cases queue with
    | nil =>
      refine ⟨(.ok (best.map fun x => (x, dBest)), s), ?_, ?_⟩
      · intro fuel hf
        obtain ⟨f, rfl⟩ : ∃ f, fuel = f + 1 := ⟨fuel - 1, by omega⟩
        rfl
      · rw [List.append_nil] at hn
        exact Nat.le_trans hs (Nat.add_le_add_left (sumAt_le h (c w) hn fun q hq => (hv q (by simpa using hq)).1) K)
    | cons u rest =>
      obtain ⟨hu, hsu, _⟩ := hv u (by simp)
      obtain ⟨xu, hxu⟩ := (h.elems u).1 hu
      have hcost := hc w xu s
      have hs' : cost (dist w xu s).2 ≤ K + t.sumAt (c w) (vs ++ [u]) := by
        rw [sumAt_snoc (c w) vs hxu]; omega
      have hnu : (vs ++ [u]).Nodup := by
        refine hn.sublist ?_
        exact List.Sublist.append_left (by simp) vs
      have hle := sumAt_le h (c w) hnu (fun q hq => (hv q (by
        rcases List.mem_append.1 hq with hq | hq
        · simp [hq]
        · rw [List.mem_singleton] at hq; simp [hq])).1)
      generalize hd : dist w xu s = o at hs'
      obtain ⟨o, s'⟩ := o
      simp only at hs'
      cases o with
      | error e =>
        refine ⟨(.error e, s'), ?_, Nat.le_trans hs' (Nat.add_le_add_left hle K)⟩
        intro fuel hf
        obtain ⟨f, rfl⟩ : ∃ f, fuel = f + 1 := ⟨fuel - 1, by omega⟩
        unfold searchFromM
        simp only [element, Dict.getE_of_get? hxu, hd]
      | ok du =>
        have hgen : ∀ b' d', ∃ r, (∀ fuel, k ≤ fuel → searchFromM dist t w fuel
            ⟨rest ++ ((t.a.outEdges u).filter fun e => leInf (absDiff e.distinguisher du) d').map (·.target), b', d'⟩ s' = some r) ∧
            cost r.2 ≤ K + t.sumAll (c w) := by
          intro b' d'
          have hsub : (((t.a.outEdges u).filter fun e => leInf (absDiff e.distinguisher du) d').map (·.target)).Sublist ((t.a.outEdges u).map (·.target)) :=
            List.filter_sublist.map _
          have hchild : ∀ q ∈ ((t.a.outEdges u).filter fun e => leInf (absDiff e.distinguisher du) d').map (·.target), ∃ d, t.a.delta u d = some q := by
            intro q hq
            obtain ⟨e, he, rfl⟩ := List.mem_map.1 (hsub.subset hq)
            rw [mem_outEdges h.trie.wf] at he
            exact ⟨e.distinguisher, by rw [← he.1]; exact he.2⟩
          have hu' : u ∉ vs := by
            intro hc
            rw [List.nodup_append] at hn
            exact hn.2.2 u hc u (by simp) rfl
          refine ih _ s' (vs ++ [u]) (by rw [List.length_append, List.length_singleton]; omega) ?_ ?_ hs'
          · simp only
            rw [show vs ++ [u] ++ (rest ++ ((t.a.outEdges u).filter fun e => leInf (absDiff e.distinguisher du) d').map (·.target)) =
              (vs ++ u :: rest) ++ ((t.a.outEdges u).filter fun e => leInf (absDiff e.distinguisher du) d').map (·.target) by simp]
            rw [List.nodup_append]
            refine ⟨hn, (children_nodup h u).sublist hsub, ?_⟩
            intro a ha b hb hab
            subst hab
            obtain ⟨d, hd2⟩ := hchild a hb
            have hlt := h.mono _ _ _ hd2
            rcases (hv a ha).2.2 with e | ⟨p, hp, d2, hp2⟩
            · omega
            · have := (parent_unique h hp2 hd2).1
              subst this
              exact hu' hp
          · simp only
            intro q hq
            have hq' : q ∈ vs ++ u :: rest ∨ q ∈ ((t.a.outEdges u).filter fun e => leInf (absDiff e.distinguisher du) d').map (·.target) := by
              simp only [List.mem_append, List.mem_cons] at hq ⊢
              rcases hq with (hq | hq) | hq | hq
              · exact .inl (.inl hq)
              · exact .inl (.inr (.inl (by simpa using hq)))
              · exact .inl (.inr (.inr hq))
              · exact .inr hq
            rcases hq' with hq' | hq'
            · obtain ⟨a1, a2, a3⟩ := hv q hq'
              refine ⟨a1, a2, ?_⟩
              rcases a3 with a3 | ⟨p, hp, hp2⟩
              · exact .inl a3
              · exact .inr ⟨p, List.mem_append_left _ hp, hp2⟩
            · obtain ⟨d, hd2⟩ := hchild q hq'
              have hlt := h.mono _ _ _ hd2
              exact ⟨h.trie.closed _ _ _ hd2, by omega, .inr ⟨u, by simp, d, hd2⟩⟩
        have hstep : ∀ f, searchFromM dist t w (f + 1) ⟨u :: rest, best, dBest⟩ s =
            searchFromM dist t w f ⟨rest ++ ((t.a.outEdges u).filter fun e => leInf (absDiff e.distinguisher du)
              (if leInf du dBest then (some xu, some du) else (best, dBest)).2).map (·.target),
              (if leInf du dBest then (some xu, some du) else (best, dBest)).1, (if leInf du dBest then (some xu, some du) else (best, dBest)).2⟩ s' := by
          intro f
          conv => lhs; unfold searchFromM
          simp only [element, Dict.getE_of_get? hxu, hd]
        obtain ⟨r, h1, h2⟩ := hgen (if leInf du dBest then (some xu, some du) else (best, dBest)).1 (if leInf du dBest then (some xu, some du) else (best, dBest)).2
        refine ⟨r, ?_, h2⟩
        intro fuel hf
        obtain ⟨f, rfl⟩ : ∃ f, fuel = f + 1 := ⟨fuel - 1, by omega⟩
        rw [hstep]
        exact h1 f (by omega)

theorem searchFromM_keyError (dist : X → X → PyM S Nat) {t : BKTree X} (h : Shape t) (w : X) {u : Nat} (hu : u ∉ t.a.vertices) (fuel : Nat)
    (best : Option X) (dBest : Option Nat) (s : S) : searchFromM dist t w (fuel + 1) ⟨[u], best, dBest⟩ s = some (.error .keyError, s) := by
  have hx : t.elements.get? u = none := by
    cases hc : t.elements.get? u with
    | none => rfl
    | some x => exact absurd ((h.elems u).2 ⟨x, hc⟩) hu
  unfold searchFromM
  simp [element, Dict.getE, hx]

end BKTree
end PyBGL
