import Verif.Proofs.NfaLemmas
import Mathlib.Data.List.Sort
import Mathlib.Data.List.Sublists

/-!
# The subset construction of `moore_determination`
-/

namespace PyBGL
variable {A : Type} [DecidableEq A]

/-! ## Frozensets -/

theorem mem_frozenset (l : List Nat) (x : Nat) : x ∈ frozenset l ↔ x ∈ l := by
  unfold frozenset; rw [List.mem_mergeSort, mem_mkSet]

theorem nodup_frozenset (l : List Nat) : (frozenset l).Nodup :=
  (List.mergeSort_perm _ _).nodup_iff.2 (nodup_mkSet l)

theorem sorted_frozenset (l : List Nat) : (frozenset l).Pairwise (· ≤ ·) := by
  unfold frozenset
  exact List.pairwise_mergeSort' (r := fun (a b : Nat) => a ≤ b) _

theorem frozenset_ext {l m : List Nat} (h : ∀ x, x ∈ l ↔ x ∈ m) : frozenset l = frozenset m := by
  refine List.Perm.eq_of_pairwise' (r := fun (a b : Nat) => a ≤ b) (sorted_frozenset l) (sorted_frozenset m) ?_
  rw [List.perm_ext_iff_of_nodup (nodup_frozenset l) (nodup_frozenset m)]
  intro x; rw [mem_frozenset, mem_frozenset]; exact h x

theorem frozenset_sublist {l u : List Nat} (h : ∀ x ∈ l, x ∈ u) : (frozenset l).Sublist (frozenset u) := by
  have : frozenset l = (frozenset u).filter (· ∈ l) := by
    refine List.Perm.eq_of_pairwise' (r := fun (a b : Nat) => a ≤ b) (sorted_frozenset l)
      ((sorted_frozenset u).filter _) ?_
    rw [List.perm_ext_iff_of_nodup (nodup_frozenset l) ((nodup_frozenset u).filter _)]
    intro x
    rw [mem_frozenset, List.mem_filter, mem_frozenset]
    simp only [decide_eq_true_eq]
    exact ⟨fun hx => ⟨h x hx, hx⟩, fun hx => hx.2⟩
  rw [this]; exact List.filter_sublist

namespace Moore

/-! ## The subset automaton -/

theorem mem_subsetStep (nfa : Nfa A) (k : List Nat) {a : A} (ha : a ≠ nfa.eps) (x : Nat) :
    x ∈ subsetStep nfa k a ↔ ∃ q ∈ k, WPath nfa.T nfa.eps q [a] x := by
  unfold subsetStep
  rw [mem_frozenset, Nfa.mem_foldl_setUnion]
  simp only [List.not_mem_nil, false_or, Nfa.mem_delta nfa ha]

theorem alphabet_ne_eps {nfa : Nfa A} {a : A} (h : a ∈ nfa.alphabet) : a ≠ nfa.eps := by
  unfold Nfa.alphabet at h; rw [mem_mkSet, List.mem_filter] at h; simpa using h.2

theorem sigma_sub_alphabet {nfa : Nfa A} {q : Nat} {a : A} (h : a ∈ nfa.sigma q) : a ∈ nfa.alphabet := by
  unfold Nfa.sigma at h; rw [mem_mkSet, List.mem_filter, List.mem_flatMap] at h
  obtain ⟨⟨p, _, hp⟩, ha⟩ := h
  unfold Nfa.alphabet; rw [mem_mkSet, List.mem_filter, List.mem_flatMap]
  refine ⟨?_, ha⟩
  unfold Dict.getD at hp
  cases hd : nfa.adj.get? p with
  | none => rw [hd] at hp; simp [Dict.keys] at hp
  | some d =>
    rw [hd] at hp
    exact ⟨(p, d), Dict.mem_of_get? hd, hp⟩

theorem subsetSigma_sub {nfa : Nfa A} {c : Bool} {k : List Nat} {a : A} (h : a ∈ subsetSigma nfa c k) :
    a ∈ nfa.alphabet := by
  unfold subsetSigma at h
  cases c with
  | true => simpa using h
  | false =>
    simp only [Bool.false_eq_true, if_false] at h
    rw [Nfa.mem_foldl_setUnion] at h
    simp only [List.not_mem_nil, false_or] at h
    obtain ⟨q, _, h⟩ := h
    exact sigma_sub_alphabet h

theorem nodup_subsetSigma (nfa : Nfa A) (c : Bool) (k : List Nat) : (subsetSigma nfa c k).Nodup := by
  unfold subsetSigma
  cases c with
  | true => exact nodup_mkSet _
  | false => simpa using Nfa.nodup_foldl_setUnion _ _ List.nodup_nil

/-- A symbol leading somewhere is listed. -/
theorem mem_subsetSigma (nfa : Nfa A) (c : Bool) {k : List Nat} {q x : Nat} {a : A} (ha : a ≠ nfa.eps)
    (hq : q ∈ k) (h : WPath nfa.T nfa.eps q [a] x) : a ∈ subsetSigma nfa c k := by
  obtain ⟨p, s, h1, h2, _⟩ := h.split
  have hs : a ∈ nfa.sigma q := by
    unfold Nfa.sigma; rw [mem_mkSet, List.mem_filter, List.mem_flatMap]
    refine ⟨⟨p, (Nfa.mem_deltaEpsilon _ _ _).2 ⟨q, by simp, h1⟩, ?_⟩, by simpa using ha⟩
    rw [Nfa.T_iff] at h2
    obtain ⟨d, e, y, e1, e2, _⟩ := h2
    simp only [Dict.getD, e1, Option.getD_some]
    exact (Dict.mem_keys_iff _ _).2 ⟨e, e2⟩
  unfold subsetSigma
  cases c with
  | true => simpa using sigma_sub_alphabet hs
  | false =>
    simp only [Bool.false_eq_true, if_false]
    rw [Nfa.mem_foldl_setUnion]; exact .inr ⟨q, hq, hs⟩

/-- Initial subset. -/
def k0 (nfa : Nfa A) : List Nat := frozenset (nfa.deltaEpsilon nfa.initials)

/-- Transitions of the subset automaton. -/
def KT (nfa : Nfa A) (c : Bool) (k : List Nat) (a : A) (k' : List Nat) : Prop :=
  a ∈ subsetSigma nfa c k ∧ k' = subsetStep nfa k a

/-- Subsets reachable in the subset automaton. -/
def KReach (nfa : Nfa A) (c : Bool) (k : List Nat) : Prop := ∃ w, LPath (KT nfa c) (k0 nfa) w k

theorem mem_k0 (nfa : Nfa A) (x : Nat) : x ∈ k0 nfa ↔ ∃ q ∈ nfa.initials, WPath nfa.T nfa.eps q [] x := by
  unfold k0; rw [mem_frozenset, Nfa.mem_deltaEpsilon]

theorem kpath_mem {nfa : Nfa A} {c : Bool} {k k' : List Nat} {w : List A} (h : LPath (KT nfa c) k w k')
    (hk : ∀ q ∈ k, ∀ x, WPath nfa.T nfa.eps q [] x → x ∈ k) (x : Nat) :
    x ∈ k' ↔ ∃ q ∈ k, WPath nfa.T nfa.eps q w x := by
  induction h with
  | nil k => exact ⟨fun h => ⟨x, h, .nil x⟩, fun ⟨q, hq, h⟩ => hk q hq x h⟩
  | cons h p ih =>
    rename_i k k1 k2 a w
    obtain ⟨ha, rfl⟩ := h
    have hne := alphabet_ne_eps (subsetSigma_sub ha)
    rw [ih]
    · simp only [mem_subsetStep nfa k hne]
      constructor
      · rintro ⟨s, ⟨q, hq, h1⟩, h2⟩; exact ⟨q, hq, h1.append h2⟩
      · rintro ⟨q, hq, h⟩
        obtain ⟨s, h1, h2⟩ := (WPath.append_iff (u := [a])).1 h
        exact ⟨s, ⟨q, hq, h1⟩, h2⟩
    · intro s hs y hy
      rw [mem_subsetStep nfa k hne] at hs ⊢
      obtain ⟨q, hq, h⟩ := hs
      exact ⟨q, hq, by simpa using h.append hy⟩

theorem k0_closed (nfa : Nfa A) : ∀ q ∈ k0 nfa, ∀ x, WPath nfa.T nfa.eps q [] x → x ∈ k0 nfa := by
  intro q hq x hx
  rw [mem_k0] at hq ⊢
  obtain ⟨q0, h0, h⟩ := hq
  exact ⟨q0, h0, by simpa using h.append hx⟩

theorem k0path_mem {nfa : Nfa A} {c : Bool} {k : List Nat} {w : List A} (h : LPath (KT nfa c) (k0 nfa) w k)
    (x : Nat) : x ∈ k ↔ ∃ q ∈ nfa.initials, WPath nfa.T nfa.eps q w x := by
  rw [kpath_mem h (k0_closed nfa)]
  simp only [mem_k0]
  constructor
  · rintro ⟨s, ⟨q, hq, h1⟩, h2⟩; exact ⟨q, hq, by simpa using h1.append h2⟩
  · rintro ⟨q, hq, h⟩; exact ⟨q, ⟨q, hq, .nil q⟩, h⟩

theorem kreach_closed {nfa : Nfa A} {c : Bool} {k : List Nat} (h : KReach nfa c k) :
    ∀ q ∈ k, ∀ x, WPath nfa.T nfa.eps q [] x → x ∈ k := by
  obtain ⟨w, h⟩ := h
  intro q hq x hx
  rw [k0path_mem h] at hq ⊢
  obtain ⟨q0, h0, h⟩ := hq
  exact ⟨q0, h0, by simpa using h.append hx⟩

theorem kreach_canon {nfa : Nfa A} {c : Bool} {k : List Nat} (h : KReach nfa c k) : ∃ l, k = frozenset l := by
  obtain ⟨w, h⟩ := h
  rcases List.eq_nil_or_concat w with rfl | ⟨w, a, rfl⟩
  · rw [LPath.nil_iff] at h; exact ⟨_, h.symm⟩
  · rw [List.concat_eq_append, LPath.snoc_iff] at h
    obtain ⟨r, _, _, h⟩ := h
    exact ⟨_, h⟩

theorem kreach_ext {nfa : Nfa A} {c : Bool} {k k' : List Nat} (h : KReach nfa c k) (h' : KReach nfa c k')
    (he : ∀ x, x ∈ k ↔ x ∈ k') : k = k' := by
  obtain ⟨l, rfl⟩ := kreach_canon h
  obtain ⟨l', rfl⟩ := kreach_canon h'
  exact frozenset_ext (fun x => by simpa only [mem_frozenset] using he x)

theorem wpath_mentioned {nfa : Nfa A} {q x : Nat} {w : List A} (h : WPath nfa.T nfa.eps q w x) {qs : List Nat}
    (hq : q ∈ nfa.mentioned qs) : x ∈ nfa.mentioned qs := by
  obtain ⟨u, hu, rfl⟩ := h
  induction hu with
  | nil => exact hq
  | cons h _ ih => exact ih (Nfa.T_mentioned h qs)

theorem kreach_sub {nfa : Nfa A} {c : Bool} {k : List Nat} (h : KReach nfa c k) :
    k ∈ (frozenset (nfa.mentioned nfa.initials)).sublists := by
  have hsub : ∀ x ∈ k, x ∈ nfa.mentioned nfa.initials := by
    obtain ⟨w, h⟩ := h
    intro x hx
    obtain ⟨q, hq, hp⟩ := (k0path_mem h x).1 hx
    refine wpath_mentioned hp ?_
    unfold Nfa.mentioned; rw [mem_mkSet, List.mem_append]; exact .inl hq
  obtain ⟨l, rfl⟩ := kreach_canon h
  rw [List.mem_sublists]
  exact frozenset_sublist (fun x hx => hsub x ((mem_frozenset _ _).2 hx))

/-! ## Invariant -/

/-- Invariant; `D k a` holds when the transition of subset `k` by `a` has been installed. -/
structure MInv (nfa : Nfa A) (c : Bool) (D : List Nat → A → Prop) (s : MooreState A) : Prop where
  awf : AWF s.dfa
  q0 : s.dfa.q0 = some 0
  nodup : Dict.NodupKeys s.map
  verts : ∀ q, q ∈ s.dfa.vertices ↔ ∃ k, s.map.get? k = some q
  inj : ∀ k k' q, s.map.get? k = some q → s.map.get? k' = some q → k = k'
  start : s.map.get? (k0 nfa) = some 0
  reach : ∀ k q, s.map.get? k = some q → KReach nfa c k
  fin : ∀ k q, s.map.get? k = some q → s.dfa.isFinal q = k.any nfa.isFinal
  finOnly : ∀ q, s.dfa.isFinal q = true → q ∈ s.dfa.vertices
  inst : ∀ k q a, s.map.get? k = some q → D k a →
    ∃ r, s.map.get? (subsetStep nfa k a) = some r ∧ s.dfa.delta q a = some r
  free : ∀ k q a, s.map.get? k = some q → ¬ D k a → s.dfa.delta q a = none
  todoNodup : s.todo.Nodup
  todoKey : ∀ k ∈ s.todo, ∃ q, s.map.get? k = some q

theorem MInv.congr {nfa : Nfa A} {c : Bool} {D D' : List Nat → A → Prop} {s : MooreState A}
    (h : MInv nfa c D s) (hD : ∀ k q a, s.map.get? k = some q → (D k a ↔ D' k a)) : MInv nfa c D' s := by
  refine { h with inst := ?_, free := ?_ }
  · intro k q a hk hd; exact h.inst k q a hk ((hD k q a hk).2 hd)
  · intro k q a hk hd; exact h.free k q a hk (fun h' => hd ((hD k q a hk).1 h'))

theorem isFinal_addVertex (g : Automaton A) (q : Nat) : g.addVertex.2.isFinal q = g.isFinal q := rfl

theorem isFinal_setFinal (g : Automaton A) (q x : Nat) :
    (g.setFinal q).isFinal x = if q = x then true else g.isFinal x := by
  simp only [Automaton.isFinal, Automaton.setFinal, Dict.getD_set]

/-- Effect of `dfa_add_state` on a new subset. -/
theorem MInv.addState {nfa : Nfa A} {c : Bool} {D : List Nat → A → Prop} {s : MooreState A}
    (h : MInv nfa c D s) {rs : List Nat} (hrs : s.map.get? rs = none) (hr : KReach nfa c rs) :
    MInv nfa c (fun k a => k ≠ rs ∧ D k a)
      ⟨(Moore.addState nfa s.dfa s.map rs).2.1, (Moore.addState nfa s.dfa s.map rs).2.2, setAdd s.todo rs⟩ ∧
    (Moore.addState nfa s.dfa s.map rs).2.2.get? rs = some (Moore.addState nfa s.dfa s.map rs).1 ∧
    (Moore.addState nfa s.dfa s.map rs).2.2.length = s.map.length + 1 ∧
    (∀ k q, s.map.get? k = some q → (Moore.addState nfa s.dfa s.map rs).2.2.get? k = some q) := by
  have hmap : (Moore.addState nfa s.dfa s.map rs).2.2 = s.map.set rs s.dfa.lastVertexId := rfl
  have hq : (Moore.addState nfa s.dfa s.map rs).1 = s.dfa.lastVertexId := rfl
  obtain ⟨dfa, hdfa⟩ : ∃ d, d = (Moore.addState nfa s.dfa s.map rs).2.1 := ⟨_, rfl⟩
  have hrsk : rs ∉ Dict.keys s.map := (Dict.get?_eq_none_iff _ _).1 hrs
  have hfresh : s.dfa.lastVertexId ∉ s.dfa.vertices := Automaton.fresh h.awf
  have hold : ∀ k q, s.map.get? k = some q → k ≠ rs := by
    rintro k q hk rfl; rw [hrs] at hk; cases hk
  have hne : ∀ k q, s.map.get? k = some q → s.dfa.lastVertexId ≠ q := by
    rintro k q hk rfl; exact hfresh ((h.verts _).2 ⟨k, hk⟩)
  have hverts : dfa.vertices = s.dfa.vertices ++ [s.dfa.lastVertexId] := by
    rw [hdfa]; unfold Moore.addState
    simp only
    split
    · exact Automaton.vertices_addVertex h.awf
    · exact Automaton.vertices_addVertex h.awf
  have hdelta : ∀ q a, dfa.delta q a = s.dfa.delta q a := by
    intro q a
    rw [hdfa]; unfold Moore.addState
    simp only
    split
    · exact Automaton.delta_addVertex h.awf q a
    · exact Automaton.delta_addVertex h.awf q a
  have hawf : AWF dfa := by
    have hv := Automaton.AWF_addVertex h.awf
    rw [hdfa]; unfold Moore.addState
    simp only
    split
    · exact ⟨hv.outer, hv.inner, hv.lt⟩
    · exact hv
  have hq0 : dfa.q0 = some 0 := by
    rw [hdfa]; unfold Moore.addState
    simp only
    split <;> exact h.q0
  have hfinNew : s.dfa.isFinal s.dfa.lastVertexId = false := by
    cases hf : s.dfa.isFinal s.dfa.lastVertexId with
    | false => rfl
    | true => exact absurd (h.finOnly _ hf) hfresh
  have hfin : ∀ q, dfa.isFinal q = if s.dfa.lastVertexId = q then rs.any nfa.isFinal else s.dfa.isFinal q := by
    intro q
    rw [hdfa]; unfold Moore.addState
    simp only
    split
    · rename_i hr
      rw [show s.dfa.addVertex.1 = s.dfa.lastVertexId from rfl, isFinal_setFinal, isFinal_addVertex, hr]
    · rename_i hr
      rw [isFinal_addVertex]
      split
      · rename_i he; rw [← he, hfinNew]; simpa using hr
      · rfl
  have hget : ∀ k q, (s.map.set rs s.dfa.lastVertexId).get? k = some q ↔
      (k = rs ∧ q = s.dfa.lastVertexId) ∨ s.map.get? k = some q := by
    intro k q
    rw [Dict.get?_set]
    by_cases hk : rs = k
    · subst hk; simp [hrs, eq_comm]
    · simp [hk, Ne.symm hk]
  rw [hmap, hq, ← hdfa]
  refine ⟨⟨hawf, hq0, Dict.nodupKeys_set h.nodup _ _, ?_, ?_, ?_, ?_, ?_, ?_, ?_, ?_, nodup_setAdd h.todoNodup _, ?_⟩,
    by simp, ?_, ?_⟩
  · intro q
    simp only [hverts, List.mem_append, List.mem_singleton, hget]
    rw [h.verts]
    constructor
    · rintro (⟨k, hk⟩ | hq)
      · exact ⟨k, .inr hk⟩
      · exact ⟨rs, .inl ⟨rfl, hq⟩⟩
    · rintro ⟨k, ⟨_, hq⟩ | hk⟩
      · exact .inr hq
      · exact .inl ⟨k, hk⟩
  · intro k k' q h1 h2
    rw [hget] at h1 h2
    rcases h1 with ⟨rfl, rfl⟩ | h1 <;> rcases h2 with ⟨rfl, e⟩ | h2
    · rfl
    · exact absurd rfl (hne _ _ h2)
    · subst e; exact absurd rfl (hne _ _ h1)
    · exact h.inj _ _ _ h1 h2
  · show (s.map.set rs s.dfa.lastVertexId).get? (k0 nfa) = some 0
    rw [hget]; exact .inr h.start
  · intro k q hk
    rcases (hget k q).1 hk with ⟨rfl, _⟩ | hk
    · exact hr
    · exact h.reach _ _ hk
  · intro k q hk
    show dfa.isFinal q = _
    rw [hfin]
    rcases (hget k q).1 hk with ⟨rfl, rfl⟩ | hk
    · simp
    · rw [if_neg (hne _ _ hk)]; exact h.fin _ _ hk
  · intro q hq
    change dfa.isFinal q = true at hq
    show q ∈ dfa.vertices
    rw [hfin] at hq
    rw [hverts]
    split at hq
    · rename_i e; simp [e]
    · exact List.mem_append_left _ (h.finOnly _ hq)
  · intro k q a hk hd
    rcases (hget k q).1 hk with ⟨rfl, rfl⟩ | hk
    · exact absurd rfl hd.1
    · obtain ⟨r, h1, h2⟩ := h.inst k q a hk hd.2
      exact ⟨r, (hget _ _).2 (.inr h1), by show dfa.delta q a = _; rw [hdelta]; exact h2⟩
  · intro k q a hk hd
    show dfa.delta q a = none
    rw [hdelta]
    rcases (hget k q).1 hk with ⟨rfl, rfl⟩ | hk
    · exact Automaton.delta_not_mem a hfresh
    · exact h.free k q a hk (fun hd' => hd ⟨hold _ _ hk, hd'⟩)
  · intro k hk
    change k ∈ setAdd s.todo rs at hk
    rw [mem_setAdd] at hk
    rcases hk with hk | rfl
    · obtain ⟨q, hq⟩ := h.todoKey k hk
      exact ⟨q, (hget _ _).2 (.inr hq)⟩
    · exact ⟨_, (hget _ _).2 (.inl ⟨rfl, rfl⟩)⟩
  · rw [Dict.set_of_not_mem _ _ _ hrsk]; simp
  · intro k q hk; rw [hget]; exact .inr hk

/-- Effect of installing a transition. -/
theorem MInv.addEdge {nfa : Nfa A} {c : Bool} {D : List Nat → A → Prop} {s : MooreState A}
    (h : MInv nfa c D s) {k : List Nat} {q r : Nat} {a : A} (hk : s.map.get? k = some q)
    (hr : s.map.get? (subsetStep nfa k a) = some r) (hD : ¬ D k a) :
    ∃ x, s.dfa.addEdge q r a = .ok x ∧
      MInv nfa c (fun k' a' => D k' a' ∨ (k' = k ∧ a' = a)) { s with dfa := x.2.2 } := by
  have hq : q ∈ s.dfa.vertices := (h.verts q).2 ⟨k, hk⟩
  refine ⟨_, Automaton.addEdge_of_free (.inl (h.free k q a hk hD)) hq, ?_⟩
  refine ⟨Automaton.AWF_setDelta h.awf r a hq, h.q0, h.nodup, ?_, h.inj, h.start, h.reach, h.fin, ?_, ?_, ?_,
    h.todoNodup, h.todoKey⟩
  · intro x
    show x ∈ (s.dfa.setDelta q r a).vertices ↔ _
    rw [Automaton.vertices_setDelta r a hq]; exact h.verts x
  · intro x hx
    show x ∈ (s.dfa.setDelta q r a).vertices
    rw [Automaton.vertices_setDelta r a hq]; exact h.finOnly x hx
  · intro k' q' a' hk' hd
    change ∃ r', _ ∧ (s.dfa.setDelta q r a).delta q' a' = some r'
    rw [Automaton.delta_setDelta]
    by_cases he : q = q' ∧ a = a'
    · obtain ⟨rfl, rfl⟩ := he
      have : k' = k := h.inj _ _ _ hk' hk
      subst this
      exact ⟨r, hr, by simp⟩
    · rw [if_neg he]
      rcases hd with hd | ⟨rfl, rfl⟩
      · exact h.inst k' q' a' hk' hd
      · change s.map.get? k' = some q' at hk'
        rw [hk] at hk'; cases hk'; exact absurd ⟨rfl, rfl⟩ he
  · intro k' q' a' hk' hd
    show (s.dfa.setDelta q r a).delta q' a' = none
    rw [Automaton.delta_setDelta]
    by_cases he : q = q' ∧ a = a'
    · obtain ⟨rfl, rfl⟩ := he
      have : k' = k := h.inj _ _ _ hk' hk
      exact absurd (.inr ⟨this, rfl⟩) hd
    · rw [if_neg he]; exact h.free k' q' a' hk' (fun h' => hd (.inl h'))

/-- Transitions installed while subset `cur` is being processed, `dn` being the symbols already done. -/
def DCur (nfa : Nfa A) (c : Bool) (cur : List Nat) (dn : List A) (s : MooreState A) (k : List Nat) (a : A) : Prop :=
  (k ∉ s.todo ∧ k ≠ cur ∧ a ∈ subsetSigma nfa c k) ∨ (k = cur ∧ a ∈ dn)

/-- One symbol. -/
theorem symbolStep_inv {nfa : Nfa A} {c : Bool} {cur : List Nat} {q : Nat} {dn : List A} {a : A} {s : MooreState A}
    (h : MInv nfa c (DCur nfa c cur dn s) s) (hcur : s.map.get? cur = some q) (hct : cur ∉ s.todo)
    (ha : a ∈ subsetSigma nfa c cur) (hdn : a ∉ dn) :
    ∃ s', symbolStep nfa cur q s a = .ok s' ∧ MInv nfa c (DCur nfa c cur (dn ++ [a]) s') s' ∧
      s'.map.get? cur = some q ∧ cur ∉ s'.todo ∧
      s'.todo.length + s.map.length = s.todo.length + s'.map.length ∧ s.map.length ≤ s'.map.length := by
  have hreach : KReach nfa c (subsetStep nfa cur a) := by
    obtain ⟨w, hw⟩ := h.reach _ _ hcur
    exact ⟨w ++ [a], hw.snoc ⟨ha, rfl⟩⟩
  unfold symbolStep
  cases hrs : s.map.get? (subsetStep nfa cur a) with
  | some r =>
    have hD : ¬ DCur nfa c cur dn s cur a := by rintro (⟨_, h2, _⟩ | ⟨_, h2⟩); exacts [h2 rfl, hdn h2]
    obtain ⟨x, hx, hi⟩ := h.addEdge hcur hrs hD
    refine ⟨{ s with dfa := x.2.2 }, by simp [hrs, hx, bind, Except.bind], ?_, hcur, hct, rfl, Nat.le_refl _⟩
    refine hi.congr ?_
    intro k q' a' _
    simp only [DCur, List.mem_append, List.mem_singleton]
    tauto
  | none =>
    obtain ⟨h1, h2, h3, h4⟩ := h.addState hrs hreach
    have hne : cur ≠ subsetStep nfa cur a := by intro e; rw [← e, hcur] at hrs; cases hrs
    have hD : ¬ (cur ≠ subsetStep nfa cur a ∧ DCur nfa c cur dn s cur a) := by
      rintro ⟨_, ⟨_, h2, _⟩ | ⟨_, h2⟩⟩; exacts [h2 rfl, hdn h2]
    obtain ⟨x, hx, hi⟩ := h1.addEdge (h4 _ _ hcur) h2 hD
    refine ⟨⟨x.2.2, (addState nfa s.dfa s.map (subsetStep nfa cur a)).2.2, setAdd s.todo (subsetStep nfa cur a)⟩,
      ?_, ?_, h4 _ _ hcur, ?_, ?_, by simp only [h3]; omega⟩
    · simp only [hrs]
      simp only [hx, bind, Except.bind]
    · refine hi.congr ?_
      intro k q' a' _
      simp only [DCur, List.mem_append, List.mem_singleton, mem_setAdd]
      by_cases hk : k = subsetStep nfa cur a
      · subst hk
        simp [hne.symm]
      · simp [hk]; tauto
    · rw [mem_setAdd]; rintro (h | h); exacts [hct h, hne h]
    · have hnt : subsetStep nfa cur a ∉ s.todo := by
        intro hm; obtain ⟨q', hq'⟩ := h.todoKey _ hm; rw [hrs] at hq'; cases hq'
      show (setAdd s.todo _).length + _ = _
      simp only [h3, setAdd, hnt, if_false, List.length_append, List.length_singleton]
      omega

/-- All the symbols. -/
theorem symbols_inv {nfa : Nfa A} {c : Bool} {cur : List Nat} {q : Nat} (l dn : List A) (hl : (dn ++ l).Nodup)
    (hs : ∀ a ∈ l, a ∈ subsetSigma nfa c cur) {s : MooreState A}
    (h : MInv nfa c (DCur nfa c cur dn s) s) (hcur : s.map.get? cur = some q) (hct : cur ∉ s.todo) :
    ∃ s', l.foldlM (symbolStep nfa cur q) s = .ok s' ∧ MInv nfa c (DCur nfa c cur (dn ++ l) s') s' ∧
      s'.map.get? cur = some q ∧ cur ∉ s'.todo ∧
      s'.todo.length + s.map.length = s.todo.length + s'.map.length ∧ s.map.length ≤ s'.map.length := by
  induction l generalizing dn s with
  | nil => exact ⟨s, rfl, by simpa using h, hcur, hct, rfl, Nat.le_refl _⟩
  | cons a l ih =>
    have hdn : a ∉ dn := by
      intro ha
      have := List.nodup_append.1 hl
      exact this.2.2 a ha a (by simp) rfl
    obtain ⟨s1, e1, h1, hc1, ht1, hm1, hge1⟩ := symbolStep_inv h hcur hct (hs a (by simp)) hdn
    obtain ⟨s2, e2, h2, hc2, ht2, hm2, hge2⟩ := ih (dn ++ [a]) (by simpa using hl) (fun b hb => hs b (by simp [hb])) h1 hc1 ht1
    refine ⟨s2, ?_, by simpa using h2, hc2, ht2, by omega, by omega⟩
    rw [List.foldlM_cons, e1]; exact e2

/-- Installed transitions between two iterations of the `while` loop. -/
def DOut (nfa : Nfa A) (c : Bool) (s : MooreState A) (k : List Nat) (a : A) : Prop :=
  k ∉ s.todo ∧ a ∈ subsetSigma nfa c k

/-- What the result of `moore_determination` satisfies. -/
def MPost (nfa : Nfa A) (c : Bool) : Except PyErr (Automaton A) → Prop
  | .error _ => False
  | .ok dfa => ∃ map, MInv nfa c (fun k a => a ∈ subsetSigma nfa c k) ⟨dfa, map, []⟩

theorem map_bound {nfa : Nfa A} {c : Bool} {D : List Nat → A → Prop} {s : MooreState A} (h : MInv nfa c D s) :
    s.map.length ≤ 2 ^ (frozenset (nfa.mentioned nfa.initials)).length := by
  rw [← List.length_sublists]
  have hk : (Dict.keys s.map).Nodup := h.nodup
  have := (List.subperm_of_subset hk (l₂ := (frozenset (nfa.mentioned nfa.initials)).sublists) ?_).length_le
  · simpa [Dict.keys] using this
  · intro k hk
    obtain ⟨q, hq⟩ := (Dict.mem_keys_iff _ _).1 hk
    exact kreach_sub (h.reach _ _ hq)

theorem start_inv (nfa : Nfa A) (c : Bool) : MInv nfa c (DOut nfa c (start nfa)) (start nfa) := by
  have hg : (start nfa).map.get? (k0 nfa) = some 0 := by
    simp [start, addState, Automaton.addVertex, Automaton.empty, k0, Dict.set]
  have hm : ∀ k q, (start nfa).map.get? k = some q ↔ k = k0 nfa ∧ q = 0 := by
    intro k q
    have : (start nfa).map = [(k0 nfa, 0)] := rfl
    rw [this]; simp [Dict.get?, eq_comm]
  have hv : (start nfa).dfa.vertices = [0] := by
    simp only [start, addState]; split <;> rfl
  have hde : ∀ q a, (start nfa).dfa.delta q a = none := by
    intro q a
    have : (start nfa).dfa.adj = [(0, [])] := by simp only [start, addState]; split <;> rfl
    rw [Automaton.delta_eq, this]
    simp only [Dict.get?]
    split <;> simp
  have hf : ∀ q, (start nfa).dfa.isFinal q = if 0 = q then (k0 nfa).any nfa.isFinal else false := by
    intro q
    show Dict.getD (start nfa).dfa.final q false = _
    cases hb : (k0 nfa).any nfa.isFinal with
    | true =>
      have : (start nfa).dfa.final = [(0, true)] := by
        simp only [start, addState]
        rw [show frozenset (nfa.deltaEpsilon nfa.initials) = k0 nfa from rfl, hb]; rfl
      rw [this]
      simp only [Dict.getD, Dict.get?]; split <;> rfl
    | false =>
      have : (start nfa).dfa.final = [] := by
        simp only [start, addState]
        rw [show frozenset (nfa.deltaEpsilon nfa.initials) = k0 nfa from rfl, hb]; rfl
      rw [this]; simp [Dict.getD, Dict.get?]
  have ht : (start nfa).todo = [k0 nfa] := rfl
  refine ⟨?_, ?_, ?_, ?_, ?_, hg, ?_, ?_, ?_, ?_, ?_, ?_, ?_⟩
  · have hadj : (start nfa).dfa.adj = [(0, [])] := by simp only [start, addState]; split <;> rfl
    have hl : (start nfa).dfa.lastVertexId = 1 := by simp only [start, addState]; split <;> rfl
    refine ⟨by rw [hadj]; simp [Dict.NodupKeys], ?_, ?_⟩
    · intro q d h
      rw [hadj] at h; simp only [Dict.get?] at h
      split at h
      · cases h; exact Dict.nodupKeys_nil
      · cases h
    · intro q hq; rw [hv] at hq; rw [hl]; simp at hq; omega
  · simp only [start, addState]; split <;> rfl
  · show Dict.NodupKeys [(k0 nfa, 0)]; simp [Dict.NodupKeys]
  · intro q; rw [hv]; simp only [hm]; simp
  · intro k k' q h1 h2; rw [hm] at h1 h2; rw [h1.1, h2.1]
  · intro k q h; rw [hm] at h; rw [h.1]; exact ⟨[], .nil _⟩
  · intro k q h; rw [hm] at h; rw [hf, h.1, h.2]; simp
  · intro q h; rw [hf] at h; rw [hv]; split at h
    · simp_all
    · cases h
  · intro k q a h hd
    rw [hm] at h
    exact absurd (by rw [ht, h.1]; simp) hd.1
  · intro k q a _ _; exact hde q a
  · rw [ht]; simp
  · intro k hk; rw [ht] at hk; simp at hk; exact ⟨0, by rw [hk]; exact hg⟩

/-- `moore_determination` terminates and returns the subset automaton. -/
theorem run_spec (nfa : Nfa A) (c : Bool) (pick : Nat → Nat) (order : Nat → List A → List A)
    (hord : ∀ t l, (order t l).Perm l) :
    ∃ r, Returns (Moore.run nfa c pick order) r ∧ MPost nfa c r := by
  refine loop_total (step nfa c pick order) (fun s => MInv nfa c (DOut nfa c s) s)
    (fun s => 2 * (2 ^ (frozenset (nfa.mentioned nfa.initials)).length - s.map.length) + s.todo.length)
    (MPost nfa c) ?_ ?_ ?_ (start_inv nfa c) 0
  · intro t s s' h hs
    unfold step at hs
    cases hp : s.todo[pick t % s.todo.length]? with
    | none => rw [hp] at hs; simp at hs
    | some cur =>
      have hmem : cur ∈ s.todo := List.mem_of_getElem? hp
      obtain ⟨q, hq⟩ := h.todoKey cur hmem
      rw [hp] at hs
      simp only [Dict.getE_of_get? hq] at hs
      have hpm := hord t (subsetSigma nfa c cur)
      have h0 : MInv nfa c (DCur nfa c cur [] { s with todo := setDiscard s.todo cur })
          { s with todo := setDiscard s.todo cur } := by
        have h' : MInv nfa c (DOut nfa c s) { s with todo := setDiscard s.todo cur } :=
          { h with
            todoNodup := nodup_setDiscard h.todoNodup _
            todoKey := fun k hk => h.todoKey k ((mem_setDiscard _ _ _).1 hk).1 }
        refine h'.congr ?_
        intro k q' a hk
        simp only [DOut, DCur, mem_setDiscard, List.not_mem_nil, and_false, or_false]
        by_cases hkc : k = cur
        · subst hkc; simp [hmem]
        · simp [hkc]
      obtain ⟨s1, e1, h1, hc1, ht1, hm1, hge1⟩ := symbols_inv (order t (subsetSigma nfa c cur)) []
        (by simpa using hpm.nodup_iff.2 (nodup_subsetSigma nfa c cur))
        (fun a ha => hpm.mem_iff.1 ha) h0 hq (by simp)
      rw [e1] at hs
      simp only [Step.next.injEq] at hs
      subst hs
      refine ⟨h1.congr ?_, ?_⟩
      · intro k q' a hk
        simp only [DOut, DCur, List.nil_append, hpm.mem_iff]
        by_cases hkc : k = cur
        · subst hkc; simp [ht1]
        · simp [hkc]
      · have hb := map_bound h1
        have hlen : (setDiscard s.todo cur).length + 1 ≤ s.todo.length := by
          have : (cur :: setDiscard s.todo cur).Nodup :=
            List.nodup_cons.2 ⟨by simp, nodup_setDiscard h.todoNodup _⟩
          refine (List.subperm_of_subset this ?_).length_le
          intro k hk
          rcases List.mem_cons.1 hk with rfl | hk
          · exact hmem
          · exact ((mem_setDiscard _ _ _).1 hk).1
        simp only at hm1
        simp only at hge1
        omega
  · intro t s r h hs
    unfold step at hs
    cases hp : s.todo[pick t % s.todo.length]? with
    | none =>
      rw [hp] at hs
      simp only [Step.done.injEq] at hs
      subst hs
      have hnil : s.todo = [] := by
        by_contra hne
        have hpos : 0 < s.todo.length := List.length_pos_iff.2 hne
        have hlt : pick t % s.todo.length < s.todo.length := Nat.mod_lt _ hpos
        rw [List.getElem?_eq_getElem hlt] at hp; cases hp
      refine ⟨s.map, ?_⟩
      have : s = ⟨s.dfa, s.map, []⟩ := by cases s; simp at hnil ⊢; exact hnil
      rw [← this]
      refine h.congr ?_
      intro k q a _; simp [DOut, hnil]
    | some cur =>
      obtain ⟨q, hq⟩ := h.todoKey cur (List.mem_of_getElem? hp)
      rw [hp] at hs
      simp only [Dict.getE_of_get? hq] at hs
      split at hs <;> cases hs
  · intro t s e h hs
    unfold step at hs
    cases hp : s.todo[pick t % s.todo.length]? with
    | none => rw [hp] at hs; simp at hs
    | some cur =>
      have hmem : cur ∈ s.todo := List.mem_of_getElem? hp
      obtain ⟨q, hq⟩ := h.todoKey cur hmem
      rw [hp] at hs
      simp only [Dict.getE_of_get? hq] at hs
      have hpm := hord t (subsetSigma nfa c cur)
      have h0 : MInv nfa c (DCur nfa c cur [] { s with todo := setDiscard s.todo cur })
          { s with todo := setDiscard s.todo cur } := by
        have h' : MInv nfa c (DOut nfa c s) { s with todo := setDiscard s.todo cur } :=
          { h with
            todoNodup := nodup_setDiscard h.todoNodup _
            todoKey := fun k hk => h.todoKey k ((mem_setDiscard _ _ _).1 hk).1 }
        refine h'.congr ?_
        intro k q' a hk
        simp only [DOut, DCur, mem_setDiscard, List.not_mem_nil, and_false, or_false]
        by_cases hkc : k = cur
        · subst hkc; simp [hmem]
        · simp [hkc]
      obtain ⟨s1, e1, _⟩ := symbols_inv (order t (subsetSigma nfa c cur)) []
        (by simpa using hpm.nodup_iff.2 (nodup_subsetSigma nfa c cur))
        (fun a ha => hpm.mem_iff.1 ha) h0 hq (by simp)
      rw [e1] at hs
      cases hs

end Moore
end PyBGL
