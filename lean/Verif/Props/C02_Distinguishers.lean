import Verif.Props.C01_C05_DirectedGraph
import Verif.Props.C06_C07_UndirectedGraph
import Verif.Props.C08_IncidenceGraph
import Verif.Proofs.AutomatonLemmas

/-!
# C02, C07, C08: the number of a new edge

`add_edge(u, v)` gives the new edge the least number greater than those of the edges that already
join `u` and `v`.
-/

namespace PyBGL

theorem lk_nil_of_get? {adj : Dict Nat (Dict Nat (List Nat))} {u v : Nat} {vs}
    (h : adj.get? u = some vs) (h' : vs.get? v = none) : lk adj u v = [] := by simp [lk, h, h']

/-- The number given by `DirectedGraph.add_edge`, in any state of the adjacency lists. -/
theorem addEdge_distinguisher {g g' : Graph} {u v : Nat} {e : EdgeDesc Nat}
    (h : g.addEdge u v = .ok (e, g')) (k : Nat) :
    e.distinguisher ≤ k ↔ ∀ n ∈ lk g.adj u v, n < k := by
  have key : ∀ (s : List Nat) (a k : Nat), s.foldl max a ≤ k ↔ a ≤ k ∧ ∀ n ∈ s, n ≤ k := by
    intro s
    induction s with
    | nil => intro a k; simp
    | cons y s ih =>
      intro a k
      simp only [List.foldl_cons, List.mem_cons, forall_eq_or_imp, ih]
      constructor
      · rintro ⟨h1, h2⟩; exact ⟨by omega, by omega, h2⟩
      · rintro ⟨h1, h2, h3⟩; exact ⟨by omega, h3⟩
  unfold Graph.addEdge at h
  obtain ⟨vs, h1, h2⟩ := except_bind_ok.mp h
  have h1' : g.adj.get? u = some vs := by
    unfold Dict.getE at h1
    split at h1
    · simp_all
    · simp at h1
  cases hv : vs.get? v with
  | none =>
    simp only [hv] at h2
    cases h2
    simp [lk_nil_of_get? h1' hv]
  | some s =>
    simp only [hv] at h2
    cases h2
    have hlk : lk g.adj u v = s := by simp [lk, h1', hv]
    rw [hlk]
    show Graph.nextDistinguisher s ≤ k ↔ _
    unfold Graph.nextDistinguisher
    split
    · rename_i hs
      have : s = [] := List.length_eq_zero_iff.mp hs
      simp [this]
    · rename_i hs
      obtain ⟨a, s', rfl⟩ : ∃ a s', s = a :: s' := by
        cases s with
        | nil => simp at hs
        | cons a s' => exact ⟨a, s', rfl⟩
      cases k with
      | zero => simp only [Nat.add_one_ne_zero, Nat.le_zero_eq, Nat.not_lt_zero, false_iff]; intro hh; exact hh a (by simp)
      | succ k =>
        have := key (a :: s') 0 k
        simp only [Nat.add_le_add_iff_right, this, Nat.zero_le, true_and, Nat.lt_succ_iff]

/-- **C02** (numbers of parallel edges). After any history of a `DirectedGraph`, the number of the
edge returned by `add_edge(u, v)` is the least one above the numbers of the edges from `u` to `v`:
0 if there is none, the greatest number plus one otherwise. -/
theorem C02_distinguisher_exact {g : Graph} {l : GLog} (h : History Graph.exec .empty g l)
    {u v : Nat} {e : EdgeDesc Nat} {g' : Graph} (ha : g.addEdge u v = .ok (e, g')) :
    (∀ n, ⟨u, v, n⟩ ∈ g.edges → n < e.distinguisher) ∧
    (∀ k, (∀ n, ⟨u, v, n⟩ ∈ g.edges → n < k) → e.distinguisher ≤ k) := by
  have hw := (Graph.history_inv h).wf
  simp only [Graph.mem_edges hw]
  exact ⟨(addEdge_distinguisher ha _).mp (Nat.le_refl _), fun k hk => (addEdge_distinguisher ha k).mpr hk⟩

/-- **C08** (numbers of parallel edges). The same for an `IncidenceGraph`. -/
theorem C08_distinguisher_exact {g : IGraph} {l : GLog} (h : History IGraph.exec .empty g l)
    {u v : Nat} {e : EdgeDesc Nat} {g' : IGraph} (ha : g.addEdge u v = .ok (e, g')) :
    (∀ n, ⟨u, v, n⟩ ∈ g.edges → n < e.distinguisher) ∧
    (∀ k, (∀ n, ⟨u, v, n⟩ ∈ g.edges → n < k) → e.distinguisher ≤ k) := by
  have hw := (IGraph.history_inv h).wf.out
  unfold IGraph.addEdge at ha
  obtain ⟨⟨e', g1⟩, h1, h2⟩ := except_bind_ok.mp ha
  obtain ⟨vs, h3, h4⟩ := except_bind_ok.mp h2
  have he : e' = e := by
    dsimp only at h4
    split at h4 <;> cases h4 <;> rfl
  subst he
  simp only [IGraph.edges, Graph.mem_edges hw]
  exact ⟨(addEdge_distinguisher h1 _).mp (Nat.le_refl _), fun k hk => (addEdge_distinguisher h1 k).mpr hk⟩

/-- **C07** (numbers of parallel edges). The same for an `UndirectedGraph`, between `u` and `v` in
whatever order they are given. -/
theorem C07_distinguisher_exact {g : Graph} {l : GLog} (h : History UGraph.exec .empty g l)
    {u v : Nat} {e : EdgeDesc Nat} {g' : Graph} (ha : UGraph.addEdge g u v = .ok (e, g')) :
    (∀ n, ⟨min u v, max u v, n⟩ ∈ UGraph.edges g → n < e.distinguisher) ∧
    (∀ k, (∀ n, ⟨min u v, max u v, n⟩ ∈ UGraph.edges g → n < k) → e.distinguisher ≤ k) := by
  have hw := (UGraph.history_inv h).wf
  unfold UGraph.addEdge at ha
  obtain ⟨⟨e', g1⟩, h1, h2⟩ := except_bind_ok.mp ha
  obtain ⟨vs, h3, h4⟩ := except_bind_ok.mp h2
  obtain ⟨s, h5, h6⟩ := except_bind_ok.mp h4
  have he : e' = e := by cases h6; rfl
  subst he
  have hm : ∀ n, (⟨min u v, max u v, n⟩ : EdgeDesc Nat) ∈ UGraph.edges g ↔
      n ∈ lk g.adj (min u v) (max u v) := by
    intro n
    rw [UGraph.mem_edges hw]
    have : min u v ≤ max u v := by omega
    simp [this]
  simp only [hm]
  exact ⟨(addEdge_distinguisher h1 _).mp (Nat.le_refl _), fun k hk => (addEdge_distinguisher h1 k).mpr hk⟩

/-- In an `UndirectedGraph`, an edge removed from its greatest end leaves an empty set of numbers
behind: the next edge has number 0 again. The three statements apply to histories with parallel,
removed and added edges. -/
example : ∃ g l e g', History UGraph.exec .empty g l ∧ UGraph.addEdge g 1 0 = .ok (e, g') ∧
    e = ⟨0, 1, 0⟩ ∧ g.adj = [(0, [(1, [])]), (1, [])] := by
  refine ⟨_, _, _, _, runCalls_history [.addVertex, .addVertex, .addEdge 0 1,
    .removeEdge ⟨1, 0, 0⟩] .start rfl, rfl, ?_, ?_⟩ <;> decide

example : ∃ g l e g', History Graph.exec .empty g l ∧ g.addEdge 0 1 = .ok (e, g') ∧
    e = ⟨0, 1, 3⟩ := by
  refine ⟨_, _, _, _, runCalls_history exampleCalls .start rfl, rfl, ?_⟩; decide

end PyBGL
