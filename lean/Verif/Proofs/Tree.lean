import Verif.Proofs.DfsSim
import Verif.Proofs.PathLemmas
import Verif.Proofs.PyLemmas
import Verif.Spec.Traversal
import Mathlib.Data.List.Perm.Subperm

/-!
# Traversals of trees
-/

namespace PyBGL
variable {V E σ : Type}

namespace Tree
variable (g : GraphI V E)

/-- Runs of `dfs_tree`: from the stack (top first) to the list of nodes discovered. -/
inductive Pre : List V → List V → Prop
  | nil : Pre [] []
  | cons {u : V} {st out : List V} (h : Pre (((g.outEdges u).map g.target).reverse ++ st) out) : Pre (u :: st) (u :: out)

/-- Runs of `bfs_tree`: from the queue (first out first) to the list of nodes discovered. -/
inductive Lev : List V → List V → Prop
  | nil : Lev [] []
  | cons {u : V} {q out : List V} (h : Lev (q ++ (g.outEdges u).map g.target) out) : Lev (u :: q) (u :: out)

variable {g}

theorem foldl_push (es : List E) (st : List V) :
    es.foldl (fun st e => g.target e :: st) st = (es.map g.target).reverse ++ st := by
  induction es generalizing st with
  | nil => rfl
  | cons e es ih => simp [ih]

theorem foldl_enqueue (es : List E) (q : List V) :
    es.foldl (fun q e => q ++ [g.target e]) q = q ++ es.map g.target := by
  induction es generalizing q with
  | nil => simp
  | cons e es ih => simp [ih]

/-- The whole trace for the nodes `out`. -/
def trace (g : GraphI V E) (out : List V) : List (TreeEvent V E) := out.flatMap (treeCalls g)

theorem Pre.sim {X out : List V} (h : Pre g X out) (vis : Visitor (TreeEvent V E) σ) (st : σ) (t : Nat) :
    ∀ fuel, out.length < fuel → loop (dfsTreeStep g vis) fuel t (X, st) = some (emit vis (trace g out) st) := by
  induction h generalizing st t with
  | nil =>
    intro fuel hf
    obtain ⟨n, rfl⟩ : ∃ n, fuel = n + 1 := ⟨fuel - 1, by omega⟩
    simp [loop, dfsTreeStep, trace]
  | @cons u X out h ih =>
    intro fuel hf
    obtain ⟨n, rfl⟩ : ∃ n, fuel = n + 1 := ⟨fuel - 1, by omega⟩
    simp only [loop, dfsTreeStep, trace, List.flatMap_cons, emit_append]
    cases he : emit vis (treeCalls g u) st with
    | error e => rfl
    | ok x =>
      simp only [foldl_push]
      exact ih x (t + 1) n (by simp at hf; omega)

theorem Lev.sim {X out : List V} (h : Lev g X out) (vis : Visitor (TreeEvent V E) σ) (st : σ) (t : Nat) :
    ∀ fuel, out.length < fuel → loop (bfsTreeStep g vis) fuel t (X, st) = some (emit vis (trace g out) st) := by
  induction h generalizing st t with
  | nil =>
    intro fuel hf
    obtain ⟨n, rfl⟩ : ∃ n, fuel = n + 1 := ⟨fuel - 1, by omega⟩
    simp [loop, bfsTreeStep, trace]
  | @cons u X out h ih =>
    intro fuel hf
    obtain ⟨n, rfl⟩ : ∃ n, fuel = n + 1 := ⟨fuel - 1, by omega⟩
    simp only [loop, bfsTreeStep, trace, List.flatMap_cons, emit_append]
    cases he : emit vis (treeCalls g u) st with
    | error e => rfl
    | ok x =>
      simp only [foldl_enqueue]
      exact ih x (t + 1) n (by simp at hf; omega)

theorem Pre.append {X Y o o' : List V} (h : Pre g X o) (h' : Pre g Y o') : Pre g (X ++ Y) (o ++ o') := by
  induction h with
  | nil => exact h'
  | cons h ih => exact Pre.cons (by rw [List.append_assoc] at ih; exact ih)

theorem Pre.split {X Y o : List V} (h : Pre g (X ++ Y) o) : ∃ o1 o2, o = o1 ++ o2 ∧ Pre g X o1 ∧ Pre g Y o2 := by
  generalize hZ : X ++ Y = Z at h
  induction h generalizing X with
  | nil =>
    simp at hZ
    obtain ⟨rfl, rfl⟩ := hZ
    exact ⟨[], [], rfl, .nil, .nil⟩
  | @cons u st out h ih =>
    cases X with
    | nil =>
      simp at hZ; subst hZ
      exact ⟨[], _, rfl, .nil, .cons h⟩
    | cons x X =>
      simp only [List.cons_append, List.cons.injEq] at hZ
      obtain ⟨rfl, rfl⟩ := hZ
      obtain ⟨o1, o2, rfl, h1, h2⟩ := ih (X := ((g.outEdges x).map g.target).reverse ++ X) (by simp)
      exact ⟨x :: o1, o2, rfl, .cons h1, h2⟩

theorem Pre.perm {X Y : List V} (hp : X.Perm Y) : ∀ {o : List V}, Pre g X o → ∃ o', o.Perm o' ∧ Pre g Y o' := by
  induction hp with
  | nil => intro o h; exact ⟨o, .refl _, h⟩
  | @cons x X Y hp ih =>
    intro o h
    obtain ⟨o1, o2, rfl, h1, h2⟩ := Pre.split (X := [x]) (Y := X) h
    obtain ⟨o', hp', h'⟩ := ih h2
    exact ⟨o1 ++ o', hp'.append_left _, h1.append h'⟩
  | swap x y X =>
    intro o h
    obtain ⟨o1, o2, rfl, h1, h2⟩ := Pre.split (X := [y]) (Y := x :: X) h
    obtain ⟨o3, o4, rfl, h3, h4⟩ := Pre.split (X := [x]) (Y := X) h2
    refine ⟨o3 ++ (o1 ++ o4), ?_, h3.append (h1.append h4)⟩
    rw [← List.append_assoc, ← List.append_assoc]
    exact (List.perm_append_comm).append_right _
  | trans _ _ ih1 ih2 =>
    intro o h
    obtain ⟨o1, hp1, h1⟩ := ih1 h
    obtain ⟨o2, hp2, h2⟩ := ih2 h1
    exact ⟨o2, hp1.trans hp2, h2⟩

theorem reach_cases {u v : V} : Reach g u v ↔ v = u ∨ ∃ e ∈ g.outEdges u, Reach g (g.target e) v := by
  constructor
  · rintro ⟨es, h⟩
    cases h with
    | nil => exact .inl rfl
    | cons he h => exact .inr ⟨_, he, _, h⟩
  · rintro (rfl | ⟨e, he, h⟩)
    · exact Reach.refl _ _
    · exact (Reach.edge he).trans h

theorem Pre.mem {X o : List V} (h : Pre g X o) (v : V) : v ∈ o ↔ ∃ x ∈ X, Reach g x v := by
  induction h with
  | nil => simp
  | @cons u st out h ih =>
    simp only [List.mem_cons, ih, List.mem_append, List.mem_reverse, List.mem_map, exists_eq_or_imp]
    rw [reach_cases]
    constructor
    · rintro (h | ⟨x, ⟨e, he, rfl⟩ | hx, hr⟩)
      · exact .inl (.inl h)
      · exact .inl (.inr ⟨e, he, hr⟩)
      · exact .inr ⟨x, hx, hr⟩
    · rintro ((h | ⟨e, he, hr⟩) | ⟨x, hx, hr⟩)
      · exact .inl h
      · exact .inr ⟨_, .inl ⟨e, he, rfl⟩, hr⟩
      · exact .inr ⟨x, .inr hx, hr⟩

variable {s : V} {U : List V}

theorem isPath_end {u v w : V} {es : List E} (h : IsPath g u es v) (h' : IsPath g u es w) : v = w := by
  induction h with
  | nil => cases h'; rfl
  | cons he _ ih => cases h' with | cons _ h' => exact ih h'

/-- No vertex is reachable from two distinct children. -/
theorem child_disjoint (t : IsTree g s U) {u v : V} (hu : Reach g s u) {e e' : E} (he : e ∈ g.outEdges u) (he' : e' ∈ g.outEdges u)
    (hr : Reach g (g.target e) v) (hr' : Reach g (g.target e') v) : e = e' := by
  obtain ⟨p, hp⟩ := hu
  obtain ⟨q, hq⟩ := hr
  obtain ⟨q', hq'⟩ := hr'
  have := t.unique v _ _ (hp.append (.cons he hq)) (hp.append (.cons he' hq'))
  simp at this
  exact this.1

theorem child_acyclic (t : IsTree g s U) {u : V} (hu : Reach g s u) {e : E} (he : e ∈ g.outEdges u) : ¬ Reach g (g.target e) u := by
  rintro ⟨q, hq⟩
  obtain ⟨p, hp⟩ := hu
  have := t.unique u _ _ hp (hp.append (.cons he hq))
  simp at this

theorem Pre.nodup (t : IsTree g s U) {X o : List V} (h : Pre g X o) (hX : ∀ x ∈ X, Reach g s x)
    (hd : X.Pairwise (fun x y => ∀ v, ¬ (Reach g x v ∧ Reach g y v))) : o.Nodup := by
  induction h with
  | nil => exact .nil
  | @cons u st out h ih =>
    have hu := hX u (by simp)
    have hm := h.mem u
    rw [List.pairwise_cons] at hd
    rw [List.nodup_cons]
    constructor
    · rw [hm]
      rintro ⟨x, hx, hr⟩
      simp only [List.mem_append, List.mem_reverse, List.mem_map] at hx
      rcases hx with ⟨e, he, rfl⟩ | hx
      · exact child_acyclic t hu he hr
      · exact hd.1 x hx u ⟨Reach.refl _ _, hr⟩
    · apply ih
      · intro x hx
        simp only [List.mem_append, List.mem_reverse, List.mem_map] at hx
        rcases hx with ⟨e, he, rfl⟩ | hx
        · exact hu.step he
        · exact hX x (by simp [hx])
      · rw [List.pairwise_append]
        refine ⟨?_, hd.2, ?_⟩
        · rw [List.pairwise_reverse, List.pairwise_map]
          refine (List.pairwise_iff_forall_sublist.mpr ?_)
          intro e e' hs v ⟨h1, h2⟩
          have he' : e' ∈ g.outEdges u := hs.subset (by simp)
          have he : e ∈ g.outEdges u := hs.subset (by simp)
          have heq := child_disjoint t hu he he' h2 h1
          have := (t.listed u hu).sublist hs
          simp [heq] at this
        · intro x hx y hy v ⟨h1, h2⟩
          simp only [List.mem_reverse, List.mem_map] at hx
          obtain ⟨e, he, rfl⟩ := hx
          exact hd.1 y hy v ⟨(Reach.edge he).trans h1, h2⟩

open Classical in
/-- The number of vertices below a vertex. -/
noncomputable def numBelow (g : GraphI V E) (U : List V) (u : V) : Nat := (U.filter (fun v => decide (Reach g u v))).length

open Classical in
theorem numBelow_lt (t : IsTree g s U) {u : V} (hu : Reach g s u) {e : E} (he : e ∈ g.outEdges u) :
    numBelow g U (g.target e) < numBelow g U u := by
  unfold numBelow
  rw [← List.countP_eq_length_filter, ← List.countP_eq_length_filter]
  have hmem := t.finite u hu
  have hmono : ∀ v, Reach g (g.target e) v → Reach g u v := fun v h => (Reach.edge he).trans h
  have hna := child_acyclic t hu he
  clear t
  induction U with
  | nil => simp at hmem
  | cons x U ih =>
    have hle : List.countP (fun v => decide (Reach g (g.target e) v)) U ≤ List.countP (fun v => decide (Reach g u v)) U :=
      List.countP_mono_left (fun v _ h => by simpa using hmono v (by simpa using h))
    rw [List.countP_cons, List.countP_cons]
    rcases List.mem_cons.mp hmem with rfl | hm
    · rw [if_neg (by simpa using hna), if_pos (by simpa using Reach.refl g u)]
      omega
    · have := ih hm
      by_cases h1 : Reach g (g.target e) x
      · rw [if_pos (by simpa using h1), if_pos (by simpa using hmono x h1)]; omega
      · rw [if_neg (by simpa using h1)]; split <;> omega

theorem Pre.exists_list {X : List V} (h : ∀ x ∈ X, ∃ o, Pre g [x] o) : ∃ o, Pre g X o := by
  induction X with
  | nil => exact ⟨[], .nil⟩
  | cons x X ih =>
    obtain ⟨o, ho⟩ := h x (by simp)
    obtain ⟨o', ho'⟩ := ih (fun y hy => h y (by simp [hy]))
    exact ⟨o ++ o', ho.append ho'⟩

theorem Pre.exists (t : IsTree g s U) : ∀ n u, Reach g s u → numBelow g U u ≤ n → ∃ o, Pre g [u] o := by
  intro n
  induction n with
  | zero =>
    intro u hu h
    cases hes : g.outEdges u with
    | nil => exact ⟨[u], .cons (by rw [hes]; exact .nil)⟩
    | cons e es =>
      have he : e ∈ g.outEdges u := by rw [hes]; simp
      have := numBelow_lt t hu he
      omega
  | succ n ih =>
    intro u hu h
    obtain ⟨o, ho⟩ := Pre.exists_list (g := g) (X := ((g.outEdges u).map g.target).reverse) (by
      intro x hx
      simp only [List.mem_reverse, List.mem_map] at hx
      obtain ⟨e, he, rfl⟩ := hx
      exact ih _ (hu.step he) (by have := numBelow_lt t hu he; omega))
    exact ⟨u :: o, .cons (by simpa using ho)⟩

/-- Every run of `dfs_tree` is matched by a run of `bfs_tree` over the same nodes. -/
theorem Pre.lev : ∀ n {X o : List V}, o.length = n → Pre g X o → ∃ o', o.Perm o' ∧ Lev g X o' := by
  intro n
  induction n with
  | zero =>
    intro X o hn h
    cases h with
    | nil => exact ⟨[], .refl _, .nil⟩
    | cons h => simp at hn
  | succ n ih =>
    intro X o hn h
    cases h with
    | nil => simp at hn
    | @cons u st out h =>
      have hp : (((g.outEdges u).map g.target).reverse ++ st).Perm (st ++ (g.outEdges u).map g.target) :=
        List.perm_append_comm.trans ((List.reverse_perm _).append_left st)
      obtain ⟨o1, hp1, h1⟩ := Pre.perm hp h
      obtain ⟨o2, hp2, h2⟩ := ih (by rw [← hp1.length_eq]; simpa using hn) h1
      exact ⟨u :: o2, (hp1.trans hp2).cons u, .cons h2⟩

/-- `v` lies at depth `k` below `s`. -/
def Depth (g : GraphI V E) (s v : V) (k : Nat) : Prop := ∃ es, IsPath g s es v ∧ es.length = k

theorem Depth.unique (t : IsTree g s U) {v : V} {k k' : Nat} (h : Depth g s v k) (h' : Depth g s v k') : k = k' := by
  obtain ⟨p, hp, rfl⟩ := h
  obtain ⟨q, hq, rfl⟩ := h'
  rw [t.unique v _ _ hp hq]

theorem Lev.sorted (t : IsTree g s U) {X o : List V} (h : Lev g X o) :
    ∀ k A B, X = A ++ B → (∀ x ∈ A, Depth g s x k) → (∀ x ∈ B, Depth g s x (k + 1)) →
      (∀ y ∈ o, ∃ j, k ≤ j ∧ Depth g s y j) ∧
      o.Pairwise (fun x y => ∀ i j, Depth g s x i → Depth g s y j → i ≤ j) := by
  induction h with
  | nil => intro k A B _ _ _; simp
  | @cons u q out h ih =>
    have key : ∀ k A B, u :: q = u :: (A ++ B) → Depth g s u k → (∀ x ∈ A, Depth g s x k) → (∀ x ∈ B, Depth g s x (k + 1)) →
        (∀ y ∈ u :: out, ∃ j, k ≤ j ∧ Depth g s y j) ∧
        (u :: out).Pairwise (fun x y => ∀ i j, Depth g s x i → Depth g s y j → i ≤ j) := by
      intro k A B hq hu hA hB
      simp at hq; subst hq
      obtain ⟨h1, h2⟩ := ih k A (B ++ (g.outEdges u).map g.target) (by simp) hA (by
        intro x hx
        rcases List.mem_append.mp hx with hx | hx
        · exact hB x hx
        · obtain ⟨e, he, rfl⟩ := List.mem_map.mp hx
          obtain ⟨p, hp, rfl⟩ := hu
          exact ⟨p ++ [e], hp.snoc he, by simp⟩)
      constructor
      · intro y hy
        rcases List.mem_cons.mp hy with rfl | hy
        · exact ⟨k, Nat.le_refl _, hu⟩
        · exact h1 y hy
      · rw [List.pairwise_cons]
        refine ⟨?_, h2⟩
        intro y hy i j hi hj
        obtain ⟨j', hk, hj'⟩ := h1 y hy
        rw [← Depth.unique t hj' hj, ← Depth.unique t hu hi]
        exact hk
    intro k A B hX hA hB
    cases A with
    | nil =>
      simp at hX
      cases B with
      | nil => simp at hX
      | cons b B =>
        simp only [List.cons.injEq] at hX
        obtain ⟨rfl, rfl⟩ := hX
        obtain ⟨h1, h2⟩ := key (k + 1) q [] (by simp) (hB u (by simp)) (fun x hx => hB x (by simp [hx])) (by simp)
        exact ⟨fun y hy => by obtain ⟨j, hj, hd⟩ := h1 y hy; exact ⟨j, by omega, hd⟩, h2⟩
    | cons a A =>
      simp only [List.cons_append, List.cons.injEq] at hX
      obtain ⟨rfl, rfl⟩ := hX
      exact key k A B rfl (hA u (by simp)) (fun x hx => hA x (by simp [hx])) hB

/-! Projections of the trace -/

theorem discovered_trace (o : List V) : discovered (trace g o) = o := by
  induction o with
  | nil => rfl
  | cons u o ih =>
    have h1 : (g.outEdges u).filterMap ((fun | .discover u => some u | _ => none : TreeEvent V E → Option V) ∘ TreeEvent.examineEdge) = [] := by
      rw [List.filterMap_eq_nil_iff]; intro e _; rfl
    have : discovered (trace g (u :: o)) = u :: discovered (trace g o) := by
      simp [discovered, trace, treeCalls, List.filterMap_append, List.filterMap_map]
    rw [this, ih]

theorem finished_trace (o : List V) : finished (trace g o) = o := by
  induction o with
  | nil => rfl
  | cons u o ih =>
    have : finished (trace g (u :: o)) = u :: finished (trace g o) := by
      simp [finished, trace, treeCalls, List.filterMap_append, List.filterMap_map]
    rw [this, ih]

theorem examined_trace (o : List V) : examined (trace g o) = o.flatMap g.outEdges := by
  induction o with
  | nil => rfl
  | cons u o ih =>
    have : examined (trace g (u :: o)) = g.outEdges u ++ examined (trace g o) := by
      simp only [examined, trace, treeCalls, List.flatMap_cons, List.filterMap_append, List.filterMap_map]
      simp [List.filterMap_eq_map, Function.comp_def]
    rw [this, ih]; simp

end Tree
end PyBGL
