import Verif.Proofs.Tree

/-!
# C59: `dfs_tree` and `bfs_tree`
-/

namespace PyBGL
variable {V E σ : Type} {g : GraphI V E} {s : V} {U : List V}

/-- **C59** (`dfs_tree`): on a finite tree the traversal terminates; it discovers and finishes exactly the nodes of the tree, once
each, and examines each edge once; it is a preorder: the nodes discovered right after `u` are its proper descendants, all of them, before
any other node. -/
theorem C59_dfs_tree (t : IsTree g s U) :
    ∃ tr, Returns (dfsTree g recorder s []) (.ok tr) ∧
      (Tree.discovered tr).Nodup ∧ (∀ v, v ∈ Tree.discovered tr ↔ Reach g s v) ∧
      Tree.finished tr = Tree.discovered tr ∧
      Tree.examined tr = (Tree.discovered tr).flatMap g.outEdges ∧
      (∀ a u b, Tree.discovered tr = a ++ u :: b →
        ∃ d c, b = d ++ c ∧ (∀ v, v ∈ d ↔ v ≠ u ∧ Reach g u v) ∧ ∀ v ∈ c, ¬ Reach g u v) := by
  obtain ⟨o, ho⟩ := Tree.Pre.exists t _ s (Reach.refl _ _) (Nat.le_refl _)
  have hnd := ho.nodup t (by simp [Reach.refl]) (by simp)
  have hd : Tree.discovered (.start s :: Tree.trace g o) = o := Tree.discovered_trace o
  refine ⟨.start s :: Tree.trace g o, ⟨o.length + 1, fun fuel hf => ?_⟩, ?_, ?_, ?_, ?_, ?_⟩
  · show dfsTree g recorder s [] fuel = _
    unfold dfsTree
    show loop (dfsTreeStep g recorder) fuel 0 ([s], [] ++ [.start s]) = _
    rw [ho.sim recorder _ 0 fuel (by omega), emit_recorder]
    rfl
  · rw [hd]; exact hnd
  · intro v; rw [hd, ho.mem]; simp
  · rw [hd]; exact Tree.finished_trace o
  · rw [hd]; exact Tree.examined_trace o
  · rw [hd]
    intro a u b hab
    subst hab
    -- the run that starts when `u` is popped
    have key : ∀ {X o : List V}, Tree.Pre g X o → ∀ a, o = a ++ u :: b → ∃ Y, Tree.Pre g (u :: Y) (u :: b) := by
      intro X o h
      induction h with
      | nil => intro a e; simp at e
      | @cons x st out h ih =>
        intro a e
        cases a with
        | nil =>
          simp only [List.nil_append, List.cons.injEq] at e
          obtain ⟨rfl, rfl⟩ := e
          exact ⟨st, .cons h⟩
        | cons y a =>
          simp only [List.cons_append, List.cons.injEq] at e
          exact ih a e.2
    obtain ⟨Y, hY⟩ := key ho a rfl
    obtain ⟨o1, o2, e, h1, h2⟩ := Tree.Pre.split (X := [u]) (Y := Y) hY
    cases h1 with
    | @cons _ _ d h1 =>
      simp only [List.cons_append, List.cons.injEq, true_and] at e
      subst e
      have hm := (Tree.Pre.cons h1).mem
      have hnd' : (u :: (d ++ o2)).Nodup := (List.nodup_append.mp hnd).2.1
      rw [List.nodup_cons, List.nodup_append] at hnd'
      refine ⟨d, o2, rfl, ?_, ?_⟩
      · intro v
        have := hm v
        simp only [List.mem_cons, List.not_mem_nil, or_false, exists_eq_left] at this
        rw [← this]
        constructor
        · intro hv
          refine ⟨?_, .inr hv⟩
          rintro rfl
          exact hnd'.1 (by simp [hv])
        · rintro ⟨h, rfl | h'⟩
          · exact absurd rfl h
          · exact h'
      · intro v hv hr
        have := (hm v).mpr ⟨u, by simp, hr⟩
        rcases List.mem_cons.mp this with rfl | h
        · exact hnd'.1 (by simp [hv])
        · exact hnd'.2.2.2 v h v hv rfl

/-- **C59** (`bfs_tree`): on a finite tree the traversal terminates; it discovers and finishes exactly the nodes of the tree, once
each, and examines each edge once; the depths of the nodes discovered do not decrease. -/
theorem C59_bfs_tree (t : IsTree g s U) :
    ∃ tr, Returns (bfsTree g recorder s []) (.ok tr) ∧
      (Tree.discovered tr).Nodup ∧ (∀ v, v ∈ Tree.discovered tr ↔ Reach g s v) ∧
      Tree.finished tr = Tree.discovered tr ∧
      Tree.examined tr = (Tree.discovered tr).flatMap g.outEdges ∧
      (Tree.discovered tr).Pairwise
        (fun u v => ∀ es es', IsPath g s es u → IsPath g s es' v → es.length ≤ es'.length) := by
  obtain ⟨o', ho'⟩ := Tree.Pre.exists t _ s (Reach.refl _ _) (Nat.le_refl _)
  have hnd := ho'.nodup t (by simp [Reach.refl]) (by simp)
  obtain ⟨o, hp, ho⟩ := Tree.Pre.lev _ rfl ho'
  have hd : Tree.discovered (.start s :: Tree.trace g o) = o := Tree.discovered_trace o
  refine ⟨.start s :: Tree.trace g o, ⟨o.length + 1, fun fuel hf => ?_⟩, ?_, ?_, ?_, ?_, ?_⟩
  · show bfsTree g recorder s [] fuel = _
    unfold bfsTree
    show loop (bfsTreeStep g recorder) fuel 0 ([s], [] ++ [.start s]) = _
    rw [ho.sim recorder _ 0 fuel (by omega), emit_recorder]
    rfl
  · rw [hd]; exact hp.nodup_iff.mp hnd
  · intro v; rw [hd, ← hp.mem_iff, ho'.mem]; simp
  · rw [hd]; exact Tree.finished_trace o
  · rw [hd]; exact Tree.examined_trace o
  · rw [hd]
    refine ((ho.sorted t 0 [s] [] rfl (by simp [Tree.Depth, IsPath.nil]) (by simp)).2).imp ?_
    intro u v h es es' hu hv
    exact h _ _ ⟨es, hu, rfl⟩ ⟨es', hv, rfl⟩

/-- **C59** with an arbitrary visitor (which may raise): it receives the calls recorded above, in this order. -/
theorem C59_any_visitor (t : IsTree g s U) (vis : Visitor (TreeEvent V E) σ) (st : σ) :
    (∃ tr, Returns (dfsTree g recorder s []) (.ok tr) ∧ Returns (dfsTree g vis s st) (emit vis tr st)) ∧
    (∃ tr, Returns (bfsTree g recorder s []) (.ok tr) ∧ Returns (bfsTree g vis s st) (emit vis tr st)) := by
  obtain ⟨o', ho'⟩ := Tree.Pre.exists t _ s (Reach.refl _ _) (Nat.le_refl _)
  obtain ⟨o, hp, ho⟩ := Tree.Pre.lev _ rfl ho'
  constructor
  · have run : ∀ {σ : Type} (vis : Visitor (TreeEvent V E) σ) (st : σ),
        Returns (dfsTree g vis s st) (emit vis (.start s :: Tree.trace g o') st) := by
      intro σ vis st
      refine ⟨o'.length + 1, fun fuel hf => ?_⟩
      unfold dfsTree
      rw [emit_cons]
      cases vis (.start s) st with
      | error e => rfl
      | ok x => exact ho'.sim vis x 0 fuel (by omega)
    refine ⟨_, ?_, run vis st⟩
    have := run recorder []
    rwa [emit_recorder] at this
  · have run : ∀ {σ : Type} (vis : Visitor (TreeEvent V E) σ) (st : σ),
        Returns (bfsTree g vis s st) (emit vis (.start s :: Tree.trace g o) st) := by
      intro σ vis st
      refine ⟨o.length + 1, fun fuel hf => ?_⟩
      unfold bfsTree
      rw [emit_cons]
      cases vis (.start s) st with
      | error e => rfl
      | ok x => exact ho.sim vis x 0 fuel (by omega)
    refine ⟨_, ?_, run vis st⟩
    have := run recorder []
    rwa [emit_recorder] at this

/-! ## A concrete case -/

namespace Examples

/-- The tree `0 -> 1, 2` and `1 -> 3`; an edge is identified with its target. -/
def smallTree : GraphI Nat Nat where
  vertices := [0, 1, 2, 3]
  edges := [1, 2, 3]
  outEdges := fun u => if u = 0 then [1, 2] else if u = 1 then [3] else []
  inEdges := fun _ => []
  source := fun e => if e = 3 then 1 else 0
  target := id

/-- The only path to each node. -/
theorem smallTree_path {u v : Nat} {es : List Nat} (h : IsPath smallTree u es v) :
    (u = 0 → (es, v) ∈ [([], 0), ([1], 1), ([2], 2), ([1, 3], 3)]) ∧ (u = 1 → (es, v) ∈ [([], 1), ([3], 3)]) ∧
    (u = 2 → (es, v) ∈ [([], 2)]) ∧ (u = 3 → (es, v) ∈ [([], 3)]) := by
  induction h with
  | nil u => refine ⟨?_, ?_, ?_, ?_⟩ <;> rintro rfl <;> simp
  | @cons u v e es he h ih =>
    simp only [smallTree, id] at he ih
    obtain ⟨i0, i1, i2, i3⟩ := ih
    refine ⟨?_, ?_, ?_, ?_⟩
    · rintro rfl
      simp at he
      rcases he with rfl | rfl
      · have := i1 rfl; simp at this ⊢; omega
      · have := i2 rfl; simp at this ⊢; omega
    · rintro rfl
      simp at he
      subst he
      have := i3 rfl; simp at this ⊢; omega
    · rintro rfl; simp at he
    · rintro rfl; simp at he

example : IsTree smallTree 0 [0, 1, 2, 3] where
  finite := by
    rintro v ⟨es, h⟩
    have := (smallTree_path h).1 rfl
    simp at this ⊢; omega
  listed := by
    rintro v ⟨es, h⟩
    have := (smallTree_path h).1 rfl
    simp at this
    rcases this with ⟨_, rfl⟩ | ⟨_, rfl⟩ | ⟨_, rfl⟩ | ⟨_, rfl⟩ <;> decide
  unique := by
    intro v es es' h h'
    have h1 := (smallTree_path h).1 rfl
    have h2 := (smallTree_path h').1 rfl
    simp at h1 h2
    rcases h1 with ⟨rfl, rfl⟩ | ⟨rfl, rfl⟩ | ⟨rfl, rfl⟩ | ⟨rfl, rfl⟩ <;> rcases h2 with ⟨rfl, h⟩ | ⟨rfl, h⟩ | ⟨rfl, h⟩ | ⟨rfl, h⟩ <;>
      first | rfl | omega

example : (dfsTree smallTree recorder 0 [] 10).map (·.map Tree.discovered) = some (.ok [0, 2, 1, 3]) := by decide
example : (bfsTree smallTree recorder 0 [] 10).map (·.map Tree.discovered) = some (.ok [0, 1, 2, 3]) := by decide

end Examples
end PyBGL
