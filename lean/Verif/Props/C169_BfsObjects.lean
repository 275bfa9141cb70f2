import Verif.Proofs.BfsObjects
import Verif.Props.C48_C50_Bfs
import Mathlib.Data.List.Induction

/-!
# C169: what a visitor has received when an exception leaves a breadth-first search; a search stopped as soon as a vertex is found
-/

namespace PyBGL
variable {V E : Type} [DecidableEq V] {g : GraphI V E} {p : E → Bool}

theorem Bfs.white_init {c : Dict V Color} {l : List V} (hc : ∀ v ∉ l, colorOf c v = .white) :
    ∀ v, colorOf (l.foldl (fun c u => c.set u .white) c) v = .white := by
  have key : ∀ (l : List V) c v, (v ∉ l → colorOf c v = .white) → colorOf (l.foldl (fun c u => c.set u .white) c) v = .white := by
    intro l
    induction l with
    | nil => intro c v h; exact h (by simp)
    | cons a l ih =>
      intro c v h
      rw [List.foldl_cons]
      apply ih
      intro hv
      rw [Bfs.colorOf_set']
      split
      · rfl
      · rename_i hne; exact h (by simp [hv, Ne.symm hne])
  exact fun v => key _ _ _ (hc v)

/-- **C169** (visitors): `breadth_first_search_graph` makes the same calls to every visitor; the first exception of the visitor is the outcome, and the visitor has then received the
calls that precede it and no other. -/
theorem C169_visitor (us : List V) (hus : us.Nodup) (U : List V) (hU : ∀ s ∈ us, ∀ v, Reach (g.through p) s v → v ∈ U) (c0 : Dict V Color)
    (hc : ∀ v, colorOf c0 v = .white) :
    ∃ c tr, Returns (bfsGraph g us p recorder c0 []) (.ok (c, tr)) ∧
      ∀ (σ : Type) (vis : BfsEvent V E → PyM σ Unit) (x : σ),
        Returns (bfsGraphM g (some us) p vis c0 x) (.ok ((PyM.each vis tr x).1.map (fun _ => c), (PyM.each vis tr x).2)) := by
  obtain ⟨tr, c, f, h⟩ := Bfs.facts_run hc hus hU
  refine ⟨c, us.map .discover ++ tr, ?_, fun σ vis x => ?_⟩
  · have := Bfs.bfsGraph_returns h recorder []
    unfold Bfs.outcome at this
    rwa [emit_recorder] at this
  · rw [← Bfs.ending_askM]
    exact Bfs.bfsGraphM_returns h vis x

/-- **C169** (one source): the same of `breadth_first_search(s, g)`, which calls `initialize_vertex` for each vertex before. -/
theorem C169_single (s : V) (c0 : Dict V Color) (hc : ∀ v ∉ g.vertices, colorOf c0 v = .white) (U : List V) (hU : ∀ v, Reach (g.through p) s v → v ∈ U) :
    ∃ c tr, Returns (bfs g s p (some recorder) c0 []) (.ok (c, tr)) ∧ g.vertices.map .initializeVertex <+: tr ∧
      ∀ (σ : Type) (vis : BfsEvent V E → PyM σ Unit) (x : σ),
        Returns (bfsM g s p vis c0 x) (.ok ((PyM.each vis tr x).1.map (fun _ => c), (PyM.each vis tr x).2)) := by
  obtain ⟨tr, c, f, h⟩ := Bfs.facts_run (us := [s]) (Bfs.white_init hc) (by simp) (fun x hx v h => hU v (by simp at hx; exact hx ▸ h))
  refine ⟨c, g.vertices.map .initializeVertex ++ ([s].map .discover ++ tr), ?_, List.prefix_append _ _, fun σ vis x => ?_⟩
  · obtain ⟨N, hN⟩ := Bfs.bfsGraph_returns h recorder (g.vertices.map .initializeVertex)
    refine ⟨N, fun fuel hf => ?_⟩
    have := hN fuel hf
    unfold bfs
    simp only [emit_recorder, List.nil_append]
    rw [this]
    unfold Bfs.outcome
    rw [emit_recorder]
  · rw [← Bfs.ending_askM, askM_each_append]
    unfold bfsM
    cases askM (PyM.each vis (g.vertices.map .initializeVertex)) x with
    | error e => exact ⟨0, fun _ _ => rfl⟩
    | ok x' => exact Bfs.bfsGraphM_returns h vis x'

/-- **C169** (no sources): `breadth_first_search_graph(g)` raises `TypeError` on every graph, and the visitor is not called. -/
theorem C169_no_sources {σ : Type} (vis : BfsEvent V E → PyM σ Unit) (c : Dict V Color) (x : σ) :
    Returns (bfsGraphM g none p vis c x) (.ok (.error .typeError, x)) := ⟨0, fun _ _ => rfl⟩

theorem finder_discover {t v : V} {pred : Dict V E} :
    finder g t (.discover v) pred = (if v = t then .error .runtimeError else .ok (), pred) := rfl

/-- What `finder` holds, as long as `t` has not been discovered. -/
theorem finder_calls {t : V} (l : List (BfsEvent V E)) : .discover t ∉ l → (∀ a e b, l = a ++ .treeEdge e :: b → ∀ e', .treeEdge e' ∈ a → g.target e' ≠ g.target e) →
    ∃ pred, askM (PyM.each (finder g t) l) [] = .ok pred ∧ (∀ e, .treeEdge e ∈ l → pred.get? (g.target e) = some e) ∧
      ∀ v e, pred.get? v = some e → .treeEdge e ∈ l ∧ g.target e = v := by
  induction l using List.reverseRecOn with
  | nil => intro _ _; exact ⟨[], rfl, by simp, fun v e h => by cases h⟩
  | append_singleton l x ih =>
    intro ht hu
    obtain ⟨pred, h1, h2, h3⟩ := ih (fun h => ht (by simp [h])) (fun a e b h => hu a e (b ++ [x]) (by rw [h]; simp))
    rw [askM_each_append, h1]
    have other : (∀ e, x ≠ .treeEdge e) → finder g t x pred = (.ok (), pred) →
        ∃ pred', askM (PyM.each (finder g t) [x]) pred = .ok pred' ∧ (∀ e, .treeEdge e ∈ l ++ [x] → pred'.get? (g.target e) = some e) ∧
          ∀ v e, pred'.get? v = some e → .treeEdge e ∈ l ++ [x] ∧ g.target e = v := by
      intro hx hv
      refine ⟨pred, ?_, fun e he => ?_, fun v e h => ?_⟩
      · rw [askM_each_cons, askM, hv]; rfl
      · rcases List.mem_append.mp he with h | h
        · exact h2 e h
        · exact absurd (List.mem_singleton.mp h).symm (hx e)
      · exact ⟨by simp [(h3 v e h).1], (h3 v e h).2⟩
    cases x with
    | treeEdge e =>
      refine ⟨pred.set (g.target e) e, rfl, fun e' he => ?_, fun v e' h => ?_⟩
      · rcases List.mem_append.mp he with h | h
        · rw [Dict.get?_set_ne _ _ (hu l e [] rfl e' h).symm]
          exact h2 e' h
        · cases List.mem_singleton.mp h
          exact Dict.get?_set_self _ _ _
      · by_cases hv : g.target e = v
        · subst hv
          rw [Dict.get?_set_self] at h
          cases h
          simp
        · rw [Dict.get?_set_ne _ _ hv] at h
          exact ⟨by simp [(h3 v e' h).1], (h3 v e' h).2⟩
    | discover v =>
      refine other (fun _ h => nomatch h) ?_
      have : v ≠ t := fun h => ht (by rw [h]; exact List.mem_append_right _ (List.mem_singleton.mpr rfl))
      rw [finder_discover, if_neg this]
    | _ => exact other (fun _ h => nomatch h) rfl

/-- **C169** (search of a vertex): a visitor that records the tree edges and raises when the vertex `t` is discovered stops `breadth_first_search(s, g)` exactly if there is a path from
`s` to `t`. It then holds such a path with the fewest edges, and nothing about vertices farther than `t`. Otherwise the search ends, and the visitor holds a path with the fewest
edges to every vertex reachable from `s`. -/
theorem C169_find (s t : V) (c0 : Dict V Color) (hc : ∀ v ∉ g.vertices, colorOf c0 v = .white) (U : List V) (hU : ∀ v, Reach (g.through p) s v → v ∈ U) :
    (Reach (g.through p) s t ∧ ∃ pred, Returns (bfsM g s p (finder g t) c0 []) (.ok (.error .runtimeError, pred)) ∧
      ∃ es, Shortest (g.through p) s es t ∧ Leads (g.through p) pred s es t ∧
        ∀ v e, pred.get? v = some e → ∃ es', IsPath (g.through p) s es' v ∧ es'.length ≤ es.length) ∨
    (¬ Reach (g.through p) s t ∧ ∃ c pred, Returns (bfsM g s p (finder g t) c0 []) (.ok (.ok c, pred)) ∧
      ∀ v, Reach (g.through p) s v → ∃ es, Shortest (g.through p) s es v ∧ Leads (g.through p) pred s es v) := by
  obtain ⟨tr, c, f, h⟩ := Bfs.facts_run (us := [s]) (Bfs.white_init hc) (by simp) (fun x hx v h => hU v (by simp at hx; exact hx ▸ h))
  obtain ⟨dep, hd, hsort, htree⟩ := f.dist
  have hfol : Bfs.Followed g ([s].map BfsEvent.discover ++ tr) := Bfs.Followed.append (.none (by simp)) h.followed
  have hreach : ∀ v, v ∈ Bfs.discovered ([s].map BfsEvent.discover ++ tr) ↔ Reach (g.through p) s v := fun v => by
    rw [f.reach]
    exact ⟨fun ⟨x, hx, h⟩ => by simp at hx; exact hx ▸ h, fun h => ⟨s, by simp, h⟩⟩
  have hrun : Returns (bfsM g s p (finder g t) c0 []) (.ok (Bfs.ending c (askM (PyM.each (finder g t) ([s].map .discover ++ tr)) []))) := by
    have hinit : ∀ (l : List V), askM (PyM.each (finder g t) (l.map .initializeVertex)) [] = .ok [] := by
      intro l
      induction l with
      | nil => rfl
      | cons a l ih => rw [List.map_cons, askM_each_cons]; exact ih
    unfold bfsM
    rw [hinit]
    exact Bfs.bfsGraphM_returns h (finder g t) []
  have hshort : ∀ v es, IsPath (g.through p) s es v → es.length = dep v → v ∈ Bfs.discovered ([s].map BfsEvent.discover ++ tr) → Shortest (g.through p) s es v := by
    intro v es h1 h2 h3
    exact ⟨h1, fun es' h' => by rw [h2]; exact (hd v h3).2 s (by simp) es' h'⟩
  generalize htr : [s].map BfsEvent.discover ++ tr = tr0 at *
  -- nothing is recorded for the source
  have hsrc : ∀ a b, tr0 = a ++ b → ∀ e, .treeEdge e ∈ a → g.target e ≠ s := by
    intro a b hab e he hes
    obtain ⟨x, y, hxy⟩ := List.append_of_mem he
    have h1 : tr0 = x ++ .treeEdge e :: (y ++ b) := by rw [hab, hxy]; simp
    have h2 := (f.ok _ _ _ h1).1
    cases x with
    | nil => rw [← htr] at h1; cases h1
    | cons z x =>
      rw [← htr] at h1
      cases h1
      exact h2 (by rw [hes]; simp)
  by_cases ht : Reach (g.through p) s t
  · refine .inl ⟨ht, ?_⟩
    have htd := (hreach t).mpr ht
    obtain ⟨a, b, hab⟩ := List.append_of_mem (Bfs.mem_discovered.mp htd)
    have hna : .discover t ∉ a := by
      intro hm
      have := (f.ok _ _ _ hab).1
      exact this (Bfs.mem_discovered.mpr hm)
    obtain ⟨pred, h1, h2, h3⟩ := finder_calls (g := g) (t := t) a hna (fun x e y hx e' he' =>
      f.tree_unique hfol (b := y ++ .discover t :: b) (by rw [hab, hx]; simp) he')
    refine ⟨pred, ?_, ?_⟩
    · rw [hab, askM_each_append, h1] at hrun
      simp only [askM_each_cons] at hrun
      have : askM (finder g t (.discover t)) pred = .error (.runtimeError, pred) := by
        unfold askM
        rw [finder_discover, if_pos rfl]
      rw [this] at hrun
      exact hrun
    · obtain ⟨s', hs', es, e1, e2, e3⟩ := htree t htd
      have : s' = s := by simpa using hs'
      subst this
      have hbef := f.tree_before hd hsort hab (by simp) e1 e2 e3
      refine ⟨es, hshort t es e1 e2 htd, ⟨e1, ?_, fun e he => h2 e (hbef e he)⟩, ?_⟩
      · cases hg : pred.get? s' with
        | none => rfl
        | some e => exact absurd (h3 s' e hg).2 (hsrc a _ hab e (h3 s' e hg).1)
      · intro v e hv
        obtain ⟨hm, rfl⟩ := h3 v e hv
        obtain ⟨x, y, hxy⟩ := List.append_of_mem hm
        have h4 : tr0 = x ++ .treeEdge e :: (y ++ .discover t :: b) := by rw [hab, hxy]; simp
        obtain ⟨b', hb⟩ := hfol _ _ _ h4
        have hle : g.target e ∈ Bfs.discovered tr0 ∧ dep (g.target e) ≤ dep t := by
          cases y with
          | nil =>
            cases hb
            exact ⟨htd, Nat.le_refl _⟩
          | cons z y =>
            cases hb
            have hin : g.target e ∈ Bfs.discovered a := by rw [hxy]; simp
            refine ⟨by rw [hab]; simp [hin], ?_⟩
            rw [hab, Bfs.discovered_append, List.pairwise_append] at hsort
            exact hsort.2.2 _ hin t (by simp)
        obtain ⟨s1, hs1, es', e1', e2', _⟩ := htree _ hle.1
        have : s1 = s' := by simpa using hs1
        subst this
        exact ⟨es', e1', by omega⟩
  · refine .inr ⟨ht, ?_⟩
    have hna : .discover t ∉ tr0 := fun hm => ht ((hreach t).mp (Bfs.mem_discovered.mpr hm))
    obtain ⟨pred, h1, h2, h3⟩ := finder_calls (g := g) (t := t) tr0 hna (fun x e y hx e' he' => f.tree_unique hfol hx he')
    refine ⟨c, pred, by rw [h1] at hrun; exact hrun, fun v hv => ?_⟩
    have hvd := (hreach v).mpr hv
    obtain ⟨s', hs', es, e1, e2, e3⟩ := htree v hvd
    have : s' = s := by simpa using hs'
    subst this
    refine ⟨es, hshort v es e1 e2 hvd, e1, ?_, fun e he => h2 e (e3 e he)⟩
    cases hg : pred.get? s' with
    | none => rfl
    | some e => exact absurd (h3 s' e hg).2 (hsrc tr0 [] (by simp) e (h3 s' e hg).1)

/-! ## A case that meets the hypotheses -/

example : [0].Nodup ∧ (∀ v, Reach (triangle.through (fun _ => true)) 0 v → v ∈ triangle.vertices) ∧ (∀ v, colorOf ([] : Dict Nat Color) v = .white) :=
  ⟨by decide, fun _ h => by
    refine h.closed (P := fun x => x ∈ triangle.vertices) (fun u hu e he => ?_) (by decide)
    exact triangle_closed u hu e (List.mem_filter.mp he).1, fun _ => rfl⟩

/-- The search of `2` from `0` stops with the edge from `0` to `2`; the search of `0` from `1` does not stop. -/
example : bfsM triangle 0 (fun _ => true) (finder triangle 2) [] [] 20 = some (.ok (.error .runtimeError, [(1, ⟨0, 1, 0⟩), (2, ⟨0, 2, 0⟩)])) ∧
    (match bfsM triangle 1 (fun _ => true) (finder triangle 0) [] [] 20 with | some (.ok (.ok _, pred)) => pred == [(2, ⟨1, 2, 0⟩)] | _ => false) = true :=
  ⟨rfl, by decide⟩

end PyBGL
