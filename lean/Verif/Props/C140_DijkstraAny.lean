import Verif.Proofs.DijkstraAny
import Verif.Props.C60_C64_Dijkstra

/-!
# C140: `dijkstra_shortest_paths` whatever the weights, `compare` and `combine`

C60 to C64 assume that combining a distance with a weight never improves it, as Dijkstra's algorithm requires. C140 tells what the function still guarantees when
nothing is assumed: negative weights, a `compare` that is not an order, a heap whose order does not agree with `compare`, maps that are not new, a visitor that
stops the search.
-/

namespace PyBGL
open Dijkstra
variable {V E D : Type} [DecidableEq V] [DecidableEq E] [DecidableEq D] {g : GraphI V E} {s : V}

/-- **C140**: the search ends without error. At the end the distance of each vertex is `infty` or the combined weight of a path from `s` to this vertex, and the
latter for `s` and for the vertices discovered; each
predecessor edge of a vertex was there before the search or ends a path from `s` to this vertex whose combined weight is the distance of this vertex. No vertex is
discovered twice; a vertex other than `s` is examined at most once, and only if it was white; `s` is examined once, or twice if it is discovered. If the visitor
does not stop the search, the vertices examined are `s` and the vertices discovered, they are finished in the same order, and the edges examined are the
edges leaving them, in this order. -/
theorem C140_any (a : DijkstraArgs E D) (hg : g.Closed) (hs : s ∈ g.vertices) (stop : V → Bool) (dist : Dict V D) (preds : Dict V (List E))
    (color : Dict V Color) :
    ∃ b st, Returns (dijkstraFrom a g s stop dist preds color) (.ok (b, st)) ∧
      (∀ v, v = s ∨ v ∈ discovered st.trace → ∃ p, IsPath g s p v ∧ pathWeight a.combine a.zero a.weight p = st.distOf a v) ∧
      (∀ v ∈ g.vertices, st.distOf a v = a.infty ∨ ∃ p, IsPath g s p v ∧ pathWeight a.combine a.zero a.weight p = st.distOf a v) ∧
      (∀ v, ∀ e ∈ st.predsOf v, e ∈ preds.getD v [] ∨
        ∃ u p, IsPath g s p u ∧ e ∈ g.outEdges u ∧ g.target e = v ∧ pathWeight a.combine a.zero a.weight (p ++ [e]) = st.distOf a v) ∧
      (discovered st.trace).Nodup ∧ (∀ v ∈ discovered st.trace, v = s ∨ colorOf color v = .white) ∧
      (∀ v, (examined st.trace).count v ≤ (if v = s then 1 else 0) + (if v ∈ discovered st.trace then 1 else 0)) ∧
      (b = false → (examined st.trace).Perm (s :: discovered st.trace) ∧ finished st.trace = examined st.trace ∧
        examinedEdges st.trace = (examined st.trace).flatMap g.outEdges) ∧
      (b = true → ∃ u, stop u = true ∧ examined st.trace = finished st.trace ++ [u] ∧ examinedEdges st.trace = (finished st.trace).flatMap g.outEdges) := by
  have hcount : ∀ {cur : List V} {P : List E} {st : DijkstraState V E D}, AInv a g s preds color cur P st →
      ∀ v, (examined st.trace).count v ≤ (if v = s then 1 else 0) + (if v ∈ discovered st.trace then 1 else 0) := by
    intro cur P st i v
    have h1 := i.perm.count_eq v
    rw [List.count_append, List.count_cons] at h1
    have h2 : (discovered st.trace).count v = if v ∈ discovered st.trace then 1 else 0 := i.nd.count
    have h3 : (if (s == v) = true then 1 else 0) = if v = s then 1 else 0 := by
      by_cases h : v = s
      · subst h; simp
      · rw [if_neg h, if_neg (by simpa using fun e => h e.symm)]
    rw [h2, h3] at h1
    omega
  refine Exists.elim (loop_total (dijkstraStep a g stop) (AInv a g s preds color [] []) (measure g)
    (fun r => ∃ b st, r = .ok (b, st) ∧
      (∀ v, v = s ∨ v ∈ discovered st.trace → ∃ p, IsPath g s p v ∧ pathWeight a.combine a.zero a.weight p = st.distOf a v) ∧
      (∀ v ∈ g.vertices, st.distOf a v = a.infty ∨ ∃ p, IsPath g s p v ∧ pathWeight a.combine a.zero a.weight p = st.distOf a v) ∧
      (∀ v, ∀ e ∈ st.predsOf v, e ∈ preds.getD v [] ∨
        ∃ u p, IsPath g s p u ∧ e ∈ g.outEdges u ∧ g.target e = v ∧ pathWeight a.combine a.zero a.weight (p ++ [e]) = st.distOf a v) ∧
      (discovered st.trace).Nodup ∧ (∀ v ∈ discovered st.trace, v = s ∨ colorOf color v = .white) ∧
      (∀ v, (examined st.trace).count v ≤ (if v = s then 1 else 0) + (if v ∈ discovered st.trace then 1 else 0)) ∧
      (b = false → (examined st.trace).Perm (s :: discovered st.trace) ∧ finished st.trace = examined st.trace ∧
        examinedEdges st.trace = (examined st.trace).flatMap g.outEdges) ∧
      (b = true → ∃ u, stop u = true ∧ examined st.trace = finished st.trace ++ [u] ∧ examinedEdges st.trace = (finished st.trace).flatMap g.outEdges))
    (fun t st st' i h => i.step hg hs h) ?_ ?_ (AInv.init hs dist preds color) 0) (fun r h => ?_)
  · intro t st r i h
    unfold dijkstraStep at h
    by_cases hne : st.heap.nonempty = true
    · rw [if_pos hne] at h
      obtain ⟨u, heap, k1, hw, hu, i1, m1⟩ := i.popStep hne
      rw [k1] at h
      simp only at h
      split at h
      · rename_i hstop
        cases h
        refine ⟨true, _, rfl, i1.dwalk, i1.val, i1.preds, i1.nd, i1.fresh, hcount i1, by simp, fun _ => ⟨u, hstop, i1.fin, by simpa using i1.edges⟩⟩
      · cases h
    · rw [if_neg hne] at h
      cases h
      have he : elems st.heap = [] := by
        unfold Heap.nonempty at hne
        unfold elems
        simp at hne
        rw [hne]; rfl
      have hf : finished st.trace = examined st.trace := by rw [i.fin]; simp
      refine ⟨false, st, rfl, i.dwalk, i.val, i.preds, i.nd, i.fresh, hcount i, fun _ => ⟨?_, hf, ?_⟩, by simp⟩
      · have := i.perm
        rwa [he, List.append_nil] at this
      · rw [← hf]; simpa using i.edges
  · intro t st e i h
    unfold dijkstraStep at h
    by_cases hne : st.heap.nonempty = true
    · rw [if_pos hne] at h
      obtain ⟨u, heap, k1, _⟩ := i.popStep hne
      rw [k1] at h
      simp only at h
      split at h <;> cases h
    · rw [if_neg hne] at h; cases h
  · obtain ⟨hr, b, st, rfl, h⟩ := h
    exact ⟨b, st, hr, h⟩

/-- **C140** (vertices reached): if the combined weight of each path from `s` is better than `infty`, and `infty` is not better than itself, the search examines
exactly the vertices reachable from `s`, even if some weights are negative, and the distance of a vertex is `infty` if and only if it is not reachable. -/
theorem C140_reach (a : DijkstraArgs E D) (hg : g.Closed) (hs : s ∈ g.vertices) (dist : Dict V D) (preds : Dict V (List E))
    (hf : ∀ p v, IsPath g s p v → a.compare (pathWeight a.combine a.zero a.weight p) a.infty = true) (hi : a.compare a.infty a.infty = false) :
    ∃ st, Returns (dijkstra a g s (fun _ => false) dist preds) (.ok (false, st)) ∧ (∀ v, v ∈ examined st.trace ↔ Reach g s v) ∧
      (∀ v ∈ g.vertices, st.distOf a v ≠ a.infty ↔ Reach g s v) := by
  refine Exists.elim (loop_total (dijkstraStep a g (fun _ => false)) (AInv a g s preds [] [] []) (measure g)
    (fun r => ∃ st, r = .ok (false, st) ∧ (∀ v, v ∈ examined st.trace ↔ Reach g s v) ∧
      (∀ v ∈ g.vertices, st.distOf a v ≠ a.infty ↔ Reach g s v))
    (fun t st st' i h => i.step hg hs h) ?_ ?_ (AInv.init hs dist preds []) 0) (fun r h => ?_)
  · intro t st r i h
    unfold dijkstraStep at h
    by_cases hne : st.heap.nonempty = true
    · rw [if_pos hne] at h
      obtain ⟨u, heap, k1, hw, hu, i1, m1⟩ := i.popStep hne
      rw [k1] at h
      simp at h
    · rw [if_neg hne] at h
      cases h
      have he : elems st.heap = [] := by
        unfold Heap.nonempty at hne
        unfold elems
        simp at hne
        rw [hne]; rfl
      have hfe : finished st.trace = examined st.trace := by rw [i.fin]; simp
      have hperm := i.perm
      rw [he, List.append_nil] at hperm
      have hval : ∀ v ∈ g.vertices, st.distOf a v ≠ a.infty → Reach g s v := by
        intro v hv hne'
        obtain ⟨p, h1, _⟩ := (i.val v hv).resolve_left hne'
        exact ⟨p, h1⟩
      have hdisc : ∀ v ∈ g.vertices, st.distOf a v ≠ a.infty → v ∈ examined st.trace := by
        intro v hv hne'
        rw [hperm.mem_iff, List.mem_cons]
        rcases i.disc v hv hne' with h | h | h
        · exact .inr h
        · exact .inl h
        · exact absurd rfl h
      have hsE : s ∈ examined st.trace := hperm.mem_iff.mpr (by simp)
      have hstep : ∀ u ∈ examined st.trace, ∀ e ∈ g.outEdges u, st.distOf a (g.target e) ≠ a.infty := by
        intro u hu e he'
        refine i.seen ⟨hf, hi⟩ e ?_
        rw [i.edges, hfe, List.append_nil]
        exact List.mem_flatMap.mpr ⟨u, hu, he'⟩
      have hsubset : ∀ v, Reach g s v → v ∈ examined st.trace := by
        rintro v ⟨p, hp⟩
        have : ∀ {u p v}, IsPath g u p v → u ∈ g.vertices → u ∈ examined st.trace → v ∈ examined st.trace := by
          intro u p v hp
          induction hp with
          | nil => exact fun _ => id
          | cons he' _ ih =>
            intro hv hu
            have hw := hg _ hv _ he'
            exact ih hw (hdisc _ hw (hstep _ hu _ he'))
        exact this hp hs hsE
      have hdist : ∀ v ∈ g.vertices, Reach g s v → st.distOf a v ≠ a.infty := by
        intro v hv hr hinf
        rcases i.val v hv with h | h
        · -- the last edge of a path has been examined
          obtain ⟨p, hp⟩ := hr
          rcases p.eq_nil_or_concat with rfl | ⟨q, e, rfl⟩
          · cases hp
            obtain ⟨p, h1, h2⟩ := i.dwalk s (.inl rfl)
            have := hf p s h1
            rw [h2, h, hi] at this
            cases this
          · rw [List.concat_eq_append] at hp
            obtain ⟨u, h1, h2, rfl⟩ := snoc_inv hp
            exact hstep u (hsubset u ⟨q, h1⟩) e h2 h
        · obtain ⟨p, h1, h2⟩ := h
          have := hf p v h1
          rw [h2, hinf, hi] at this
          cases this
      refine ⟨st, rfl, fun v => ⟨fun hv => ?_, hsubset v⟩, fun v hv => ⟨hval v hv, hdist v hv⟩⟩
      obtain ⟨p, h1, _⟩ := i.dwalk v (List.mem_cons.mp (hperm.mem_iff.mp hv))
      exact ⟨p, h1⟩
  · intro t st e i h
    unfold dijkstraStep at h
    by_cases hne : st.heap.nonempty = true
    · rw [if_pos hne] at h
      obtain ⟨u, heap, k1, _⟩ := i.popStep hne
      rw [k1] at h
      simp at h
    · rw [if_neg hne] at h; cases h
  · obtain ⟨hr, st, rfl, h⟩ := h
    exact ⟨st, hr, h⟩

/-! ## What is not guaranteed -/

/-- The arcs `0 → 1`, `0 → 2`, `1 → 3` and `2 → 1`. -/
def negGraph : GraphI Nat (EdgeDesc Nat) := (Graph.mk 4 [(0, [(1, [0]), (2, [0])]), (1, [(3, [0])]), (2, [(1, [0])]), (3, [])]).toI

/-- `2 → 1` weighs -4. -/
def negWeight (e : EdgeDesc Nat) : Int := if e.source = 0 then (if e.target = 1 then 2 else 5) else if e.source = 1 then 1 else -4

/-- **C140** (negative weights): the distances are not those of the shortest paths if a weight is negative, even without cycle: 3 is at the distance 3, although the
path through 2 and 1 weighs 2. The distance of 1 is updated after 1 has been finished, but not the distances beyond. -/
theorem C140_not_shortest :
    ∃ st, Returns (dijkstra (argsDefault negWeight 0) negGraph 0 (fun _ => false) [] []) (.ok (false, st)) ∧ st.distOf (argsDefault negWeight 0) 3 = 3 ∧
      st.distOf (argsDefault negWeight 0) 1 = 1 ∧ IsPath negGraph 0 [⟨0, 2, 0⟩, ⟨2, 1, 0⟩, ⟨1, 3, 0⟩] 3 ∧
      ([⟨0, 2, 0⟩, ⟨2, 1, 0⟩, ⟨1, 3, 0⟩].map negWeight).sum = 2 := by
  have hrun : ∃ st, dijkstra (argsDefault negWeight 0) negGraph 0 (fun _ => false) [] [] 6 = some (.ok (false, st)) ∧
      st.dist = [(0, 0), (1, 1), (2, 5), (3, 3)] := by
    have h : (match dijkstra (argsDefault negWeight 0) negGraph 0 (fun _ => false) [] [] 6 with
      | some (.ok (false, st)) => decide (st.dist = [(0, 0), (1, 1), (2, 5), (3, 3)])
      | _ => false) = true := by decide
    split at h
    · rename_i st heq
      exact ⟨st, heq, by simpa using h⟩
    · cases h
  obtain ⟨st, h1, h2⟩ := hrun
  refine ⟨st, ⟨6, fun fuel hf => loop_mono _ h1 hf⟩, ?_, ?_, ?_, by decide⟩
  · unfold DijkstraState.distOf; rw [h2]; decide
  · unfold DijkstraState.distOf; rw [h2]; decide
  · refine .cons (g := negGraph) (by decide) (.cons (g := negGraph) (by decide) (.cons (g := negGraph) (by decide) ?_))
    exact .nil (g := negGraph) 3

/-- The weights of `loopGraph` (`0 → 1`, `1 → 2`, `2 → 1`, `2 → 3`) such that the cycle weighs -1. -/
def negLoopWeight (e : EdgeDesc Nat) : Int := if e.source = 0 then 1 else if e.target = 3 then 5 else if e.source = 2 then -1 else 0

/-- **C140** (negative cycle): `dijkstra_shortest_paths` ends, but `dijkstra_shortest_path` then follows the predecessor arcs around the cycle for ever, whatever the
enumeration of the sets, because each vertex has a single predecessor arc. -/
theorem C140_negative_cycle (ord : SetOracle (EdgeDesc Nat)) (hord : ord.Valid) :
    Diverges (dijkstraShortestPath ord (argsLess negLoopWeight 0) loopGraph 0 3 [] []) := by
  have hrun : ∃ st, dijkstra (argsLess negLoopWeight 0) loopGraph 0 (fun u => decide (u = 3)) [] [] 5 = some (.ok (true, st)) ∧
      st.preds = [(1, [⟨2, 1, 0⟩]), (2, [⟨1, 2, 0⟩]), (3, [⟨2, 3, 0⟩])] := by
    have h : (match dijkstra (argsLess negLoopWeight 0) loopGraph 0 (fun u => decide (u = 3)) [] [] 5 with
      | some (.ok (true, st)) => decide (st.preds = [(1, [⟨2, 1, 0⟩]), (2, [⟨1, 2, 0⟩]), (3, [⟨2, 3, 0⟩])])
      | _ => false) = true := by decide
    split at h
    · rename_i st heq
      exact ⟨st, heq, by simpa using h⟩
    · cases h
  obtain ⟨st, h1, h2⟩ := hrun
  have hone : ∀ t (e : EdgeDesc Nat), ord t [e] = [e] := fun t e => List.perm_singleton.mp (hord t [e])
  have hdiv : ∀ fuel n u p, u = 1 ∨ u = 2 ∨ u = 3 → loop (shortestPathStep ord loopGraph 0
      [(1, [⟨2, 1, 0⟩]), (2, [⟨1, 2, 0⟩]), (3, [⟨2, 3, 0⟩])]) fuel n (u, p) = none := by
    intro fuel
    induction fuel with
    | zero => intro n u p _; rfl
    | succ fuel ih =>
      intro n u p hu
      rw [loop]
      have key : ∀ (v : Nat) (e : EdgeDesc Nat), v ≠ 0 →
          Dict.getD ([(1, [⟨2, 1, 0⟩]), (2, [⟨1, 2, 0⟩]), (3, [⟨2, 3, 0⟩])] : Dict Nat (List (EdgeDesc Nat))) v [] = [e] →
          shortestPathStep ord loopGraph 0 [(1, [⟨2, 1, 0⟩]), (2, [⟨1, 2, 0⟩]), (3, [⟨2, 3, 0⟩])] n (v, p) = .next (loopGraph.source e, e :: p) := by
        intro v e hv he
        unfold shortestPathStep
        simp only
        rw [if_neg hv, he, hone]
      rcases hu with rfl | rfl | rfl
      · rw [key 1 ⟨2, 1, 0⟩ (by decide) (by decide)]
        exact ih _ 2 _ (by simp)
      · rw [key 2 ⟨1, 2, 0⟩ (by decide) (by decide)]
        exact ih _ 1 _ (by simp)
      · rw [key 3 ⟨2, 3, 0⟩ (by decide) (by decide)]
        exact ih _ 2 _ (by simp)
  intro fuel
  unfold dijkstraShortestPath
  rcases Nat.lt_or_ge fuel 5 with hlt | hge
  · cases hd : dijkstra (argsLess negLoopWeight 0) loopGraph 0 (fun u => decide (u = 3)) [] [] fuel with
    | none => rfl
    | some r =>
      have h3 := loop_mono _ hd (Nat.le_of_lt hlt)
      unfold dijkstra at h1
      rw [h1] at h3
      cases h3
      simp only
      unfold makeShortestPath
      rw [h2, hdiv fuel 0 3 [] (by simp)]
  · have h3 := loop_mono _ h1 hge
    unfold dijkstra
    rw [h3]
    simp only
    unfold makeShortestPath
    rw [h2, hdiv fuel 0 3 [] (by simp)]

/-! The hypotheses of C140 hold of these graphs; the paths of `negGraph` weigh less than `infty`. With a negative loop, the source is examined twice. -/

example : negGraph.Closed ∧ 0 ∈ negGraph.vertices ∧ loopGraph.Closed ∧ 0 ∈ loopGraph.vertices :=
  ⟨by unfold GraphI.Closed; decide, by decide, by unfold GraphI.Closed; decide, by decide⟩

example : ∀ p v, IsPath negGraph 0 p v →
    (argsDefault negWeight 0).compare (pathWeight (argsDefault negWeight 0).combine 0 negWeight p) (argsDefault negWeight 0).infty = true := by
  have hinf : (5 : Int) < INFINITY := by decide
  have hv : ∀ u ∈ negGraph.vertices, (if u = 0 then 0 else if u = 1 then 2 else if u = 2 then 5 else 3 : Int) < INFINITY := by decide
  have he : ∀ u ∈ negGraph.vertices, ∀ e ∈ negGraph.outEdges u, negGraph.target e ∈ negGraph.vertices ∧ negWeight e ≠ INFINITY ∧
      (if u = 0 then 0 else if u = 1 then 2 else if u = 2 then 5 else 3 : Int) + negWeight e ≤
        if negGraph.target e = 0 then 0 else if negGraph.target e = 1 then 2 else if negGraph.target e = 2 then 5 else 3 := by decide
  have key : ∀ {u p v}, IsPath negGraph u p v → u ∈ negGraph.vertices → ∀ x : Int, x ≤ (if u = 0 then 0 else if u = 1 then 2 else if u = 2 then 5 else 3) →
      pathWeight closedPlus x negWeight p < INFINITY := by
    intro u p v hp
    induction hp with
    | nil u => intro hu x hx; exact Int.lt_of_le_of_lt hx (hv u hu)
    | @cons u w e p h1 _ ih =>
      intro hu x hx
      obtain ⟨h2, h3, h4⟩ := he u hu e h1
      have h5 := hv u hu
      have hne : x ≠ INFINITY := by omega
      have hc : closedPlus INFINITY x (negWeight e) = x + negWeight e := by simp [closedPlus, closedOperator, hne, h3]
      refine ih h2 _ ?_
      simp only [hc]
      omega
  intro p v hp
  have := key hp (by decide) 0 (by decide)
  exact decide_eq_true this

example : (match dijkstra (argsDefault (fun _ : EdgeDesc Nat => -1) 0) (Graph.mk 2 [(0, [(0, [0]), (1, [0])]), (1, [(0, [0])])]).toI 0 (fun _ => false) [] [] 9 with
    | some (.ok (false, st)) => examined st.trace == [0, 0, 1] && st.dist == [(0, -3), (1, -2)] && discovered st.trace == [0, 1]
    | _ => false) = true := by decide

end PyBGL
