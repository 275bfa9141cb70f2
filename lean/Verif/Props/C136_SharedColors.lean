import Verif.Proofs.DijkstraMask
import Verif.Props.C48_C50_Bfs
import Verif.Props.C51_C54_Dfs
import Verif.Props.C60_C64_Dijkstra

/-!
# C136, C137: searches given maps that are not new

`depth_first_search`, `breadth_first_search_graph` and `dijkstra_shortest_paths` take the map of colours from the caller; the search of Dijkstra also takes the
maps of the distances and of the predecessors. C136 describes the searches whatever the colours are; C137 describes the search of Dijkstra whatever the distances
and the predecessors are.
-/

namespace PyBGL
variable {V E : Type} [DecidableEq V] {g : GraphI V E} {p : E → Bool}

theorem hidden_iff {us : List V} {c : Dict V Color} {v : V} : hidden us c v = true ↔ v ∉ us ∧ colorOf c v ≠ .white := by simp [hidden]

theorem hidden_start {us : List V} {c : Dict V Color} {v : V} (h : v ∈ us) : hidden us c v = false := by simp [hidden, h]

theorem Reach.through_imp {q : E → Bool} (h : ∀ e, q e = true → p e = true) {s v : V} (hr : Reach (g.through q) s v) : Reach (g.through p) s v := by
  obtain ⟨l, hl⟩ := hr
  refine ⟨l, ?_⟩
  induction hl with
  | nil => exact .nil _
  | cons he _ ih =>
    obtain ⟨h1, h2⟩ := List.mem_filter.mp he
    exact .cons (g := g.through p) (List.mem_filter.mpr ⟨h1, h _ h2⟩) ih

/-- The last edge of a path. -/
theorem Reach.last {q : E → Bool} {s v : V} (hr : Reach (g.through q) s v) : v = s ∨ ∃ u, ∃ e ∈ g.outEdges u, q e = true ∧ g.target e = v := by
  obtain ⟨l, hl⟩ := hr
  induction hl with
  | nil => exact .inl rfl
  | @cons u w e l he hl ih =>
    obtain ⟨h1, h2⟩ := List.mem_filter.mp he
    rcases ih with rfl | ih
    · exact .inr ⟨u, e, h1, h2, rfl⟩
    · exact .inr ih

theorem not_hidden_of_reach {us : List V} {c0 : Dict V Color} {s v : V} (hs : s ∈ us) (hr : Reach (g.through (visibly g us c0 p)) s v) :
    hidden us c0 v = false := by
  rcases hr.last with rfl | ⟨u, e, _, h2, rfl⟩
  · exact hidden_start hs
  · simp only [visibly, Bool.and_eq_true, Bool.not_eq_true'] at h2
    exact h2.2

/-! ## C136 -/

/-- **C136** (`depth_first_search` with any map of colours): the search discovers, once each, the vertices reachable from `s` without entering a vertex that the map
hides (a vertex other than `s` that is not white), and finishes each of them once. It examines all the edges satisfying `p` that leave them; those towards hidden
vertices are reported as back edges if the vertex is gray and as forward or cross edges if it is black. The other calls are those of the same search with a new
map when `if_push` also rejects the edges towards hidden vertices. At the end the discovered vertices are black and the other ones keep their colour. -/
theorem C136_dfs (s : V) (c0 : Dict V Color) (U : List V) (hU : ∀ v, Reach (g.through p) s v → v ∈ U) :
    ∃ c tr, Returns (dfs g p recorder s c0 []) (.ok (c, tr)) ∧
      (∀ v, v ∈ discovered tr ↔ Reach (g.through (visibly g [s] c0 p)) s v) ∧ (discovered tr).Nodup ∧ (finished tr).Perm (discovered tr) ∧
      (examined tr).Perm ((discovered tr).flatMap (g.through p).outEdges) ∧
      (∀ v, colorOf c v = if v ∈ discovered tr then .black else colorOf c0 v) ∧
      (∀ e ∈ examined tr, hidden [s] c0 (g.target e) = true → .treeEdge e ∉ tr ∧ (.backEdge e ∈ tr ↔ colorOf c0 (g.target e) = .gray) ∧
        (.forwardOrCrossEdge e ∈ tr ↔ colorOf c0 (g.target e) = .black)) ∧
      ∃ c', Returns (dfs g (visibly g [s] c0 p) recorder s [] []) (.ok (c', tr.filter (dfsUnmasked g (hidden [s] c0)))) := by
  obtain ⟨W, h1, h2⟩ := finite_closed (us := [s]) (fun x hx => by simp at hx; subst hx; exact hU)
  obtain ⟨tr, c, h⟩ := DfsRoot.exists h2 (h1 s (by simp)) c0
  have hms : hidden [s] c0 s = false := hidden_start (by simp)
  have hm : ∀ v, hidden [s] c0 v = true → colorOf c0 v ≠ .white := fun v hv => (hidden_iff.mp hv).2
  have hov : Overlay (hidden [s] c0) c0 (c0.set s .gray) (Dict.set [] s .gray) := by
    intro v
    rw [colorOf_set, colorOf_set]
    by_cases hv : s = v
    · subst hv; simp [hms]
    · rw [if_neg hv, if_neg hv]
      cases hh : hidden [s] c0 v with
      | true => rfl
      | false =>
        by_contra hc
        have : hidden [s] c0 v = true := hidden_iff.mpr ⟨by simpa using Ne.symm hv, hc⟩
        rw [hh] at this; cases this
  obtain ⟨d, o, hd⟩ := h.mask hm hms [] hov
  have hr := h.returns (vis := recorder) []
  rw [emit_recorder_nil] at hr
  have hr' := hd.returns (vis := recorder) []
  rw [emit_recorder_nil] at hr'
  have hU' : ∀ v, Reach (g.through (visibly g [s] c0 p)) s v → v ∈ U := fun v hv =>
    hU v (hv.through_imp (fun e he => by simp only [visibly, Bool.and_eq_true] at he; exact he.1))
  have f := dfs_trace s U hU' hr'
  have hdisc := discovered_unmasked (g := g) (m := hidden [s] c0) tr
  have hreach : ∀ v, v ∈ discovered tr ↔ Reach (g.through (visibly g [s] c0 p)) s v := by
    intro v
    rw [← hdisc, f.reach]
    exact ⟨fun ⟨x, hx, h'⟩ => by simp at hx; exact hx ▸ h', fun h' => ⟨s, by simp, h'⟩⟩
  obtain ⟨e1, e2, e3⟩ := h.examined
  refine ⟨c, tr, hr, hreach, by rw [← hdisc]; exact f.nodup, e2, e3, ?_, ?_, d, hr'⟩
  · intro v
    rw [o v, f.color v, hdisc]
    cases hh : hidden [s] c0 v with
    | true =>
      simp only [if_true]
      have : v ∉ discovered tr := by
        intro hv
        rw [not_hidden_of_reach (by simp) ((hreach v).mp hv)] at hh
        cases hh
      rw [if_neg this]
    | false =>
      simp only [Bool.false_eq_true, if_false]
      by_cases hv : v ∈ discovered tr
      · simp [hv]
      · rw [if_neg hv, if_neg hv]
        have hvs : v ≠ s := by rintro rfl; exact hv ((hreach v).mpr (Reach.refl _ _))
        by_contra hc
        have : hidden [s] c0 v = true := hidden_iff.mpr ⟨by simpa using hvs, Ne.symm hc⟩
        rw [hh] at this; cases this
  · intro e he hh
    obtain ⟨k1, k2, k3⟩ := h.maskedKind hm hms e hh
    rw [← e1] at he
    have hcl : .treeEdge e ∈ tr ∨ .backEdge e ∈ tr ∨ .forwardOrCrossEdge e ∈ tr := by
      simp only [classified, List.mem_filterMap] at he
      obtain ⟨x, hx, hx'⟩ := he
      cases x <;> simp at hx' <;> subst hx' <;> simp [hx]
    refine ⟨k1, ⟨k2, fun hc => ?_⟩, ⟨k3, fun hc => ?_⟩⟩
    · rcases hcl with hx | hx | hx
      · exact absurd hx k1
      · exact hx
      · have := k3 hx; rw [hc] at this; cases this
    · rcases hcl with hx | hx | hx
      · exact absurd hx k1
      · have := k2 hx; rw [hc] at this; cases this
      · exact hx

/-- **C136** (any visitor): with any map of colours too, the calls do not depend on the visitor. -/
theorem C136_dfs_any_visitor {σ : Type} (vis : Visitor (DfsEvent V E) σ) (st : σ) (s : V) (c0 : Dict V Color) (U : List V)
    (hU : ∀ v, Reach (g.through p) s v → v ∈ U) :
    ∃ c tr, Returns (dfs g p recorder s c0 []) (.ok (c, tr)) ∧ Returns (dfs g p vis s c0 st) ((emit vis tr st).map (fun st' => (c, st'))) := by
  obtain ⟨W, h1, h2⟩ := finite_closed (us := [s]) (fun x hx => by simp at hx; subst hx; exact hU)
  obtain ⟨tr, c, h⟩ := DfsRoot.exists h2 (h1 s (by simp)) c0
  have hr := h.returns (vis := recorder) []
  rw [emit_recorder_nil] at hr
  exact ⟨c, tr, hr, h.returns st⟩

/-- The reachable vertices that are not reachable from vertices explored before. -/
theorem reach_visibly {us vs : List V} {c0 : Dict V Color} (hc0 : ∀ v, colorOf c0 v ≠ .white ↔ ∃ s ∈ us, Reach (g.through p) s v) (v : V) :
    (∃ s ∈ vs, Reach (g.through (visibly g vs c0 p)) s v) ↔ v ∈ vs ∨ ((∃ s ∈ vs, Reach (g.through p) s v) ∧ ¬ ∃ s ∈ us, Reach (g.through p) s v) := by
  constructor
  · rintro ⟨s, hs, hr⟩
    by_cases hv : v ∈ vs
    · exact .inl hv
    · refine .inr ⟨⟨s, hs, hr.through_imp (fun e he => by simp only [visibly, Bool.and_eq_true] at he; exact he.1)⟩, fun hus => ?_⟩
      have := not_hidden_of_reach hs hr
      rw [hidden_iff.mpr ⟨hv, (hc0 v).mpr hus⟩] at this
      cases this
  · rintro (hv | ⟨⟨s, hs, l, hl⟩, hn⟩)
    · exact ⟨v, hv, Reach.refl _ _⟩
    · refine ⟨s, hs, l, ?_⟩
      clear hs
      induction hl with
      | nil => exact .nil _
      | @cons u w e l he hl ih =>
        obtain ⟨h1, h2⟩ := List.mem_filter.mp he
        refine .cons (g := g.through (visibly g vs c0 p)) (List.mem_filter.mpr ⟨h1, ?_⟩) (ih hn)
        simp only [visibly, Bool.and_eq_true, Bool.not_eq_true', h2, true_and]
        cases hh : hidden vs c0 (g.target e) with
        | false => rfl
        | true =>
          obtain ⟨s', hs', hr'⟩ := (hc0 _).mp (hidden_iff.mp hh).2
          obtain ⟨l', hl'⟩ := hr'
          exact absurd ⟨s', hs', l' ++ l, hl'.append hl⟩ hn

/-- The colours set by the initialisation of a breadth-first search. -/
theorem colorOf_grays (us : List V) : ∀ (c : Dict V Color) (v : V), colorOf (us.foldl (fun c u => c.set u .gray) c) v = if v ∈ us then .gray else colorOf c v := by
  induction us with
  | nil => intro c v; simp
  | cons u us ih =>
    intro c v
    rw [List.foldl_cons, ih, colorOf_set]
    by_cases h1 : v ∈ us
    · simp [h1]
    · by_cases h2 : u = v
      · simp [h1, h2]
      · simp [h1, h2, Ne.symm h2]

/-- The search with the colours `c0`, described by `Bfs.Run`, and the search of the graph without the edges towards hidden vertices. -/
theorem bfs_masked (us : List V) (hus : us.Nodup) (c0 : Dict V Color) (U : List V) (hU : ∀ s ∈ us, ∀ v, Reach (g.through p) s v → v ∈ U) :
    ∃ c tr c', Bfs.Run g p (us.foldl (fun c u => c.set u .gray) c0) us.reverse tr c ∧
      Returns (bfsGraph g us p recorder c0 []) (.ok (c, us.map .discover ++ tr)) ∧
      Returns (bfsGraph g us (visibly g us c0 p) recorder [] []) (.ok (c', (us.map BfsEvent.discover ++ tr).filter (bfsUnmasked g (hidden us c0)))) ∧
      Overlay (hidden us c0) c0 c c' := by
  have hm : ∀ v, hidden us c0 v = true → colorOf c0 v ≠ .white := fun v hv => (hidden_iff.mp hv).2
  have hU' : ∀ s ∈ us, ∀ v, Reach (g.through (visibly g us c0 p)) s v → v ∈ U := fun s hs v hv =>
    hU s hs v (hv.through_imp (fun e he => by simp only [visibly, Bool.and_eq_true] at he; exact he.1))
  obtain ⟨tr', c', hr', _⟩ := C48_graph (g := g) (p := visibly g us c0 p) us hus U hU'
  have hrel : BfsRel g (hidden us c0) c0 (⟨us.foldl (fun c u => c.set u .gray) c0, us.map .discover, us.reverse⟩ : BfsState V (List (BfsEvent V E)))
      ⟨us.foldl (fun c u => c.set u .gray) [], us.map .discover, us.reverse⟩ := by
    refine ⟨rfl, fun v hv => hidden_start (by simpa using hv), fun v => ?_, ?_⟩
    · simp only [colorOf_grays]
      by_cases hv : v ∈ us
      · simp [hv, hidden_start hv]
      · rw [if_neg hv, if_neg hv]
        by_cases hc : colorOf c0 v = .white
        · rw [hc]; split <;> rfl
        · rw [if_pos (hidden_iff.mpr ⟨hv, hc⟩)]
    · symm
      rw [List.filter_eq_self]
      intro x hx
      obtain ⟨u, _, rfl⟩ := List.mem_map.mp hx
      rfl
  have hlock := loop_lockstep (step := bfsStep g p recorder) (step' := bfsStep g (visibly g us c0 p) recorder) (BfsRel g (hidden us c0) c0)
    (fun r r' => Overlay (hidden us c0) c0 r.1 r'.1 ∧ r'.2 = r.2.filter (bfsUnmasked g (hidden us c0))) (fun t s s' h => bfsStep_mask hm t h) hrel
  have e1 : ∀ (q : E → Bool) (c : Dict V Color), bfsGraph g us q recorder c [] =
      fun fuel => loop (bfsStep g q recorder) fuel 0 (⟨us.foldl (fun c u => c.set u .gray) c, us.map .discover, us.reverse⟩ : BfsState V (List (BfsEvent V E))) := by
    intro q c
    funext fuel
    unfold bfsGraph
    rw [bfsInit_recorder]
    simp
  rw [e1] at hr'
  obtain ⟨⟨c, t⟩, k1, k2, k3⟩ := returns_lockstep (fun fuel => hlock fuel 0) (fun n k r hnk hn => loop_mono _ hn hnk) hr'
  obtain ⟨N, hN⟩ := k1
  obtain ⟨tr, h1, h2⟩ := bfs_run_of_loop _ _ _ _ _ _ (hN N (Nat.le_refl _))
  simp only at h1 h2 k3 k2
  subst h2
  refine ⟨c, tr, c', h1, ?_, ?_, k2⟩
  · rw [e1]; exact ⟨N, hN⟩
  · rw [e1]
    rw [k3] at hr'
    exact hr'

/-- **C136** (`breadth_first_search_graph` with any map of colours): the search discovers, once each, the vertices reachable from the sources without entering a
vertex that the map hides (one that is neither a source nor white); it examines and finishes each of them once, and examines all the edges satisfying `p` that leave
them. The edges towards hidden vertices are reported as non-tree edges, with a gray or a black target according to the map. The other calls are those of the same
search with a new map when `if_push` also rejects the edges towards hidden vertices, so that they satisfy C48 and C49. At the end the discovered vertices are
black and the other ones keep their colour. -/
theorem C136_bfs (us : List V) (hus : us.Nodup) (c0 : Dict V Color) (U : List V) (hU : ∀ s ∈ us, ∀ v, Reach (g.through p) s v → v ∈ U) :
    ∃ c tr, Returns (bfsGraph g us p recorder c0 []) (.ok (c, tr)) ∧
      (∀ v, v ∈ Bfs.discovered tr ↔ ∃ s ∈ us, Reach (g.through (visibly g us c0 p)) s v) ∧ (Bfs.discovered tr).Nodup ∧
      (Bfs.examinedVertices tr).Perm (Bfs.discovered tr) ∧ Bfs.finished tr = Bfs.examinedVertices tr ∧
      Bfs.examined tr = (Bfs.examinedVertices tr).flatMap (g.through p).outEdges ∧
      (∀ v, colorOf c v = if v ∈ Bfs.discovered tr then .black else colorOf c0 v) ∧
      (∀ e ∈ Bfs.examined tr, hidden us c0 (g.target e) = true → .treeEdge e ∉ tr ∧ (.grayTarget e ∈ tr ↔ colorOf c0 (g.target e) = .gray) ∧
        (.blackTarget e ∈ tr ↔ colorOf c0 (g.target e) = .black)) ∧
      ∃ c', Returns (bfsGraph g us (visibly g us c0 p) recorder [] []) (.ok (c', tr.filter (bfsUnmasked g (hidden us c0)))) := by
  obtain ⟨c, t, c', h1, h2, h3, h4⟩ := bfs_masked (g := g) (p := p) us hus c0 U hU
  have hm : ∀ v, hidden us c0 v = true → colorOf c0 v ≠ .white := fun v hv => (hidden_iff.mp hv).2
  have hU' : ∀ s ∈ us, ∀ v, Reach (g.through (visibly g us c0 p)) s v → v ∈ U := fun s hs v hv =>
    hU s hs v (hv.through_imp (fun e he => by simp only [visibly, Bool.and_eq_true] at he; exact he.1))
  obtain ⟨tr', d, f, _, hr⟩ := Bfs.facts (g := g) (p := visibly g us c0 p) (c := []) (fun _ => rfl) hus hU'
  have hr' := hr recorder []
  unfold Bfs.outcome at hr'
  rw [emit_recorder] at hr'
  have := returns_unique h3 hr'
  simp only [List.nil_append, Except.ok.injEq, Prod.mk.injEq] at this
  obtain ⟨rfl, rfl⟩ := this
  generalize htr : us.map BfsEvent.discover ++ t = tr at *
  have k1 := bfs_discovered_unmasked (g := g) (m := hidden us c0) tr
  have k2 := bfs_finished_unmasked (g := g) (m := hidden us c0) tr
  have k3 := bfs_examinedVertices_unmasked (g := g) (m := hidden us c0) tr
  obtain ⟨j1, j2⟩ := bfs_run_examined h1
  have hx0 : Bfs.examined (us.map (BfsEvent.discover (E := E))) = [] ∧ Bfs.examinedVertices (us.map (BfsEvent.discover (E := E))) = [] := by
    clear * -
    induction us with
    | nil => exact ⟨rfl, rfl⟩
    | cons u us ih => simpa using ih
  have hx1 : Bfs.examined tr = Bfs.examined t := by rw [← htr]; simp [hx0.1]
  have hx2 : Bfs.examinedVertices tr = Bfs.examinedVertices t := by rw [← htr]; simp [hx0.2]
  have hmem : ∀ x : BfsEvent V E, (∀ u, x ≠ .discover u) → (x ∈ tr ↔ x ∈ t) := by
    intro x hx
    rw [← htr, List.mem_append]
    refine ⟨fun h => h.resolve_left fun h => ?_, .inr⟩
    obtain ⟨u, _, rfl⟩ := List.mem_map.mp h
    exact hx u rfl
  have hreach : ∀ v, v ∈ Bfs.discovered tr ↔ ∃ s ∈ us, Reach (g.through (visibly g us c0 p)) s v := fun v => by rw [← k1]; exact f.reach v
  refine ⟨c, tr, h2, hreach, by rw [← k1]; exact f.nodup, ?_, ?_, by rw [hx1, hx2]; exact j1, ?_, ?_, c', h3⟩
  · rw [← k3, f.exam, k1]
    obtain ⟨r, hr⟩ := f.src
    rw [k1] at hr
    rw [← hr, List.drop_left]
    exact (List.reverse_perm us).append_right _
  · rw [← k2, ← k3]; exact f.fin
  · intro v
    rw [h4 v, f.color v, k1]
    cases hh : hidden us c0 v with
    | true =>
      simp only [if_true]
      rw [if_neg]
      intro hv
      obtain ⟨s, hs, hr⟩ := (hreach v).mp hv
      rw [not_hidden_of_reach hs hr] at hh
      cases hh
    | false =>
      simp only [Bool.false_eq_true, if_false]
      by_cases hv : v ∈ Bfs.discovered tr
      · simp [hv]
      · rw [if_neg hv, if_neg hv]
        have hvs : v ∉ us := fun hvs => hv ((hreach v).mpr ⟨v, hvs, Reach.refl _ _⟩)
        by_contra hc
        rw [hidden_iff.mpr ⟨hvs, Ne.symm hc⟩] at hh
        cases hh
  · intro e he hh
    obtain ⟨i1, i2, i3⟩ := bfs_run_kind hm h1 (fun v hv => by rw [colorOf_grays, if_neg (hidden_iff.mp hv).1]) (fun v hv => hidden_start (by simpa using hv)) e hh
    rw [hx1] at he
    have hcl := j2 e he
    rw [hmem _ (by simp), hmem _ (by simp), hmem _ (by simp)]
    refine ⟨i1, ⟨i2, fun hc => ?_⟩, ⟨i3, fun hc => ?_⟩⟩
    · rcases hcl with hx | hx | hx
      · exact absurd hx i1
      · exact hx
      · have := i3 hx; rw [hc] at this; cases this
    · rcases hcl with hx | hx | hx
      · exact absurd hx i1
      · have := i2 hx; rw [hc] at this; cases this
      · exact hx

/-- **C136** (any visitor): with any map of colours too, the calls of `breadth_first_search_graph` do not depend on the visitor. -/
theorem C136_bfs_any_visitor {σ : Type} (vis : Visitor (BfsEvent V E) σ) (st : σ) (us : List V) (hus : us.Nodup) (c0 : Dict V Color) (U : List V)
    (hU : ∀ s ∈ us, ∀ v, Reach (g.through p) s v → v ∈ U) :
    ∃ c tr, Returns (bfsGraph g us p recorder c0 []) (.ok (c, tr)) ∧ Returns (bfsGraph g us p vis c0 st) ((emit vis tr st).map (fun st' => (c, st'))) := by
  obtain ⟨c, t, c', h1, h2, _⟩ := bfs_masked (g := g) (p := p) us hus c0 U hU
  refine ⟨c, _, h2, ?_⟩
  have := Bfs.bfsGraph_returns h1 vis st
  unfold Bfs.outcome at this
  convert this using 1
  cases emit vis (us.map .discover ++ t) st <;> rfl

/-- The colours after any history of searches that share a map. -/
theorem Searches.colors {us : List V} {c : Dict V Color} (h : Searches g p us c) (U : List V) (hU : ∀ s ∈ us, ∀ v, Reach (g.through p) s v → v ∈ U) :
    ∀ v, ((∃ s ∈ us, Reach (g.through p) s v) → colorOf c v = .black) ∧ ((¬ ∃ s ∈ us, Reach (g.through p) s v) → colorOf c v = .white) := by
  have key : ∀ {us vs : List V} {c c' : Dict V Color} {D : List V},
      (∀ v, ((∃ s ∈ us, Reach (g.through p) s v) → colorOf c v = .black) ∧ ((¬ ∃ s ∈ us, Reach (g.through p) s v) → colorOf c v = .white)) →
      (∀ v, v ∈ D ↔ ∃ s ∈ vs, Reach (g.through (visibly g vs c p)) s v) → (∀ v, colorOf c' v = if v ∈ D then .black else colorOf c v) →
      ∀ v, ((∃ s ∈ us ++ vs, Reach (g.through p) s v) → colorOf c' v = .black) ∧ ((¬ ∃ s ∈ us ++ vs, Reach (g.through p) s v) → colorOf c' v = .white) := by
    intro us vs c c' D hc hD hc' v
    have hw : ∀ v, colorOf c v ≠ .white ↔ ∃ s ∈ us, Reach (g.through p) s v := by
      intro v
      by_cases hv : ∃ s ∈ us, Reach (g.through p) s v
      · simp [(hc v).1 hv, hv]
      · simp [(hc v).2 hv, hv]
    rw [hc' v]
    have h1 := hD v
    rw [reach_visibly hw] at h1
    have hsplit : (∃ s ∈ us ++ vs, Reach (g.through p) s v) ↔ (∃ s ∈ us, Reach (g.through p) s v) ∨ ∃ s ∈ vs, Reach (g.through p) s v := by
      simp only [List.mem_append, or_and_right, exists_or]
    rw [hsplit]
    have hself : v ∈ vs → ∃ s ∈ vs, Reach (g.through p) s v := fun hv => ⟨v, hv, Reach.refl _ _⟩
    clear hsplit hc' hD hw
    generalize (∃ s ∈ vs, Reach (g.through p) s v) = B at *
    have hcv := hc v
    clear hc
    generalize (∃ s ∈ us, Reach (g.through p) s v) = A at *
    by_cases hu : A
    · refine ⟨fun _ => ?_, fun hn => absurd (.inl hu) hn⟩
      split
      · rfl
      · exact hcv.1 hu
    · by_cases hv : B
      · refine ⟨fun _ => if_pos (h1.mpr (.inr ⟨hv, hu⟩)), fun hn => absurd (.inr hv) hn⟩
      · refine ⟨fun hn => absurd hn (by tauto), fun _ => ?_⟩
        rw [if_neg (by tauto)]
        exact hcv.2 hu
  induction h with
  | new => exact fun v => ⟨by simp, fun _ => rfl⟩
  | @dfs us c c' σ vis st st' s h hr ih =>
    have hUs := hU s (by simp)
    obtain ⟨d, tr, k1, k2, _, _, _, k3, _⟩ := C136_dfs (g := g) (p := p) s c U hUs
    obtain ⟨d', tr', k1', k4⟩ := C136_dfs_any_visitor (g := g) (p := p) vis st s c U hUs
    have e1 := returns_unique k1 k1'
    simp only [Except.ok.injEq, Prod.mk.injEq] at e1
    obtain ⟨rfl, rfl⟩ := e1
    have e2 := returns_unique hr k4
    have hcd : c' = d := by
      cases he : emit vis tr st with
      | error e => rw [he] at e2; cases e2
      | ok st2 => rw [he] at e2; cases e2; rfl
    subst hcd
    exact key (ih fun s hs => hU s (by simp [hs])) (D := discovered tr) (fun v => by rw [k2]; simp) k3
  | @bfs us vs c c' σ vis st st' h hvs hr ih =>
    have hUs : ∀ s ∈ vs, ∀ v, Reach (g.through p) s v → v ∈ U := fun s hs => hU s (by simp [hs])
    obtain ⟨d, tr, k1, k2, _, _, _, _, k3, _⟩ := C136_bfs (g := g) (p := p) vs hvs c U hUs
    obtain ⟨d', tr', k1', k4⟩ := C136_bfs_any_visitor (g := g) (p := p) vis st vs hvs c U hUs
    have e1 := returns_unique k1 k1'
    simp only [Except.ok.injEq, Prod.mk.injEq] at e1
    obtain ⟨rfl, rfl⟩ := e1
    have e2 := returns_unique hr k4
    have hcd : c' = d := by
      cases he : emit vis tr st with
      | error e => rw [he] at e2; cases e2
      | ok st2 => rw [he] at e2; cases e2; rfl
    subst hcd
    exact key (ih fun s hs => hU s (by simp [hs])) (D := Bfs.discovered tr) k2 k3

theorem Searches.nonWhite {us : List V} {c : Dict V Color} (h : Searches g p us c) (U : List V) (hU : ∀ s ∈ us, ∀ v, Reach (g.through p) s v → v ∈ U) (v : V) :
    colorOf c v ≠ .white ↔ ∃ s ∈ us, Reach (g.through p) s v := by
  by_cases hv : ∃ s ∈ us, Reach (g.through p) s v
  · simp [(h.colors U hU v).1 hv, hv]
  · simp [(h.colors U hU v).2 hv, hv]

/-- **C136** (any history of searches that share a map of colours): after any sequence of depth-first and breadth-first searches started from the vertices `us`,
the vertices reachable from `us` are black and the other ones white; a depth-first search from `s` with the same map discovers `s` and the vertices reachable from
`s` and from no vertex of `us`, and a breadth-first search from `vs` discovers `vs` and the vertices reachable from `vs` and from no vertex of `us`. -/
theorem C136_history {us : List V} {c : Dict V Color} (h : Searches g p us c) (U : List V) (hU : ∀ s ∈ us, ∀ v, Reach (g.through p) s v → v ∈ U) :
    (∀ v, ((∃ s ∈ us, Reach (g.through p) s v) → colorOf c v = .black) ∧ ((¬ ∃ s ∈ us, Reach (g.through p) s v) → colorOf c v = .white)) ∧
    (∀ s, (∀ v, Reach (g.through p) s v → v ∈ U) → ∃ c' tr, Returns (dfs g p recorder s c []) (.ok (c', tr)) ∧
      ∀ v, v ∈ discovered tr ↔ v = s ∨ (Reach (g.through p) s v ∧ ¬ ∃ u ∈ us, Reach (g.through p) u v)) ∧
    (∀ vs : List V, vs.Nodup → (∀ s ∈ vs, ∀ v, Reach (g.through p) s v → v ∈ U) → ∃ c' tr, Returns (bfsGraph g vs p recorder c []) (.ok (c', tr)) ∧
      ∀ v, v ∈ Bfs.discovered tr ↔ v ∈ vs ∨ ((∃ s ∈ vs, Reach (g.through p) s v) ∧ ¬ ∃ u ∈ us, Reach (g.through p) u v)) := by
  refine ⟨h.colors U hU, fun s hs => ?_, fun vs hvs hs => ?_⟩
  · obtain ⟨c', tr, k1, k2, _⟩ := C136_dfs (g := g) (p := p) s c U hs
    refine ⟨c', tr, k1, fun v => ?_⟩
    rw [k2]
    have := reach_visibly (vs := [s]) (h.nonWhite U hU) v
    simpa using this
  · obtain ⟨c', tr, k1, k2, _⟩ := C136_bfs (g := g) (p := p) vs hvs c U hs
    exact ⟨c', tr, k1, fun v => by rw [k2]; exact reach_visibly (h.nonWhite U hU) v⟩

/-! ## Dijkstra -/

section
open Dijkstra DijkstraState
variable {D : Type} [DecidableEq E] [DecidableEq D]

/-- The hypotheses on the algebra, the graph and the source: `dijkstra_shortest_paths` with any maps. -/
theorem dijkstra_maps {a : DijkstraArgs E D} {s : V} (h : Hyp a g s) (dist : Dict V D) (preds : Dict V (List E)) (color : Dict V Color) :
    ∃ st, Returns (dijkstraFrom a g s (fun _ => false) dist preds color) (.ok (false, st)) ∧
      (∀ v ∈ g.vertices, IsBest a.compare a.infty (fun d => ∃ p, IsPath g s p v ∧ (∀ e ∈ p.dropLast, hidden [s] color (g.target e) = false) ∧
        pathWeight a.combine a.zero a.weight p = d) (st.distOf a v)) ∧
      (∀ v ∈ g.vertices, v ≠ s → a.compare (st.distOf a v) a.infty = true → ∀ e, e ∈ st.predsOf v ↔ ∃ p, IsPath g s (p ++ [e]) v ∧
        (∀ e' ∈ p, hidden [s] color (g.target e') = false) ∧ pathWeight a.combine a.zero a.weight (p ++ [e]) = st.distOf a v) ∧
      (∀ v, hidden [s] color v = false → v = s ∨ a.compare (st.distOf a v) a.infty = false → ∀ e ∈ preds.getD v [], e ∈ st.predsOf v) ∧
      (∀ v ∈ g.vertices, colorOf st.color v =
        if hidden [s] color v then colorOf color v else if a.compare (st.distOf a v) a.infty then .black else .white) := by
  obtain ⟨r, st, st', bs, h1, _, _, h3⟩ := mask_run (m := hidden [s] color) (c0 := color) (p0 := preds) h (fun v => by rw [hidden_iff]; simp) (fun _ => false) dist
  rcases h3 with ⟨rfl, i, hno, rel⟩ | ⟨_, u, hu, _⟩
  · exact ⟨st, h1, fun v hv => rel.best h (hidden_start (by simp)) i hno hv, fun v hv hvs hlt e => rel.optimal h i hno hv hvs hlt e,
      fun v hv hvs e he => rel.leftovers h i hv hvs e he, fun v hv => rel.finalColor h i hno hv⟩
  · cases hu

/-- **C136** (`dijkstra_shortest_paths` with any map of colours): the search ends without error; `pmap_vdist[v]` is the best combined weight of the paths from `s`
to `v` whose intermediate vertices are not hidden by the map (a vertex other than `s` that is not white is hidden), and `pmap_vpreds[v]` is the set of the last arcs
of the paths of this weight, for every vertex `v ≠ s` so reached. Hidden vertices keep their colour, the other vertices are black if they are reached and white
otherwise. The maps of the distances and of the predecessors may contain anything. -/
theorem C136_dijkstra {W : D → Prop} {s : V} {weight : E → D} {compare : D → D → Bool} {combine : D → D → D} {zero infty dflt : D}
    (h : SelectiveAlgebra compare combine zero infty W) (hg : g.Closed) (hs : s ∈ g.vertices) (hW : ∀ u ∈ g.vertices, ∀ e ∈ g.outEdges u, W (weight e))
    (dist : Dict V D) (preds : Dict V (List E)) (color : Dict V Color) :
    ∃ st, Returns (dijkstraFrom (argsWith weight compare combine zero infty dflt) g s (fun _ => false) dist preds color) (.ok (false, st)) ∧
      (∀ v ∈ g.vertices, IsBest compare infty (fun d => ∃ p, IsPath g s p v ∧ (∀ e ∈ p.dropLast, hidden [s] color (g.target e) = false) ∧
        pathWeight combine zero weight p = d) (st.dist.getD v dflt)) ∧
      (∀ v ∈ g.vertices, v ≠ s → compare (st.dist.getD v dflt) infty = true → ∀ e, e ∈ st.preds.getD v [] ↔ ∃ p, IsPath g s (p ++ [e]) v ∧
        (∀ e' ∈ p, hidden [s] color (g.target e') = false) ∧ pathWeight combine zero weight (p ++ [e]) = st.dist.getD v dflt) ∧
      (∀ v ∈ g.vertices, colorOf st.color v =
        if hidden [s] color v then colorOf color v else if compare (st.dist.getD v dflt) infty then .black else .white) := by
  obtain ⟨st, h1, h2, h3, _, h5⟩ := dijkstra_maps (hyp_with (dflt := dflt) h hg hs hW) dist preds color
  exact ⟨st, h1, h2, h3, h5⟩

/-! ## C137 -/

/-- **C137** (`dijkstra_shortest_paths` with maps that are not new): whatever `pmap_vdist` and `pmap_vpreds` contain, the distances are the best weights of the paths
and, for every vertex `v ≠ s` that is reached, `pmap_vpreds[v]` is exactly the set of the last arcs of the best paths. What `pmap_vpreds` contained stays there at
`s` and at the vertices that are not reached. -/
theorem C137_maps {W : D → Prop} {s : V} {weight : E → D} {compare : D → D → Bool} {combine : D → D → D} {zero infty dflt : D}
    (h : SelectiveAlgebra compare combine zero infty W) (hg : g.Closed) (hs : s ∈ g.vertices) (hW : ∀ u ∈ g.vertices, ∀ e ∈ g.outEdges u, W (weight e))
    (dist : Dict V D) (preds : Dict V (List E)) :
    ∃ st, Returns (dijkstra (argsWith weight compare combine zero infty dflt) g s (fun _ => false) dist preds) (.ok (false, st)) ∧
      (∀ v ∈ g.vertices, IsBest compare infty (fun d => ∃ p, IsPath g s p v ∧ pathWeight combine zero weight p = d) (st.dist.getD v dflt)) ∧
      (∀ v ∈ g.vertices, v ≠ s → compare (st.dist.getD v dflt) infty = true → ∀ e, e ∈ st.preds.getD v [] ↔
        ∃ p, IsPath g s (p ++ [e]) v ∧ pathWeight combine zero weight (p ++ [e]) = st.dist.getD v dflt) ∧
      (∀ v, v = s ∨ compare (st.dist.getD v dflt) infty = false → ∀ e ∈ preds.getD v [], e ∈ st.preds.getD v []) := by
  obtain ⟨st, h1, h2, h3, h4, _⟩ := dijkstra_maps (hyp_with (dflt := dflt) h hg hs hW) dist preds []
  have hh : ∀ v, hidden [s] [] v = false := by intro v; simp [hidden, colorOf_nil]
  simp only [hh] at h2 h3 h4
  refine ⟨st, h1, ?_, ?_, fun v hv => h4 v trivial hv⟩
  · simp only [implies_true, true_and] at h2; exact h2
  · simp only [implies_true, true_and] at h3; exact h3

/-- **C137**, with the default arguments: whatever the maps contain, `pmap_vdist[v]` is the weight of the shortest paths from `s` to `v`. -/
theorem C137_distances {s : V} {weight : E → Int} {dflt : Int} (hg : g.Closed) (hs : s ∈ g.vertices)
    (hW : ∀ u ∈ g.vertices, ∀ e ∈ g.outEdges u, 0 ≤ weight e) (dist : Dict V Int) (preds : Dict V (List E)) :
    ∃ st, Returns (dijkstra (argsDefault weight dflt) g s (fun _ => false) dist preds) (.ok (false, st)) ∧
      ∀ v ∈ g.vertices, IsBest less INFINITY (fun d => ∃ p, IsPath g s p v ∧ (p.map weight).sum = d) (st.dist.getD v dflt) := by
  obtain ⟨st, h1, h2, _⟩ := dijkstra_maps (hyp_default (dflt := dflt) hg hs hW) dist preds []
  have hh : ∀ v, hidden [s] [] v = false := by intro v; simp [hidden, colorOf_nil]
  simp only [hh, implies_true, true_and] at h2
  exact ⟨st, h1, fun v hv => best_plus hg hs hW (h2 v hv)⟩

/-- **C137** (`dijkstra_shortest_path`): the result does not depend on what `pmap_vpreds` contained. -/
theorem C137_path {ord : SetOracle E} (hord : ord.Valid) {W : D → Prop} {s t : V} {weight : E → D} {compare : D → D → Bool} {combine : D → D → D}
    {zero infty dflt : D} (h : SelectiveAlgebra compare combine zero infty W) (hg : g.Closed) (hs : s ∈ g.vertices)
    (hW : ∀ u ∈ g.vertices, ∀ e ∈ g.outEdges u, W (weight e)) (hsrc : ∀ u ∈ g.vertices, ∀ e ∈ g.outEdges u, g.source e = u) (dist : Dict V D)
    (preds : Dict V (List E)) (r : Except PyErr (Option (List E))) :
    Returns (dijkstraShortestPath ord (argsWith weight compare combine zero infty dflt) g s t dist preds) r ↔
      Returns (dijkstraShortestPath ord (argsWith weight compare combine zero infty dflt) g s t dist []) r := by
  obtain ⟨b, st, st', bs, h1, h2, _, h3⟩ := mask_run (m := fun _ => false) (c0 := []) (p0 := preds) (hyp_with (dflt := dflt) h hg hs hW)
    (fun v => by simp [colorOf_nil]) (fun u => decide (u = t)) dist
  rw [unmasked_false] at h2 h3
  obtain ⟨N, hN⟩ := h1
  obtain ⟨N', hN'⟩ := h2
  have heq : ∀ fuel, max N N' ≤ fuel → dijkstraShortestPath ord (argsWith weight compare combine zero infty dflt) g s t dist preds fuel =
      dijkstraShortestPath ord (argsWith weight compare combine zero infty dflt) g s t dist [] fuel := by
    intro fuel hf
    unfold dijkstraShortestPath
    rw [dijkstra_eq_from, hN fuel (by omega), hN' fuel (by omega)]
    rcases h3 with ⟨rfl, _⟩ | ⟨rfl, u, hu, i, rel⟩
    · rfl
    · have hu' : u = t := by simpa using hu
      subst hu'
      simp only
      rw [rel.walk i hsrc hord]
  constructor
  · rintro ⟨M, hM⟩
    exact ⟨max M (max N N'), fun fuel hf => by rw [← heq fuel (by omega)]; exact hM fuel (by omega)⟩
  · rintro ⟨M, hM⟩
    exact ⟨max M (max N N'), fun fuel hf => by rw [heq fuel (by omega)]; exact hM fuel (by omega)⟩

end

/-! ## Non-vacuity -/

theorem loopGraph_reach (q : EdgeDesc Nat → Bool) (s : Nat) (hs : s ∈ loopGraph.vertices) (v : Nat) (hr : Reach (loopGraph.through q) s v) : v ∈ loopGraph.vertices :=
  hr.closed (P := fun x => x ∈ loopGraph.vertices) (fun u hu e he => by
    have he' := (List.mem_filter.mp he).1
    have : ∀ u ∈ loopGraph.vertices, ∀ e ∈ loopGraph.outEdges u, loopGraph.target e ∈ loopGraph.vertices := by decide
    exact this u hu e he') hs

/-- The graph `0 → 1 → 2 → 3` with `2 → 1`, searched from 0 with a map where 2 is already black: 0 and 1 are discovered, 2 is seen and not entered. -/
example : ∃ c tr, Returns (dfs loopGraph (fun _ => true) recorder 0 [(2, .black)] []) (.ok (c, tr)) ∧ (∀ v, v ∈ discovered tr → v = 0 ∨ v = 1) ∧ 1 ∈ discovered tr ∧
    colorOf c 2 = .black ∧ colorOf c 3 = .white := by
  obtain ⟨c, tr, h1, h2, _, _, _, h3, _⟩ := C136_dfs (g := loopGraph) (p := fun _ => true) 0 [(2, .black)] loopGraph.vertices
    (loopGraph_reach _ 0 (by decide))
  have hcl : ∀ v, v ∈ discovered tr → v = 0 ∨ v = 1 := fun v hv => ((h2 v).mp hv).closed (P := fun x => x = 0 ∨ x = 1) (fun u hu e he => by
    have : ∀ u ∈ [0, 1], ∀ e ∈ (loopGraph.through (visibly loopGraph [0] [(2, .black)] fun _ => true)).outEdges u, loopGraph.target e = 0 ∨ loopGraph.target e = 1 := by
      decide
    exact this u (by simpa using hu) e he) (.inl rfl)
  refine ⟨c, tr, h1, hcl, (h2 1).mpr ⟨[⟨0, 1, 0⟩], .cons (by decide) (.nil _)⟩, ?_, ?_⟩
  · rw [h3, if_neg (fun hc => by rcases hcl _ hc with h | h <;> cases h)]; rfl
  · rw [h3, if_neg (fun hc => by rcases hcl _ hc with h | h <;> cases h)]; rfl

/-- A history: a search from 2, then one from 0. The second one discovers 0 only. -/
example : ∃ us c, Searches loopGraph (fun _ => true) us c ∧ us = [2] ∧ ∃ c' tr, Returns (dfs loopGraph (fun _ => true) recorder 0 c []) (.ok (c', tr)) ∧
    0 ∈ discovered tr ∧ 1 ∉ discovered tr ∧ 3 ∉ discovered tr := by
  obtain ⟨c, tr, h1, _⟩ := C51_visits (g := loopGraph) (p := fun _ => true) 2 loopGraph.vertices (loopGraph_reach _ 2 (by decide))
  have hS : Searches loopGraph (fun _ => true) [2] c := .dfs (us := []) .new h1
  have hU : ∀ s ∈ [2], ∀ v, Reach (loopGraph.through fun _ => true) s v → v ∈ loopGraph.vertices := by
    intro s hs; simp at hs; subst hs; exact loopGraph_reach _ 2 (by decide)
  obtain ⟨_, h2, _⟩ := C136_history hS loopGraph.vertices hU
  obtain ⟨c', tr', h3, h4⟩ := h2 0 (loopGraph_reach _ 0 (by decide))
  refine ⟨[2], c, hS, rfl, c', tr', h3, (h4 0).mpr (.inl rfl), fun hc => ?_, fun hc => ?_⟩
  · rcases (h4 1).mp hc with h | ⟨_, h⟩
    · cases h
    · exact h ⟨2, by simp, [⟨2, 1, 0⟩], .cons (by decide) (.nil _)⟩
  · rcases (h4 3).mp hc with h | ⟨_, h⟩
    · cases h
    · exact h ⟨2, by simp, [⟨2, 3, 0⟩], .cons (by decide) (.nil _)⟩

/-- The hypotheses of C136 and C137 on the search of Dijkstra are met by the same graph. -/
example : ∃ st, Returns (dijkstra (argsDefault loopWeight 0) loopGraph 0 (fun _ => false) [(3, 7)] [(0, [⟨2, 1, 0⟩])]) (.ok (false, st)) ∧
      ∀ v ∈ loopGraph.vertices, IsBest less INFINITY (fun d => ∃ p, IsPath loopGraph 0 p v ∧ (p.map loopWeight).sum = d) (st.dist.getD v 0) :=
  C137_distances (by unfold GraphI.Closed; decide) (by decide) (by decide) _ _

/-- Giving the colours left by a search to another one hides the graph from it: the vertex 2, at distance 1, is left at `INFINITY`. -/
example : ∃ st st', dijkstraFrom (argsDefault loopWeight 0) loopGraph 0 (fun _ => false) [] [] [] 10 = some (.ok (false, st)) ∧ st.dist.getD 2 0 = 1 ∧
    dijkstraFrom (argsDefault loopWeight 0) loopGraph 0 (fun _ => false) [] [] st.color 10 = some (.ok (false, st')) ∧ st'.dist.getD 2 0 = INFINITY :=
  ⟨_, _, rfl, rfl, rfl, rfl⟩

end PyBGL
