import Verif.Props.C51_C54_Dfs
import Verif.Props.C48_C50_Bfs
import Verif.Proofs.SearchColors
import Mathlib.Data.List.Induction

/-!
# C150: the colours seen by a visitor, and those left by a search that it interrupts
-/

namespace PyBGL
variable {V E σ Ev : Type} [DecidableEq V] {g : GraphI V E} {p : E → Bool}

omit [DecidableEq V] in
/-- An interrupted run stopped at some call. -/
theorem tellColors_error {paint dry : Dict V Color → Ev → Dict V Color} {vis : ColorReader Ev V σ} {err : PyErr} {c1 : Dict V Color} (tr : List Ev) :
    ∀ {c : Dict V Color} {x : σ}, tellColors paint dry vis tr c x = .error (err, c1) →
      ∃ pre ev rest x', tr = pre ++ ev :: rest ∧ c1 = paint (pre.foldl (fun c e => dry (paint c e) e) c) ev ∧ vis ev c1 x' = .error err := by
  induction tr with
  | nil => intro c x h; cases h
  | cons e tr ih =>
    intro c x h
    rw [tellColors] at h
    cases hv : vis e (paint c e) x with
    | error er =>
      rw [hv] at h
      cases h
      exact ⟨[], e, tr, x, rfl, rfl, hv⟩
    | ok x1 =>
      rw [hv] at h
      obtain ⟨pre, ev, rest, x', h1, h2, h3⟩ := ih h
      exact ⟨e :: pre, ev, rest, x', by rw [h1]; rfl, h2, h3⟩

/-- The frontier follows from the absence of edges from `BLACK` to `WHITE`. -/
theorem frontier_of_closed {c : Dict V Color} (hcl : ∀ u, colorOf c u = .black → ∀ e ∈ g.outEdges u, p e = true → colorOf c (g.target e) ≠ .white)
    {u v : V} (hu : colorOf c u ≠ .white) (hv : colorOf c v = .white) (hr : Reach (g.through p) u v) :
    ∃ w, colorOf c w = .gray ∧ Reach (g.through (fun e => p e && decide (colorOf c (g.target e) = .white))) w v := by
  have key : colorOf c v = .white → ∃ w, colorOf c w = .gray ∧ Reach (g.through (fun e => p e && decide (colorOf c (g.target e) = .white))) w v := by
    refine Reach.closed (g := g.through p)
      (P := fun v => colorOf c v = .white → ∃ w, colorOf c w = .gray ∧ Reach (g.through (fun e => p e && decide (colorOf c (g.target e) = .white))) w v)
      ?_ hr (fun h => absurd h hu)
    intro x hx e he hw
    obtain ⟨he1, he2⟩ := List.mem_filter.mp he
    have hmem : e ∈ (g.through (fun e => p e && decide (colorOf c (g.target e) = .white))).outEdges x :=
      List.mem_filter.mpr ⟨he1, by
        have : colorOf c (g.target e) = .white := hw
        simp [he2, this]⟩
    cases hc : colorOf c x with
    | white =>
      obtain ⟨w, h1, h2⟩ := hx hc
      exact ⟨w, h1, h2.step (e := e) hmem⟩
    | gray => exact ⟨x, hc, (Reach.refl _ _).step (e := e) hmem⟩
    | black => exact absurd hw (hcl x hc e he1 he2)
  exact key hv

/-! ## Depth-first search -/

/-- **C150** (depth-first search): `depth_first_search` makes the same calls whatever its visitor is, which reads the colours at each of them: a vertex is `GRAY`
when its `discover_vertex` is called and until its `finish_vertex` is, where it is `BLACK`. The first exception of the visitor is the outcome, and the colours
stay as they are at that call. -/
theorem C150_dfs (s : V) (U : List V) (hU : ∀ v, Reach (g.through p) s v → v ∈ U) (c : Dict V Color) :
    ∃ c' tr, Returns (dfs g p recorder s c []) (.ok (c', tr)) ∧
      ∀ (σ : Type) (vis : ColorReader (DfsEvent V E) V σ) (x : σ), Returns (dfsV g p vis s c x) (.ok (tellColors dfsPaint dfsDry vis tr c x)) := by
  obtain ⟨W, h1, h2⟩ := finite_closed (us := [s]) (fun x hx => by simp at hx; subst hx; exact hU)
  obtain ⟨tr, c', h⟩ := DfsRoot.exists h2 (h1 s (by simp)) c
  refine ⟨c', tr, ?_, fun σ vis x => ?_⟩
  · have := h.returns (vis := recorder) []
    rwa [emit_recorder_nil] at this
  · have := h.returns (vis := swallow dfsPaint dfsDry vis) (.ok (c, x))
    rw [emit_swallow] at this
    exact dfs_colors this

/-- The colours after some calls of `depth_first_search`. -/
theorem dfsPaint_color {us : List V} {c : Dict V Color} {tr : List (DfsEvent V E)} (f : DfsFacts g p us c tr) (pre : List (DfsEvent V E)) :
    ∀ rest, tr = pre ++ rest → ∀ v, colorOf (pre.foldl dfsPaint []) v = traceColor pre v := by
  induction pre using List.reverseRecOn with
  | nil => intro rest _ v; rfl
  | append_singleton pre ev ih =>
    intro rest e v
    have i := ih (ev :: rest) (by simpa using e) v
    have hok := f.ok pre ev rest (by simpa using e)
    rw [List.foldl_append, List.foldl_cons, List.foldl_nil]
    unfold traceColor at i ⊢
    cases ev with
    | discover u =>
      have hw := traceColor_white.mp (show traceColor pre u = .white from hok.1)
      simp only [dfsPaint, colorOf_set, discovered_append, finished_append, discovered_cons, finished_cons, discovered_nil, finished_nil, List.append_nil,
        List.mem_append, List.mem_singleton]
      by_cases huv : u = v
      · subst huv
        simp [hw.2]
      · rw [if_neg huv, i]
        have : ¬ v = u := fun h => huv h.symm
        simp [this]
    | finish u =>
      simp only [dfsPaint, colorOf_set, discovered_append, finished_append, discovered_cons, finished_cons, discovered_nil, finished_nil, List.append_nil,
        List.mem_append, List.mem_singleton]
      by_cases huv : u = v
      · subst huv
        simp
      · rw [if_neg huv, i]
        have : ¬ v = u := fun h => huv h.symm
        simp [this]
    | _ => simpa [dfsPaint] using i

theorem dfs_sane {us : List V} {c : Dict V Color} {tr : List (DfsEvent V E)} (f : DfsFacts g p us c tr) {pre rest : List (DfsEvent V E)} (e : tr = pre ++ rest) :
    SaneColors g p us (pre.foldl dfsPaint []) := by
  have hcol := dfsPaint_color f pre rest e
  have hdisc : ∀ v, traceColor pre v ≠ .white → v ∈ discovered tr := by
    intro v hv
    rw [Ne, traceColor_white] at hv
    by_cases hd : v ∈ discovered pre
    · rw [e]; simp [hd]
    · have hf : v ∈ finished pre := by by_contra hf; exact hv ⟨hd, hf⟩
      exact f.perm.mem_iff.mp (by rw [e]; simp [hf])
  have hcl : ∀ u, colorOf (pre.foldl dfsPaint []) u = .black → ∀ e ∈ g.outEdges u, p e = true → colorOf (pre.foldl dfsPaint []) (g.target e) ≠ .white := by
    intro u hu e' he' hp
    rw [hcol, traceColor_black, mem_finished] at hu
    rw [hcol]
    obtain ⟨a, b, rfl⟩ := List.append_of_mem hu
    have hok := (f.ok a (.finish u) (b ++ rest) (by simp [e])).2.1 e' (List.mem_filter.mpr ⟨he', hp⟩)
    rw [Ne, traceColor_white]
    rintro ⟨n1, n2⟩
    rcases hok with h | ⟨h, _⟩
    · rw [traceColor_black] at h
      exact n2 (by simp [h])
    · rw [traceColor_gray] at h
      exact n1 (by simp [h.1])
  refine ⟨fun v hv => ?_, hcl, fun u v hu hv hr => frontier_of_closed hcl hu hv hr⟩
  rw [hcol] at hv
  exact (f.reach v).mp (hdisc v hv)

/-- **C150** (the colours at each call): let `pre` be the first calls made by `depth_first_search` on a new map of colours. At that time a vertex is `BLACK` iff its
`finish_vertex` was called, `GRAY` iff its `discover_vertex` was and not its `finish_vertex`, `WHITE` iff none was; every vertex that is not `WHITE` is reachable
from the source, no relevant edge leads from a `BLACK` vertex to a `WHITE` one, and every `WHITE` vertex still to be reached can be reached from a `GRAY` one
through `WHITE` ones. A `GRAY` vertex reaches all the vertices discovered after it. -/
theorem C150_dfs_colors (s : V) (U : List V) (hU : ∀ v, Reach (g.through p) s v → v ∈ U) {c : Dict V Color} {pre rest : List (DfsEvent V E)}
    (h : Returns (dfs g p recorder s [] []) (.ok (c, pre ++ rest))) :
    (∀ v, colorOf (pre.foldl dfsPaint []) v = if v ∈ finished pre then .black else if v ∈ discovered pre then .gray else .white) ∧
    SaneColors g p [s] (pre.foldl dfsPaint []) ∧
    ∀ a b u v, pre = a ++ .discover u :: b → .discover v ∈ b → colorOf (pre.foldl dfsPaint []) u = .gray → Reach (g.through p) u v := by
  have f := dfs_trace s U hU h
  have hcol := dfsPaint_color f pre rest rfl
  refine ⟨hcol, dfs_sane f rfl, ?_⟩
  · intro a b u v e hv hu
    rw [hcol, traceColor_gray] at hu
    have hfin : DfsEvent.finish u ∈ pre ++ rest := by
      rw [← mem_finished]
      exact f.perm.mem_iff.mpr (by simp [hu.1])
    rcases List.mem_append.mp hfin with h' | h'
    · exact absurd (mem_finished.mpr h') hu.2
    · obtain ⟨r1, r2, rfl⟩ := List.append_of_mem h'
      have e2 : pre ++ (r1 ++ .finish u :: r2) = a ++ .discover u :: (b ++ r1) ++ .finish u :: r2 := by rw [e]; simp
      rw [e2] at h
      exact (C52_nesting s U hU h).2.2 v (by simp [hv])

/-- **C150** (interrupted): when the visitor raises an exception, this exception is the outcome of `depth_first_search`; the colours left are those that the visitor
read at this call, and the guarantees above hold for them. -/
theorem C150_dfs_interrupted (s : V) (U : List V) (hU : ∀ v, Reach (g.through p) s v → v ∈ U) (vis : ColorReader (DfsEvent V E) V σ) (x : σ)
    {err : PyErr} {c1 : Dict V Color} (h : Returns (dfsV g p vis s [] x) (.ok (.error (err, c1)))) :
    SaneColors g p [s] c1 ∧ ∃ c' pre ev rest x', Returns (dfs g p recorder s [] []) (.ok (c', pre ++ ev :: rest)) ∧
      c1 = (pre ++ [ev]).foldl dfsPaint [] ∧ vis ev c1 x' = .error err := by
  obtain ⟨c', tr, h1, h2⟩ := C150_dfs (g := g) (p := p) s U hU []
  have := returns_unique h (h2 σ vis x)
  cases hx : tellColors dfsPaint dfsDry vis tr [] x with
  | ok q => rw [hx] at this; cases this
  | error q =>
    rw [hx] at this
    cases this
    obtain ⟨pre, ev, rest, x', rfl, e2, e3⟩ := tellColors_error tr hx
    have e4 : c1 = (pre ++ [ev]).foldl dfsPaint [] := by rw [e2, List.foldl_append]; rfl
    refine ⟨?_, c', pre, ev, rest, x', h1, e4, e3⟩
    rw [e4]
    exact dfs_sane (rest := rest) (dfs_trace s U hU h1) (by simp)

/-! ## Breadth-first search -/

namespace Bfs

omit [DecidableEq V] in
theorem mem_finished {tr : List (BfsEvent V E)} {v : V} : v ∈ finished tr ↔ .finish v ∈ tr := by
  induction tr with
  | nil => simp
  | cons x tr ih => cases x <;> simp [ih]

omit [DecidableEq V] in
theorem mem_examinedVertices {tr : List (BfsEvent V E)} {v : V} : v ∈ examinedVertices tr ↔ .examineVertex v ∈ tr := by
  induction tr with
  | nil => simp
  | cons x tr ih => cases x <;> simp [ih]

/-- The colours after some calls of `breadth_first_search_graph`. -/
theorem paint_color {us : List V} {c c' : Dict V Color} {tr : List (BfsEvent V E)} (hc : ∀ v, colorOf c v = .white) (f : Facts g p us tr c')
    (pre : List (BfsEvent V E)) :
    ∀ rest, tr = pre ++ rest → ∀ v, colorOf (pre.foldl bfsPaint c) v = if v ∈ finished pre then .black else if v ∈ discovered pre then .gray else .white := by
  induction pre using List.reverseRecOn with
  | nil => intro rest _ v; exact hc v
  | append_singleton pre ev ih =>
    intro rest e v
    have i := ih (ev :: rest) (by simpa using e) v
    have hok := f.ok pre ev rest (by simpa using e)
    rw [List.foldl_append, List.foldl_cons, List.foldl_nil]
    cases ev with
    | discover u =>
      have hnf : u ∉ finished pre := by
        intro hf
        obtain ⟨a, b, rfl⟩ := List.append_of_mem (mem_finished.mp hf)
        have h1 := (f.ok a (.finish u) (b ++ .discover u :: rest) (by simp [e])).1
        have h2 : BfsEvent.examineVertex u ∈ a := by
          have : u ∈ examinedVertices a := by rw [h1]; simp
          exact mem_examinedVertices.mp this
        obtain ⟨a1, a2, rfl⟩ := List.append_of_mem h2
        have h3 := (f.ok a1 (.examineVertex u) (a2 ++ .finish u :: b ++ .discover u :: rest) (by simp [e])).1
        exact hok.1 (by simp [h3])
      simp only [bfsPaint, colorOf_set, discovered_append, finished_append, discovered_cons, finished_cons, discovered_nil, finished_nil, List.append_nil,
        List.mem_append, List.mem_singleton]
      by_cases huv : u = v
      · subst huv
        simp [hnf]
      · rw [if_neg huv, i]
        have : ¬ v = u := fun h => huv h.symm
        simp [this]
    | finish u =>
      simp only [bfsPaint, colorOf_set, discovered_append, finished_append, discovered_cons, finished_cons, discovered_nil, finished_nil, List.append_nil,
        List.mem_append, List.mem_singleton]
      by_cases huv : u = v
      · subst huv
        simp
      · rw [if_neg huv, i]
        have : ¬ v = u := fun h => huv h.symm
        simp [this]
    | _ => simpa [bfsPaint] using i

theorem finished_discovered {us : List V} {c' : Dict V Color} {tr : List (BfsEvent V E)} (f : Facts g p us tr c') {v : V} (hv : v ∈ finished tr) :
    v ∈ discovered tr := by
  rw [f.fin, f.exam] at hv
  rcases List.mem_append.mp hv with h | h
  · exact f.src.subset (by simpa using h)
  · exact List.mem_of_mem_drop h

theorem sane {us : List V} {c c' : Dict V Color} {tr : List (BfsEvent V E)} (hc : ∀ v, colorOf c v = .white) (f : Facts g p us tr c')
    {pre rest : List (BfsEvent V E)} (e : tr = pre ++ rest) : SaneColors g p us (pre.foldl bfsPaint c) := by
  have hcol := paint_color hc f pre rest e
  have hcl : ∀ u, colorOf (pre.foldl bfsPaint c) u = .black → ∀ e ∈ g.outEdges u, p e = true → colorOf (pre.foldl bfsPaint c) (g.target e) ≠ .white := by
    intro u hu e' he' hp
    have hf : u ∈ finished pre := by
      by_contra hn
      rw [hcol, if_neg hn] at hu
      split at hu <;> cases hu
    obtain ⟨a, b, rfl⟩ := List.append_of_mem (mem_finished.mp hf)
    have hok := ((f.ok a (.finish u) (b ++ rest) (by simp [e])).2 e' (List.mem_filter.mpr ⟨he', hp⟩)).2
    rw [hcol]
    split
    · simp
    · rw [if_pos (by simp [hok])]; simp
  refine ⟨fun v hv => ?_, hcl, fun u v hu hv hr => frontier_of_closed hcl hu hv hr⟩
  rw [hcol] at hv
  refine (f.reach v).mp ?_
  by_cases h1 : v ∈ finished pre
  · exact finished_discovered f (by rw [e]; simp [h1])
  · rw [if_neg h1] at hv
    by_cases h2 : v ∈ discovered pre
    · rw [e]; simp [h2]
    · rw [if_neg h2] at hv; exact absurd rfl hv

end Bfs

/-- **C150** (breadth-first search): `breadth_first_search_graph` with distinct sources and a map of colours that are all `WHITE` makes the same calls whatever its
visitor is, which reads the colours at each of them. The first exception of the visitor is the outcome, and the colours stay as they are at that call. -/
theorem C150_bfs (us : List V) (hus : us.Nodup) (U : List V) (hU : ∀ s ∈ us, ∀ v, Reach (g.through p) s v → v ∈ U) (c : Dict V Color)
    (hc : ∀ v, colorOf c v = .white) :
    ∃ c' tr, Returns (bfsGraph g us p recorder c []) (.ok (c', tr)) ∧
      ∀ (σ : Type) (vis : ColorReader (BfsEvent V E) V σ) (x : σ), Returns (bfsGraphV g us p vis c x) (.ok (tellColors bfsPaint bfsDry vis tr c x)) := by
  obtain ⟨tr, c', f, _, hr⟩ := Bfs.facts hc hus hU
  refine ⟨c', tr, ?_, fun σ vis x => ?_⟩
  · have := hr recorder []
    unfold Bfs.outcome at this
    rw [emit_recorder] at this
    exact this
  · obtain ⟨N, h⟩ := hr (swallow bfsPaint bfsDry vis) (.ok (c, x))
    refine ⟨N, fun fuel hf => bfsGraph_colors (c' := c') ?_⟩
    have := h fuel hf
    unfold Bfs.outcome at this
    rw [emit_swallow] at this
    exact this

theorem bfs_trace {us : List V} (hus : us.Nodup) {U : List V} (hU : ∀ s ∈ us, ∀ v, Reach (g.through p) s v → v ∈ U) {c : Dict V Color}
    (hc : ∀ v, colorOf c v = .white) {c' : Dict V Color} {tr : List (BfsEvent V E)} (h : Returns (bfsGraph g us p recorder c []) (.ok (c', tr))) :
    Bfs.Facts g p us tr c' := by
  obtain ⟨tr1, c1, f, _, hr⟩ := Bfs.facts hc hus hU
  have := hr recorder []
  unfold Bfs.outcome at this
  rw [emit_recorder] at this
  have := returns_unique h this
  cases this
  exact f

/-- **C150** (the colours at each call): let `pre` be the first calls made by `breadth_first_search_graph`. At that time a vertex is `BLACK` iff its
`finish_vertex` was called, `GRAY` iff its `discover_vertex` was and not its `finish_vertex`, `WHITE` iff none was; every vertex that is not `WHITE` is reachable
from a source, no relevant edge leads from a `BLACK` vertex to a `WHITE` one, every `WHITE` vertex still to be reached can be reached from a `GRAY` one
through `WHITE` ones, and it is at least as far from the sources as every vertex that is not `WHITE`. -/
theorem C150_bfs_colors (us : List V) (hus : us.Nodup) (U : List V) (hU : ∀ s ∈ us, ∀ v, Reach (g.through p) s v → v ∈ U) (c : Dict V Color)
    (hc : ∀ v, colorOf c v = .white) {c' : Dict V Color} {pre rest : List (BfsEvent V E)} (h : Returns (bfsGraph g us p recorder c []) (.ok (c', pre ++ rest))) :
    (∀ v, colorOf (pre.foldl bfsPaint c) v = if v ∈ Bfs.finished pre then .black else if v ∈ Bfs.discovered pre then .gray else .white) ∧
    SaneColors g p us (pre.foldl bfsPaint c) ∧
    ∀ u v d d', colorOf (pre.foldl bfsPaint c) u ≠ .white → colorOf (pre.foldl bfsPaint c) v = .white →
      HopDist (g.through p) us u d → HopDist (g.through p) us v d' → d ≤ d' := by
  have f := bfs_trace hus hU hc h
  have hcol := Bfs.paint_color hc f pre rest rfl
  refine ⟨hcol, Bfs.sane hc f rfl, ?_⟩
  intro u v d d' hu hv h1 h2
  rw [hcol] at hu hv
  have hvn : v ∉ Bfs.discovered pre := by
    intro hm
    rw [if_pos hm] at hv
    split at hv <;> cases hv
  have hvd : v ∈ Bfs.discovered rest := by
    have : v ∈ Bfs.discovered (pre ++ rest) := by
      obtain ⟨⟨s, hs, es, hp, _⟩, _⟩ := h2
      exact (f.reach v).mpr ⟨s, hs, es, hp⟩
    rw [Bfs.discovered_append] at this
    exact (List.mem_append.mp this).resolve_left hvn
  have hud : u ∈ Bfs.discovered pre := by
    by_contra hn
    by_cases hf : u ∈ Bfs.finished pre
    · obtain ⟨a, b, rfl⟩ := List.append_of_mem (Bfs.mem_finished.mp hf)
      have h1 := (f.ok a (.finish u) (b ++ rest) (by simp)).1
      have h2 : BfsEvent.examineVertex u ∈ a := by
        have : u ∈ Bfs.examinedVertices a := by rw [h1]; simp
        exact Bfs.mem_examinedVertices.mp this
      obtain ⟨a1, a2, rfl⟩ := List.append_of_mem h2
      have h3 := (f.ok a1 (.examineVertex u) (a2 ++ .finish u :: b ++ rest) (by simp)).1
      exact hn (by simp [h3])
    · rw [if_neg hf, if_neg hn] at hu; exact hu rfl
  obtain ⟨dep, hd, hs, _⟩ := f.dist
  rw [Bfs.discovered_append] at hs hd
  have hle := (List.pairwise_append.mp hs).2.2 u hud v hvd
  have e1 : ∀ w n, w ∈ Bfs.discovered pre ++ Bfs.discovered rest → HopDist (g.through p) us w n → n = dep w := by
    intro w n hw ⟨⟨s, hs, es, hp, hl⟩, hmin⟩
    obtain ⟨⟨s', hs', es', hp', hl'⟩, hmin'⟩ := hd w hw
    have a1 := hmin s' hs' es' hp'
    have a2 := hmin' s hs es hp
    omega
  rw [e1 u d (by simp [hud]) h1, e1 v d' (by simp [hvd]) h2]
  exact hle

/-- **C150** (interrupted): when the visitor raises an exception, this exception is the outcome of `breadth_first_search_graph`; the colours left are those that the
visitor read at this call, and the guarantees above hold for them. -/
theorem C150_bfs_interrupted (us : List V) (hus : us.Nodup) (U : List V) (hU : ∀ s ∈ us, ∀ v, Reach (g.through p) s v → v ∈ U) (c : Dict V Color)
    (hc : ∀ v, colorOf c v = .white) (vis : ColorReader (BfsEvent V E) V σ) (x : σ) {err : PyErr} {c1 : Dict V Color}
    (h : Returns (bfsGraphV g us p vis c x) (.ok (.error (err, c1)))) :
    SaneColors g p us c1 ∧ ∃ c' pre ev rest x', Returns (bfsGraph g us p recorder c []) (.ok (c', pre ++ ev :: rest)) ∧
      c1 = (pre ++ [ev]).foldl bfsPaint c ∧ vis ev c1 x' = .error err := by
  obtain ⟨c', tr, h1, h2⟩ := C150_bfs (g := g) (p := p) us hus U hU c hc
  have := returns_unique h (h2 σ vis x)
  cases hx : tellColors bfsPaint bfsDry vis tr c x with
  | ok q => rw [hx] at this; cases this
  | error q =>
    rw [hx] at this
    cases this
    obtain ⟨pre, ev, rest, x', rfl, e2, e3⟩ := tellColors_error tr hx
    have f := bfs_trace hus hU hc h1
    have hdry : ∀ (l : List (BfsEvent V E)) (c : Dict V Color), (∀ ev ∈ l, ∀ u, ev ≠ .initializeVertex u) →
        l.foldl (fun c e => bfsDry (bfsPaint c e) e) c = l.foldl bfsPaint c := by
      intro l
      induction l with
      | nil => intro c _; rfl
      | cons a l ih =>
        intro c hl
        rw [List.foldl_cons, List.foldl_cons, ih _ (fun ev hev => hl ev (by simp [hev]))]
        congr 1
        cases a with
        | initializeVertex u => exact absurd rfl (hl _ (by simp) u)
        | _ => rfl
    have e4 : c1 = (pre ++ [ev]).foldl bfsPaint c := by
      rw [e2, List.foldl_append, hdry pre c ?_]; rfl
      rintro ev' hev u rfl
      obtain ⟨a, b, rfl⟩ := List.append_of_mem hev
      exact f.ok a (.initializeVertex u) (b ++ ev :: rest) (by simp)
    refine ⟨?_, c', pre, ev, rest, x', h1, e4, e3⟩
    rw [e4]
    exact Bfs.sane (rest := rest) hc f (by simp)

/-- **C150** (`breadth_first_search`): same description for `breadth_first_search`, which first calls `initialize_vertex` for each vertex, this vertex becoming `WHITE`
right after. A visitor that does not read the colours gets the same calls, until it raises an exception, which is passed on. -/
theorem C150_bfs_single (s : V) (c : Dict V Color) (hc : ∀ v ∉ g.vertices, colorOf c v = .white) (U : List V) (hU : ∀ v, Reach (g.through p) s v → v ∈ U) :
    ∃ c' tr, Returns (bfs g s p (some recorder) c []) (.ok (c', g.vertices.map .initializeVertex ++ tr)) ∧
      Returns (bfsGraph g [s] p recorder (g.vertices.foldl (fun c u => c.set u .white) c) []) (.ok (c', tr)) ∧
      (∀ (σ : Type) (vis : Visitor (BfsEvent V E) σ) (x : σ),
        Returns (bfs g s p (some vis) c x) ((emit vis (g.vertices.map .initializeVertex ++ tr) x).map fun y => (c', y))) ∧
      ∀ (σ : Type) (vis : ColorReader (BfsEvent V E) V σ) (x : σ),
        Returns (bfsV g s p vis c x) (.ok (tellColors bfsPaint bfsDry vis (g.vertices.map .initializeVertex ++ tr) c x)) := by
  have hwhite : ∀ v, colorOf (g.vertices.foldl (fun c u => c.set u .white) c) v = .white := by
    have key : ∀ (l : List V) c v, (v ∉ l → colorOf c v = .white) → colorOf (l.foldl (fun c u => c.set u .white) c) v = .white := by
      intro l
      induction l with
      | nil => intro c v h; exact h (by simp)
      | cons a l ih =>
        intro c v h
        refine ih _ v (fun hv => ?_)
        rw [colorOf_set]
        split
        · rfl
        · exact h (by simp; exact ⟨fun e => by simp_all, hv⟩)
    exact fun v => key _ c v (hc v)
  obtain ⟨tr, c', f, _, hr⟩ := Bfs.facts hwhite (us := [s]) (by simp) (fun x hx => by simp at hx; subst hx; exact hU)
  have hout : ∀ {τ : Type} (vis : Visitor (BfsEvent V E) τ) (x : τ),
      Returns (bfs g s p (some vis) c x) ((emit vis (g.vertices.map .initializeVertex ++ tr) x).map (fun y => (c', y))) := by
    intro τ vis x
    rw [emit_append]
    cases he : emit vis (g.vertices.map .initializeVertex) x with
    | error e => exact ⟨0, fun fuel _ => by unfold bfs; simp only [he]; rfl⟩
    | ok y =>
      obtain ⟨N, h⟩ := hr vis y
      refine ⟨N, fun fuel hf => ?_⟩
      have := h fuel hf
      unfold bfs
      simp only [he]
      rw [this]
      unfold Bfs.outcome
      cases emit vis tr y <;> rfl
  refine ⟨c', tr, ?_, ?_, fun σ vis x => hout vis x, fun σ vis x => ?_⟩
  · have := hout recorder []
    rw [emit_recorder] at this
    exact this
  · have := hr recorder []
    unfold Bfs.outcome at this
    rw [emit_recorder] at this
    exact this
  · have := hout (swallow bfsPaint bfsDry vis) (.ok (c, x))
    rw [emit_swallow] at this
    exact bfs_colors this

/-! ## Non-vacuity -/

/-- A visitor that stops the search at the first edge that is forward or cross; it also checks at each `tree_edge` that the target is still `WHITE`. -/
def stopAtCross : ColorReader (DfsEvent Nat (EdgeDesc Nat)) Nat (List (Dict Nat Color))
  | .forwardOrCrossEdge _, _, _ => .error .valueError
  | .treeEdge e, c, x => if colorOf c e.target = .white then .ok (c :: x) else .error .keyError
  | _, _, x => .ok x

/-- A visitor that stops the search when it finishes a second vertex. -/
def stopAtSecond : ColorReader (BfsEvent Nat (EdgeDesc Nat)) Nat Nat
  | .finish _, _, 1 => .error .valueError
  | .finish _, _, n => .ok (n + 1)
  | _, _, n => .ok n

example : dfsV triangle (fun _ => true) stopAtCross 0 [] [] 20 = some (.ok (.error (.valueError, [(0, .gray), (1, .black), (2, .black)]))) := by
  rfl
example : bfsGraphV triangle [0] (fun _ => true) stopAtSecond [] 0 20 = some (.ok (.error (.valueError, [(0, .black), (1, .black), (2, .gray)]))) := by
  rfl
example : bfsV triangle 0 (fun _ => true) (fun ev _ (x : Nat) => match ev with | .initializeVertex 2 => .error .valueError | _ => .ok x) [(1, .black)] 0 20 =
    some (.ok (.error (.valueError, [(1, .white), (0, .white)]))) := by
  rfl
example : ∀ v, Reach (triangle.through (fun _ => true)) 0 v → v ∈ triangle.vertices := fun v hr =>
  Reach.closed (g := triangle.through (fun _ => true)) (P := fun x => x ∈ triangle.vertices) (fun u hu e he => triangle_closed u hu e (List.mem_filter.mp he).1) hr (by decide)

end PyBGL
