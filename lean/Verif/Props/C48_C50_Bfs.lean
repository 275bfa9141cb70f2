import Verif.Proofs.Bfs
import Verif.Props.C51_C54_Dfs

/-!
# C48–C50: breadth-first search
-/

namespace PyBGL
variable {V E : Type} [DecidableEq V] {g : GraphI V E} {p : E → Bool}

/-- **C48**: breadth-first search from distinct sources terminates without raising. The vertices discovered are exactly those reachable from the
sources through the relevant edges, each is discovered, examined and finished exactly once, in this order, in a FIFO manner (after the sources, which are examined in
reverse order). The relevant out-edges of the vertices are examined exactly once each, in the order of the examination of the vertices, and each is then
reported as a tree edge if its target was not discovered before, as a non-tree edge otherwise, with the colour of its target. -/
theorem C48_graph (us : List V) (hus : us.Nodup) (U : List V) (hU : ∀ s ∈ us, ∀ v, Reach (g.through p) s v → v ∈ U) :
    ∃ tr c, Returns (bfsGraph g us p recorder [] []) (.ok (c, tr)) ∧
      (∀ v, v ∈ Bfs.discovered tr ↔ ∃ s ∈ us, Reach (g.through p) s v) ∧
      (Bfs.discovered tr).Nodup ∧
      Bfs.examinedVertices tr = us.reverse ++ (Bfs.discovered tr).drop us.length ∧ us <+: Bfs.discovered tr ∧
      Bfs.finished tr = Bfs.examinedVertices tr ∧
      (∀ a u b, tr = a ++ .examineVertex u :: b → u ∈ Bfs.discovered a ∧ u ∈ Bfs.finished b ∧ Bfs.examinedVertices a = Bfs.finished a) ∧
      Bfs.examined tr = (Bfs.examinedVertices tr).flatMap (g.through p).outEdges ∧
      Bfs.classified tr = Bfs.examined tr ∧
      (∀ a e b, tr = a ++ .treeEdge e :: b → g.target e ∉ Bfs.discovered a ∧ g.target e ∈ Bfs.discovered b) ∧
      (∀ a v b, tr = a ++ .discover v :: b → v ∈ us ∨ ∃ e a', a = a' ++ [.treeEdge e] ∧ g.target e = v) ∧
      (∀ a e b, tr = a ++ .nonTreeEdge e :: b → g.target e ∈ Bfs.discovered a) ∧
      (∀ a e b, tr = a ++ .grayTarget e :: b → g.target e ∈ Bfs.discovered a ∧ g.target e ∉ Bfs.finished a) ∧
      (∀ a e b, tr = a ++ .blackTarget e :: b → g.target e ∈ Bfs.finished a) ∧
      (∀ v, colorOf c v = if v ∈ Bfs.discovered tr then .black else .white) := by
  obtain ⟨tr, c, f, _, hr⟩ := Bfs.facts (c := []) (fun _ => rfl) hus hU
  refine ⟨tr, c, ?_, f.reach, f.nodup, f.exam, f.src, f.fin, ?_, f.edges, f.cls, ?_, fun a v b h => (f.ok a _ b h).2, fun a e b h => (f.ok a _ b h).1,
    fun a e b h => ⟨(f.ok a _ b h).1, (f.ok a _ b h).2.1⟩, fun a e b h => (f.ok a _ b h).1, f.color⟩
  · have := hr recorder []
    unfold Bfs.outcome at this
    rwa [emit_recorder] at this
  · intro a u b h
    have h1 := f.ok a _ b h
    refine ⟨h1.1, ?_, h1.2.2⟩
    have h2 : u ∈ Bfs.finished tr := by rw [f.fin, h]; simp
    rw [h] at h2
    have h3 : u ∉ Bfs.finished a := h1.2.2 ▸ h1.2.1
    have : u ∈ Bfs.finished a ∨ u ∈ Bfs.finished b := by simpa using h2
    tauto
  · intro a e b h
    obtain ⟨h1, a', rfl⟩ := f.ok a _ b h
    refine ⟨h1, ?_⟩
    obtain ⟨u, h2, h3⟩ := f.ok a' (.examineEdge e) (.treeEdge e :: b) (by simp [h])
    have hu : u ∈ Bfs.discovered tr := by
      have : u ∈ Bfs.examinedVertices tr := by rw [h]; simp [h2]
      rw [f.exam] at this
      rcases List.mem_append.mp this with h | h
      · exact f.src.subset (List.mem_reverse.mp h)
      · exact List.mem_of_mem_drop h
    obtain ⟨s, hs, hr⟩ := (f.reach u).mp hu
    have : g.target e ∈ Bfs.discovered tr := (f.reach _).mpr ⟨s, hs, hr.step h3⟩
    rw [h] at this
    simp at this h1
    tauto

/-- **C48** for `breadth_first_search(s, g)` with a visitor: all the vertices are initialized first; then the vertices discovered are exactly those reachable
from `s`, once each. -/
theorem C48_single (s : V) (c0 : Dict V Color) (hc0 : ∀ v ∉ g.vertices, colorOf c0 v = .white) (U : List V)
    (hU : ∀ v, Reach (g.through p) s v → v ∈ U) :
    ∃ tr c, Returns (bfs g s p (some recorder) c0 []) (.ok (c, g.vertices.map .initializeVertex ++ tr)) ∧
      (∀ v, v ∈ Bfs.discovered tr ↔ Reach (g.through p) s v) ∧ (Bfs.discovered tr).Nodup ∧
      Bfs.examinedVertices tr = Bfs.discovered tr ∧ Bfs.finished tr = Bfs.discovered tr ∧
      Bfs.examined tr = (Bfs.discovered tr).flatMap (g.through p).outEdges ∧
      (∀ v, colorOf c v = if v ∈ Bfs.discovered tr then .black else .white) := by
  have hwhite : ∀ v, colorOf (g.vertices.foldl (fun c u => c.set u .white) c0) v = .white := by
    have key : ∀ (l : List V) c v, (v ∉ l → colorOf c v = .white) → colorOf (l.foldl (fun c u => c.set u .white) c) v = .white := by
      intro l
      induction l with
      | nil => intro c v h; exact h (by simp)
      | cons a l ih =>
        intro c v h
        rw [List.foldl_cons]
        apply ih
        intro hv
        rw [Bfs.colorOf_set']
        split
        · rfl
        · rename_i hne; exact h (by simp [hv, Ne.symm hne])
    exact fun v => key _ _ _ (hc0 v)
  obtain ⟨tr, c, f, ⟨t, ht⟩, hr⟩ := Bfs.facts (us := [s]) hwhite (by simp) (fun x hx v h => hU v (by simp at hx; exact hx ▸ h))
  have hex : Bfs.examinedVertices tr = Bfs.discovered tr := by
    rw [f.exam, ht]; simp
  refine ⟨tr, c, ?_, ?_, f.nodup, hex, by rw [f.fin, hex], by rw [f.edges, hex]; rfl, f.color⟩
  · obtain ⟨N, hN⟩ := hr recorder (g.vertices.map .initializeVertex)
    refine ⟨N, fun fuel hf => ?_⟩
    have := hN fuel hf
    unfold bfs
    simp only [emit_recorder, List.nil_append]
    rw [this]
    unfold Bfs.outcome
    rw [emit_recorder]
  · intro v
    rw [f.reach]
    exact ⟨fun ⟨x, hx, h⟩ => by simp at hx; exact hx ▸ h, fun h => ⟨s, by simp, h⟩⟩

/-- **C48** for any visitor: it receives the calls received by a recorder, and the search raises only what the visitor raises. -/
theorem C48_any_visitor {σ : Type} (vis : Visitor (BfsEvent V E) σ) (st : σ) (us : List V) (hus : us.Nodup) (U : List V)
    (hU : ∀ s ∈ us, ∀ v, Reach (g.through p) s v → v ∈ U) :
    ∃ tr c, Returns (bfsGraph g us p recorder [] []) (.ok (c, tr)) ∧
      (∀ st', emit vis tr st = .ok st' → Returns (bfsGraph g us p vis [] st) (.ok (c, st'))) ∧
      (∀ e, emit vis tr st = .error e → Returns (bfsGraph g us p vis [] st) (.error e)) := by
  obtain ⟨tr, c, f, _, hr⟩ := Bfs.facts (c := []) (fun _ => rfl) hus hU
  refine ⟨tr, c, ?_, fun st' h => ?_, fun e h => ?_⟩
  · have := hr recorder []
    unfold Bfs.outcome at this
    rwa [emit_recorder] at this
  · have := hr vis st
    unfold Bfs.outcome at this
    rwa [h] at this
  · have := hr vis st
    unfold Bfs.outcome at this
    rwa [h] at this

/-- **C49**: vertices are discovered by non-decreasing number of hops from the sources, and the tree edges lead to each discovered vertex by a path with the fewest
hops. -/
theorem C49_distance (us : List V) (hus : us.Nodup) {c : Dict V Color} {tr : List (BfsEvent V E)} (U : List V)
    (hU : ∀ s ∈ us, ∀ v, Reach (g.through p) s v → v ∈ U) (hr : Returns (bfsGraph g us p recorder [] []) (.ok (c, tr))) :
    (Bfs.discovered tr).Pairwise (fun u v => ∀ d d', HopDist (g.through p) us u d → HopDist (g.through p) us v d' → d ≤ d') ∧
    (∀ v ∈ Bfs.discovered tr, ∃ s ∈ us, ∃ es, IsPath (g.through p) s es v ∧ (∀ e ∈ es, .treeEdge e ∈ tr) ∧ HopDist (g.through p) us v es.length) := by
  obtain ⟨tr', c', f, _, hr'⟩ := Bfs.facts (c := []) (fun _ => rfl) hus hU
  have h := hr' recorder []
  unfold Bfs.outcome at h
  rw [emit_recorder] at h
  have := returns_unique hr h
  simp only [List.nil_append, Except.ok.injEq, Prod.mk.injEq] at this
  obtain ⟨rfl, rfl⟩ := this
  obtain ⟨dep, h1, h2, h3⟩ := f.dist
  have uniq : ∀ v d d', HopDist (g.through p) us v d → HopDist (g.through p) us v d' → d = d' := by
    rintro v d d' ⟨⟨s, hs, es, hp, rfl⟩, hm⟩ ⟨⟨s', hs', es', hp', rfl⟩, hm'⟩
    exact Nat.le_antisymm (hm _ hs' _ hp') (hm' _ hs _ hp)
  refine ⟨h2.imp_of_mem (fun {a b} ha hb hab d d' hd hd' => ?_), fun v hv => ?_⟩
  · rw [uniq a d _ hd (h1 a ha), uniq b d' _ hd' (h1 b hb)]; exact hab
  · obtain ⟨s, hs, es, hp, hl, ht⟩ := h3 v hv
    exact ⟨s, hs, es, hp, ht, hl ▸ h1 v hv⟩

/-- The property C50 as stated: the default visitor is usable. -/
def C50_statement : Prop :=
  ∀ (g : GraphI Nat (EdgeDesc Nat)) (s : Nat), s ∈ g.vertices → (∃ U : List Nat, ∀ v, Reach g s v → v ∈ U) →
    ∃ c, Returns (bfs g s (fun _ => true) (none : Option (Visitor (BfsEvent Nat (EdgeDesc Nat)) Unit)) [] ()) (.ok (c, ()))

/-- **C50** is false: with the default `vis=None`, `breadth_first_search` raises `AttributeError`. -/
theorem C50_default_visitor_counterexample : ¬ C50_statement := by
  intro h
  have hreach : ∀ v, Reach triangle 0 v → v ∈ triangle.vertices := fun v hr =>
    hr.closed (P := fun x => x ∈ triangle.vertices) (fun u hu e he => triangle_closed u hu e he) (by decide)
  obtain ⟨c, N, hN⟩ := h triangle 0 (by decide) ⟨_, hreach⟩
  have := hN N (Nat.le_refl _)
  simp [bfs, triangle, Graph.toI, Graph.vertices, Dict.keys] at this

/-- **C50**, what happens: it raises `AttributeError` exactly when the graph has a vertex. -/
theorem C50_default_visitor_partial {σ : Type} (s : V) (c : Dict V Color) (st : σ) (hv : g.vertices ≠ []) :
    Returns (bfs g s p none c st) (.error .attributeError) := by
  refine ⟨0, fun fuel _ => ?_⟩
  unfold bfs
  cases h : g.vertices with
  | nil => exact absurd h hv
  | cons a l => rfl

/-! ## Non-vacuity -/

example : ∀ s ∈ [0], ∀ v, Reach (triangle.through (fun _ => true)) s v → v ∈ triangle.vertices := by
  intro s hs v h
  simp at hs; subst hs
  refine h.closed (P := fun x => x ∈ triangle.vertices) (fun u hu e he => ?_) (by decide)
  exact triangle_closed u hu e (List.mem_filter.mp he).1

example : (match bfsGraph triangle [0] (fun _ => true) recorder [] [] 20 with
    | some (.ok (_, tr)) => Bfs.discovered tr == [0, 1, 2] && Bfs.classified tr == [⟨0, 1, 0⟩, ⟨0, 2, 0⟩, ⟨1, 2, 0⟩]
    | _ => false) = true := by decide

end PyBGL
