import Verif.Props.C09_C10_Reverse_GraphView
import Verif.Props.C48_C50_Bfs
import Verif.Props.C55_StrongComponents
import Verif.Props.C60_C64_Dijkstra
import Verif.Props.C96_Undirected
import Mathlib.Data.List.FinRange

/-!
# C121: the algorithms on a `GraphView` and after `reverse_graph`
-/

namespace PyBGL
open Dijkstra
variable {V E : Type} [DecidableEq V]

/-- Specification: `p` is a path of the graph made of relevant edges between relevant vertices. -/
def SeenPath (g : GraphI V E) (vrel : V → Bool) (erel : E → Bool) (u : V) (p : List E) (v : V) : Prop :=
  IsPath g u p v ∧ ∀ e ∈ p, erel e = true ∧ vrel (g.source e) = true ∧ vrel (g.target e) = true

namespace GraphView

omit [DecidableEq V] in
theorem isPath_iff (gv : GraphView V E) (u v : V) (p : List E) :
    IsPath gv.toI u p v ↔ SeenPath gv.g gv.vrelevant gv.erelevant u p v := by
  induction p generalizing u with
  | nil =>
    constructor
    · intro h; cases h; exact ⟨.nil _, by simp⟩
    · rintro ⟨h, _⟩; cases h; exact .nil _
  | cons e p ih =>
    constructor
    · intro h
      cases h with
      | cons he h =>
        obtain ⟨h1, h2⟩ := (ih _).1 h
        have he := List.mem_filter.1 (show e ∈ (gv.g.outEdges u).filter gv.shows from he)
        refine ⟨.cons he.1 h1, ?_⟩
        intro x hx
        rcases List.mem_cons.1 hx with rfl | hx
        · simpa [shows, and_assoc] using he.2
        · exact h2 x hx
    · rintro ⟨h, hr⟩
      cases h with
      | cons he h =>
        refine .cons (List.mem_filter.2 ⟨he, ?_⟩) ((ih _).2 ⟨h, fun x hx => hr x (List.mem_cons_of_mem _ hx)⟩)
        simpa [shows, and_assoc] using hr e (by simp)

omit [DecidableEq V] in
theorem closed (gv : GraphView V E) (h : gv.g.Closed) : gv.toI.Closed := by
  intro u hu e he
  obtain ⟨h1, h2⟩ := List.mem_filter.1 he
  simp only [shows, Bool.and_eq_true] at h2
  exact List.mem_filter.2 ⟨h u (List.mem_filter.1 hu).1 e h1, h2.2⟩

omit [DecidableEq V] in
theorem reach_mem (gv : GraphView V E) (h : gv.g.Closed) {s : V} (hs : s ∈ gv.vertices) (v : V)
    (hr : Reach (gv.toI.through (fun _ => true)) s v) : v ∈ gv.vertices := by
  rw [UGraph.through_true] at hr
  exact hr.closed (P := fun x => x ∈ gv.vertices) (fun u hu e he => gv.closed h u hu e he) hs

end GraphView

/-- **C121** (`breadth_first_search` on a view): the vertices discovered, each once, are those that a path of relevant edges and
vertices reaches. -/
theorem C121_view_bfs (gv : GraphView V E) (h : gv.g.Closed) {s : V} (hs : s ∈ gv.vertices) :
    ∃ tr c, Returns (bfs gv.toI s (fun _ => true) (some recorder) [] []) (.ok (c, gv.vertices.map .initializeVertex ++ tr)) ∧
      (∀ v, v ∈ Bfs.discovered tr ↔ ∃ p, SeenPath gv.g gv.vrelevant gv.erelevant s p v) ∧ (Bfs.discovered tr).Nodup ∧
      Bfs.examined tr = (Bfs.discovered tr).flatMap gv.outEdges := by
  obtain ⟨tr, c, h1, h2, h3, _, _, h6, _⟩ := C48_single (g := gv.toI) (p := fun _ => true) s [] (fun _ _ => rfl) gv.vertices
    (gv.reach_mem h hs)
  refine ⟨tr, c, h1, fun v => ?_, h3, ?_⟩
  · rw [h2, UGraph.through_true]
    exact exists_congr fun p => gv.isPath_iff s v p
  · rw [h6, UGraph.through_true]; rfl

/-- **C121** (`depth_first_search` on a view). -/
theorem C121_view_dfs (gv : GraphView V E) (h : gv.g.Closed) {s : V} (hs : s ∈ gv.vertices) :
    ∃ c tr, Returns (dfs gv.toI (fun _ => true) recorder s [] []) (.ok (c, tr)) ∧ (discovered tr).Nodup ∧
      (finished tr).Perm (discovered tr) ∧
      (∀ v, v ∈ discovered tr ↔ ∃ p, SeenPath gv.g gv.vrelevant gv.erelevant s p v) ∧
      (examined tr).Perm ((discovered tr).flatMap gv.outEdges) := by
  obtain ⟨c, tr, h1, h2, h3, h4, h5, _⟩ := C51_visits (g := gv.toI) (p := fun _ => true) s gv.vertices (gv.reach_mem h hs)
  refine ⟨c, tr, h1, h2, h3, fun v => ?_, ?_⟩
  · rw [h4, UGraph.through_true]
    exact exists_congr fun p => gv.isPath_iff s v p
  · rw [UGraph.through_true] at h5; exact h5

/-- **C121** (`topological_sort` on a view): what matters is whether the relevant part of the graph has a cycle, even if the whole
graph has one. -/
theorem C121_view_topological_sort (gv : GraphView V E) (h : gv.g.Closed) (hn : gv.g.vertices.Nodup) (stack : Option (List V)) :
    ((∃ u ∈ gv.vertices, ∃ p, p ≠ [] ∧ SeenPath gv.g gv.vrelevant gv.erelevant u p u) →
      Returns (topologicalSort gv.toI stack) (.error .runtimeError)) ∧
    ((¬ ∃ u ∈ gv.vertices, ∃ p, p ≠ [] ∧ SeenPath gv.g gv.vrelevant gv.erelevant u p u) →
      ∃ l, Returns (topologicalSort gv.toI stack) (.ok (l ++ stack.getD [])) ∧ l.Perm gv.vertices ∧
        ∀ u ∈ gv.vertices, ∀ e ∈ gv.outEdges u, ∃ a b d, l = a ++ u :: b ++ gv.g.target e :: d) := by
  have hcy : HasCycle gv.toI ↔ ∃ u ∈ gv.vertices, ∃ p, p ≠ [] ∧ SeenPath gv.g gv.vrelevant gv.erelevant u p u :=
    exists_congr fun u => and_congr Iff.rfl (exists_congr fun p => and_congr Iff.rfl (gv.isPath_iff u u p))
  exact ⟨fun hc => C54_cyclic (gv.closed h) (hcy.2 hc) stack,
    fun hc => C54_acyclic (g := gv.toI) (hn.filter _) (gv.closed h) (fun hc' => hc (hcy.1 hc')) stack⟩

/-- **C121** (`strong_components` on a view): the components are those of the relevant part. -/
theorem C121_view_strong_components (gv : GraphView V E) (h : gv.g.Closed) (comp₀ : Dict V (Option Nat)) :
    ∃ total comp, Returns (strongComponents gv.toI comp₀) (.ok (total, comp)) ∧
    ∃ id : V → Nat, (∀ v ∈ gv.vertices, comp.get? v = some (some (id v))) ∧
      (∀ u ∈ gv.vertices, ∀ v ∈ gv.vertices, id u = id v ↔
        (∃ p, SeenPath gv.g gv.vrelevant gv.erelevant u p v) ∧ ∃ p, SeenPath gv.g gv.vrelevant gv.erelevant v p u) ∧
      (∀ v ∈ gv.vertices, id v < total) ∧ (∀ k < total, ∃ v ∈ gv.vertices, id v = k) := by
  obtain ⟨total, comp, h1, id, h2, h3, h4, h5, _⟩ := C55_components (gv.closed h) comp₀
  refine ⟨total, comp, h1, id, h2, fun u hu v hv => ?_, h4, h5⟩
  rw [h3 u hu v hv]
  exact and_congr (exists_congr fun p => gv.isPath_iff u v p) (exists_congr fun p => gv.isPath_iff v u p)

/-- **C121** (`dijkstra_shortest_paths` on a view): the distances are those of the relevant part. -/
theorem C121_view_dijkstra (gv : GraphView V E) (h : gv.g.Closed) {s : V} (hs : s ∈ gv.vertices) [DecidableEq E]
    {weight : E → Int} {dflt : Int} (hW : ∀ u ∈ gv.vertices, ∀ e ∈ gv.outEdges u, 0 ≤ weight e) (dist : Dict V Int)
    (preds : Dict V (List E)) (hp : ∀ v, preds.getD v [] = []) :
    ∃ st, Returns (dijkstra (argsDefault weight dflt) gv.toI s (fun _ => false) dist preds) (.ok (false, st)) ∧
      ∀ v ∈ gv.vertices, IsBest less INFINITY
        (fun d => ∃ p, SeenPath gv.g gv.vrelevant gv.erelevant s p v ∧ (p.map weight).sum = d) (st.dist.getD v dflt) := by
  obtain ⟨st, h1, h2⟩ := C60_distances (g := gv.toI) (dflt := dflt) (gv.closed h) hs hW dist preds hp
  refine ⟨st, h1, fun v hv => ?_⟩
  have := h2 v hv
  simpa only [gv.isPath_iff] using this

/-! ## After `reverse_graph` -/

omit [DecidableEq V] in
theorem reverse_reach (g : GraphI V E) (h : g.Consistent) (u v : V) : Reach (reverseGraph g) u v ↔ Reach g v u := by
  constructor
  · rintro ⟨p, hp⟩; exact ⟨_, (C09_paths g h u v p).1 hp⟩
  · rintro ⟨p, hp⟩; exact ⟨p.reverse, (C09_paths g h u v p.reverse).2 (by rwa [List.reverse_reverse])⟩

/-- Both ends of every edge are vertices. -/
def GraphI.EndsOK (g : GraphI V E) : Prop := ∀ e ∈ g.edges, g.source e ∈ g.vertices ∧ g.target e ∈ g.vertices

omit [DecidableEq V] in
theorem reverse_closed {g : GraphI V E} (h : g.Consistent) (he : g.EndsOK) : (reverseGraph g).Closed ∧ g.Closed :=
  ⟨fun u _ e h' => (he e ((h.inn u e).1 h').1).1, fun u _ e h' => (he e ((h.out u e).1 h').1).2⟩

/-- **C121** (`breadth_first_search` after `reverse_graph`): exactly the vertices from which `s` can be reached are discovered. -/
theorem C121_reverse_bfs {g : GraphI V E} (h : g.Consistent) (he : g.EndsOK) {s : V} (hs : s ∈ g.vertices) :
    ∃ tr c, Returns (bfs (reverseGraph g) s (fun _ => true) (some recorder) [] []) (.ok (c, g.vertices.map .initializeVertex ++ tr)) ∧
      (∀ v, v ∈ Bfs.discovered tr ↔ Reach g v s) ∧ (Bfs.discovered tr).Nodup ∧
      Bfs.examined tr = (Bfs.discovered tr).flatMap g.inEdges := by
  have hc := (reverse_closed h he).1
  obtain ⟨tr, c, h1, h2, h3, _, _, h6, _⟩ := C48_single (g := reverseGraph g) (p := fun _ => true) s [] (fun _ _ => rfl) g.vertices
    (fun v hr => by
      rw [UGraph.through_true] at hr
      exact hr.closed (P := fun x => x ∈ g.vertices) (fun u hu e he => hc u hu e he) hs)
  refine ⟨tr, c, h1, fun v => ?_, h3, ?_⟩
  · rw [h2, UGraph.through_true, reverse_reach g h]
  · rw [h6, UGraph.through_true]; rfl

/-- **C121** (`strong_components` after `reverse_graph`): the components are the same, before and after, up to their numbers. -/
theorem C121_reverse_components {g : GraphI V E} (h : g.Consistent) (he : g.EndsOK) (comp₀ comp₁ : Dict V (Option Nat)) :
    ∃ total comp comp', Returns (strongComponents g comp₀) (.ok (total, comp)) ∧
      Returns (strongComponents (reverseGraph g) comp₁) (.ok (total, comp')) ∧
      ∀ u ∈ g.vertices, ∀ v ∈ g.vertices, comp.get? u = comp.get? v ↔ comp'.get? u = comp'.get? v := by
  obtain ⟨hc', hc⟩ := reverse_closed h he
  obtain ⟨total, comp, h1, id, h2, h3, h4, h5, _⟩ := C55_components hc comp₀
  obtain ⟨total', comp', k1, id', k2, k3, k4, k5, _⟩ := C55_components hc' comp₁
  have hv : (reverseGraph g).vertices = g.vertices := rfl
  rw [hv] at k2 k3 k4 k5
  have key : ∀ u ∈ g.vertices, ∀ v ∈ g.vertices, id u = id v ↔ id' u = id' v := by
    intro u hu v hv
    rw [h3 u hu v hv, k3 u hu v hv, reverse_reach g h, reverse_reach g h]
    exact and_comm
  -- as many numbers on both sides
  have count : ∀ {n m : Nat} {f f' : V → Nat}, (∀ k < n, ∃ v ∈ g.vertices, f v = k) → (∀ v ∈ g.vertices, f' v < m) →
      (∀ u ∈ g.vertices, ∀ v ∈ g.vertices, f' u = f' v → f u = f v) → n ≤ m := by
    intro n m f f' hn hm hf
    have hch : ∀ k : Fin n, ∃ v ∈ g.vertices, f v = k.1 := fun k => hn k.1 k.2
    choose w hw hwk using hch
    have : (List.ofFn (fun k : Fin n => f' (w k))).Subperm (List.range m) := by
      refine List.subperm_of_subset ?_ ?_
      · rw [List.nodup_ofFn]
        intro a b hab
        have := hf _ (hw a) _ (hw b) hab
        rw [hwk, hwk] at this
        exact Fin.ext this
      · intro x hx
        obtain ⟨k, rfl⟩ := (List.mem_ofFn' _ _).1 hx
        exact List.mem_range.2 (hm _ (hw k))
    have := this.length_le
    simpa using this
  have ht : total = total' := Nat.le_antisymm
    (count h5 k4 (fun u hu v hv h => (key u hu v hv).2 h)) (count k5 h4 (fun u hu v hv h => (key u hu v hv).1 h))
  subst ht
  refine ⟨total, comp, comp', h1, k1, fun u hu v hv => ?_⟩
  rw [h2 u hu, h2 v hv, k2 u hu, k2 v hv]
  simpa using key u hu v hv

/-- **C121** (`dijkstra_shortest_paths` after `reverse_graph`): the distances are those towards `s`. -/
theorem C121_reverse_dijkstra {g : GraphI V E} (h : g.Consistent) (he : g.EndsOK) {s : V} (hs : s ∈ g.vertices) [DecidableEq E]
    {weight : E → Int} {dflt : Int} (hW : ∀ e ∈ g.edges, 0 ≤ weight e) (dist : Dict V Int)
    (preds : Dict V (List E)) (hp : ∀ v, preds.getD v [] = []) :
    ∃ st, Returns (dijkstra (argsDefault weight dflt) (reverseGraph g) s (fun _ => false) dist preds) (.ok (false, st)) ∧
      ∀ v ∈ g.vertices, IsBest less INFINITY (fun d => ∃ p, IsPath g v p s ∧ (p.map weight).sum = d) (st.dist.getD v dflt) := by
  obtain ⟨st, h1, h2⟩ := C60_distances (g := reverseGraph g) (weight := weight) (dflt := dflt) (reverse_closed h he).1 hs
    (fun u _ e h' => hW e ((h.inn u e).1 h').1) dist preds hp
  refine ⟨st, h1, fun v hv => ?_⟩
  have := h2 v hv
  have hiff : ∀ d, (∃ p, IsPath (reverseGraph g) s p v ∧ (p.map weight).sum = d) ↔ ∃ p, IsPath g v p s ∧ (p.map weight).sum = d := by
    intro d
    constructor
    · rintro ⟨p, hp, rfl⟩; exact ⟨_, (C09_paths g h s v p).1 hp, by simp⟩
    · rintro ⟨p, hp, rfl⟩; exact ⟨p.reverse, (C09_paths g h s v p.reverse).2 (by rwa [List.reverse_reverse]), by simp⟩
  simpa only [hiff] using this

/-- **C121**: every `IncidenceGraph` obtained by calls to its methods meets the hypotheses. -/
theorem C121_applies {g : IGraph} {l : GLog} (h : History IGraph.exec .empty g l) : g.toI.Consistent ∧ g.toI.EndsOK := by
  obtain ⟨_, _, h3, _, h5, _⟩ := C08_in_edges h
  refine ⟨C09_applies h, fun e he => ?_⟩
  have := (IGraph.history_inv h).src e ((h3 e).1 he)
  exact ⟨this.1, this.2⟩

example : ∃ g l, History IGraph.exec .empty g l ∧ (reverseGraph g.toI).outEdges 1 ≠ [] := by
  refine ⟨_, _, runCalls_history exampleCalls .start rfl, ?_⟩; decide

/-- A cycle `0 → 1 → 0` and an edge `1 → 2`. -/
def cycleGraph : GraphI Nat (Nat × Nat) where
  vertices := [0, 1, 2]
  edges := [(0, 1), (1, 0), (1, 2)]
  outEdges := fun u => [(0, 1), (1, 0), (1, 2)].filter (fun e => e.1 == u)
  inEdges := fun u => [(0, 1), (1, 0), (1, 2)].filter (fun e => e.2 == u)
  source := Prod.fst
  target := Prod.snd

/-- The hypotheses are met by a view of a cyclic graph, whose relevant part is acyclic and not empty. -/
example : let gv : GraphView Nat (Nat × Nat) := ⟨cycleGraph, fun _ => true, fun e => e != (1, 0)⟩
    gv.g.Closed ∧ gv.g.vertices.Nodup ∧ 0 ∈ gv.vertices ∧ HasCycle gv.g ∧ gv.outEdges 1 = [(1, 2)] ∧
      SeenPath gv.g gv.vrelevant gv.erelevant 0 [(0, 1), (1, 2)] 2 := by
  refine ⟨?_, by decide, by decide, ⟨0, by decide, [(0, 1), (1, 0)], by decide, ?_⟩, by decide, ?_, by decide⟩
  · intro u hu
    simp only [cycleGraph, List.mem_cons, List.not_mem_nil, or_false] at hu
    rcases hu with rfl | rfl | rfl <;> decide
  · exact .cons (by decide) (.cons (by decide) (.nil _))
  · exact .cons (by decide) (.cons (by decide) (.nil _))

end PyBGL
