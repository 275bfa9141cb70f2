import Verif.Model.Algebra
import Verif.Proofs.DijkstraDag

/-!
# C60-C64: Dijkstra
-/

namespace PyBGL
open Dijkstra
variable {V E D : Type} [DecidableEq V] [DecidableEq E] [DecidableEq D]

/-- The keys of the heap when `compare` is given: `Comparable(pmap_vdist[u], compare)`, dijkstra_shortest_paths.py:271-275. -/
def argsWith (weight : E → D) (compare : D → D → Bool) (combine : D → D → D) (zero infty dflt : D) : DijkstraArgs E D :=
  ⟨weight, compare, combine, zero, infty, KeyOrd.comparable compare, dflt⟩

/-- The defaults of `dijkstra_shortest_paths`: `compare=None`, in which case the keys of the heap are the distances themselves
(dijkstra_shortest_paths.py:264-270), `combine=ClosedPlus()`, `zero=0`, `infty=INFINITY`. -/
def argsDefault (weight : E → Int) (dflt : Int) : DijkstraArgs E Int :=
  ⟨weight, less, closedPlus, 0, INFINITY, ⟨fun x y => decide (x < y), fun x y => decide (x = y)⟩, dflt⟩

/-- The defaults of `dijkstra_shortest_path`: `compare=Less()`. -/
def argsLess (weight : E → Int) (dflt : Int) : DijkstraArgs E Int := argsWith weight less closedPlus 0 INFINITY dflt

/-! ## The hypotheses -/

theorem SelectiveAlgebra.imp {compare : D → D → Bool} {combine : D → D → D} {zero infty : D} {W W' : D → Prop}
    (h : SelectiveAlgebra compare combine zero infty W) (hW : ∀ w, W' w → W w) : SelectiveAlgebra compare combine zero infty W' :=
  ⟨h.irrefl, h.trans, h.total, h.zero_lt, fun x w hw => h.grow x w (hW w hw), fun x w hw => h.back x w (hW w hw),
    fun x y w hw => h.mono x y w (hW w hw)⟩

theorem compat_comparable {compare : D → D → Bool} {combine : D → D → D} {zero infty : D} {W : D → Prop}
    (h : SelectiveAlgebra compare combine zero infty W) : Heap.Compat (KeyOrd.comparable compare) (fun x y => compare y x = false) := by
  have hasym : ∀ x y, compare x y = true → compare y x = false := by
    intro x y h1
    cases h2 : compare y x with
    | false => rfl
    | true => have := h.trans _ _ _ h1 h2; rw [h.irrefl] at this; cases this
  refine ⟨h.irrefl, ?_, ?_, ?_, ?_⟩
  · intro x y z h1 h2
    cases h3 : compare z x with
    | false => rfl
    | true =>
      exfalso
      rcases h.total x y with h4 | h4 | h4
      · have := h.trans _ _ _ h3 h4; rw [h2] at this; cases this
      · subst h4; rw [h2] at h3; cases h3
      · rw [h1] at h4; cases h4
  · intro x y hxy
    simpa [KeyOrd.comparable] using hxy
  · intro x y hxy
    refine hasym _ _ ?_
    have : compare y x = true := by simpa [KeyOrd.comparable] using hxy
    exact this
  · intro x y hxy
    exfalso
    simp only [KeyOrd.comparable, Bool.and_eq_true] at hxy
    have := hasym _ _ hxy.1
    rw [hxy.2] at this; cases this

/-- `Less()` and `ClosedPlus()` with non-negative weights satisfy the hypotheses. -/
theorem plusAlgebra : SelectiveAlgebra less (closedPlus INFINITY) 0 INFINITY (fun w => 0 ≤ w) := by
  refine ⟨?_, ?_, ?_, by decide, ?_, ?_, ?_⟩
  · intro x; simp [less]
  · intro x y z h1 h2; simp [less] at *; omega
  · intro x y; simp only [less, decide_eq_true_eq]; omega
  · intro x w hw h1
    simp only [less, closedPlus, closedOperator, decide_eq_true_eq, decide_eq_false_iff_not] at *
    split <;> omega
  · intro x w hw h1
    simp only [less, closedPlus, closedOperator, decide_eq_true_eq, decide_eq_false_iff_not] at *
    split at h1 <;> omega
  · intro x y w hw h1 h2
    simp only [less, closedPlus, closedOperator, decide_eq_true_eq, decide_eq_false_iff_not] at *
    split at h2
    · omega
    · split <;> omega

/-- `GreaterThan()` and `ClosedMin()` (widest paths) with non-negative weights satisfy the hypotheses. -/
theorem widestAlgebra (zero : Int) (hz : 0 < zero) : SelectiveAlgebra greaterThan (closedMin 0) zero 0 (fun w => 0 ≤ w) := by
  refine ⟨?_, ?_, ?_, by simpa [greaterThan] using hz, ?_, ?_, ?_⟩
  · intro x; simp [greaterThan]
  · intro x y z h1 h2; simp [greaterThan] at *; omega
  · intro x y; simp only [greaterThan, decide_eq_true_eq]; omega
  · intro x w hw h1
    simp only [greaterThan, closedMin, closedOperator, gt_iff_lt, decide_eq_true_eq, decide_eq_false_iff_not] at *
    split <;> omega
  · intro x w hw h1
    simp only [greaterThan, closedMin, closedOperator, gt_iff_lt, decide_eq_true_eq, decide_eq_false_iff_not] at *
    split at h1 <;> omega
  · intro x y w hw h1 h2
    simp only [greaterThan, closedMin, closedOperator, gt_iff_lt, decide_eq_true_eq, decide_eq_false_iff_not] at *
    split at h2
    · omega
    · split <;> omega

namespace Dijkstra

theorem hyp_with {g : GraphI V E} {s : V} {weight : E → D} {compare : D → D → Bool} {combine : D → D → D} {zero infty dflt : D} {W : D → Prop}
    (h : SelectiveAlgebra compare combine zero infty W) (hg : g.Closed) (hs : s ∈ g.vertices) (hW : ∀ u ∈ g.vertices, ∀ e ∈ g.outEdges u, W (weight e)) :
    Hyp (argsWith weight compare combine zero infty dflt) g s :=
  ⟨h.imp (by rintro w ⟨u, hu, e, he, rfl⟩; exact hW u hu e he), compat_comparable h, hg, hs⟩

theorem hyp_default {g : GraphI V E} {s : V} {weight : E → Int} {dflt : Int} (hg : g.Closed) (hs : s ∈ g.vertices)
    (hW : ∀ u ∈ g.vertices, ∀ e ∈ g.outEdges u, 0 ≤ weight e) : Hyp (argsDefault weight dflt) g s := by
  refine ⟨plusAlgebra.imp (by rintro w ⟨u, hu, e, he, rfl⟩; exact hW u hu e he), ?_, hg, hs⟩
  refine ⟨?_, ?_, ?_, ?_, ?_⟩ <;> simp [Le, argsDefault, less] <;> intros <;> omega

/-- Below `INFINITY`, weights add up. -/
theorem pathWeight_plus (weight : E → Int) (p : List E) (h : ∀ e ∈ p, 0 ≤ weight e) :
    0 ≤ (p.map weight).sum ∧ (pathWeight (closedPlus INFINITY) 0 weight p < INFINITY ↔ (p.map weight).sum < INFINITY) ∧
    ((p.map weight).sum < INFINITY → pathWeight (closedPlus INFINITY) 0 weight p = (p.map weight).sum) := by
  induction p using List.reverseRecOn with
  | nil => simp [pathWeight]
  | append_singleton p e ih =>
    obtain ⟨h1, h2, h3⟩ := ih fun e' he' => h e' (by simp [he'])
    have he := h e (by simp)
    have hsum : ((p ++ [e]).map weight).sum = (p.map weight).sum + weight e := by simp
    have hpw : pathWeight (closedPlus INFINITY) 0 weight (p ++ [e]) = closedPlus INFINITY (pathWeight (closedPlus INFINITY) 0 weight p) (weight e) := by
      unfold pathWeight; rw [List.foldl_append]; rfl
    rw [hsum, hpw]
    generalize pathWeight (closedPlus INFINITY) 0 weight p = x at *
    generalize (p.map weight).sum = y at *
    unfold closedPlus closedOperator
    dsimp only
    refine ⟨by omega, ?_, ?_⟩
    · split
      · rename_i hc
        constructor
        · omega
        · intro hlt
          have := h3 (by omega)
          omega
      · constructor
        · intro hlt
          have := h3 (h2.mp (by omega))
          omega
        · intro hlt
          have := h3 (by omega)
          omega
    · intro hlt
      have := h3 (by omega)
      rw [if_neg (by omega)]; omega

theorem path_edges {g : GraphI V E} (hg : g.Closed) {P : E → Prop} (hW : ∀ u ∈ g.vertices, ∀ e ∈ g.outEdges u, P e) {u v : V} {p : List E} (hp : IsPath g u p v)
    (hu : u ∈ g.vertices) : ∀ e ∈ p, P e := by
  induction hp with
  | nil => intro e he; cases he
  | @cons u v e p he hp ih =>
    intro e' he'
    rcases List.mem_cons.mp he' with rfl | he'
    · exact hW u hu _ he
    · exact ih (hg u hu _ he) e' he'

/-- Best combined weight and shortest sum are the same thing. -/
theorem best_plus {g : GraphI V E} {s v : V} {weight : E → Int} (hg : g.Closed) (hs : s ∈ g.vertices)
    (hW : ∀ u ∈ g.vertices, ∀ e ∈ g.outEdges u, 0 ≤ weight e) {d : Int}
    (h : IsBest less INFINITY (fun d => ∃ p, IsPath g s p v ∧ pathWeight (closedPlus INFINITY) 0 weight p = d) d) :
    IsBest less INFINITY (fun d => ∃ p, IsPath g s p v ∧ (p.map weight).sum = d) d := by
  rcases h with ⟨⟨p, h1, h2⟩, h3, h4⟩ | ⟨h1, h2⟩
  · obtain ⟨k1, k2, k3⟩ := pathWeight_plus weight p (path_edges hg hW h1 hs)
    have hlt : d < INFINITY := by simpa [less] using h3
    have hp := k3 (k2.mp (by omega))
    refine .inl ⟨⟨p, h1, by omega⟩, h3, ?_⟩
    rintro w ⟨q, hq, rfl⟩
    obtain ⟨j1, j2, j3⟩ := pathWeight_plus weight q (path_edges hg hW hq hs)
    have := h4 _ ⟨q, hq, rfl⟩
    simp [less] at this ⊢
    by_cases hc : (q.map weight).sum < INFINITY
    · have := j3 hc; omega
    · omega
  · refine .inr ⟨h1, ?_⟩
    rintro w ⟨q, hq, rfl⟩
    obtain ⟨j1, j2, j3⟩ := pathWeight_plus weight q (path_edges hg hW hq hs)
    have := h2 _ ⟨q, hq, rfl⟩
    simp [less] at this ⊢
    by_cases hc : (q.map weight).sum < INFINITY
    · have := j2.mpr hc; omega
    · omega

end Dijkstra

/-! ## C64, C60 -/

/-- **C64**: if `compare` is a strict total order and `combine` is monotone and never improves a distance, `dijkstra_shortest_paths` ends without error and
`pmap_vdist[v]` is the best combined weight over all the paths from `s` to `v` (`infty` if no path is better than `infty`), whatever the property maps
contained. -/
theorem C64_algebra {W : D → Prop} {g : GraphI V E} {s : V} {weight : E → D} {compare : D → D → Bool} {combine : D → D → D} {zero infty dflt : D}
    (h : SelectiveAlgebra compare combine zero infty W) (hg : g.Closed) (hs : s ∈ g.vertices) (hW : ∀ u ∈ g.vertices, ∀ e ∈ g.outEdges u, W (weight e))
    (dist : Dict V D) (preds : Dict V (List E)) (hp : ∀ v, preds.getD v [] = []) :
    ∃ st, Returns (dijkstra (argsWith weight compare combine zero infty dflt) g s (fun _ => false) dist preds) (.ok (false, st)) ∧
      ∀ v ∈ g.vertices, IsBest compare infty (fun d => ∃ p, IsPath g s p v ∧ pathWeight combine zero weight p = d) (st.dist.getD v dflt) := by
  have hy := hyp_with (dflt := dflt) h hg hs hW
  obtain ⟨r, st, bs, h1, _, h3⟩ := run hy (fun _ => false) dist hp
  rcases h3 with ⟨rfl, i, hno⟩ | ⟨_, u, hu, _⟩
  · exact ⟨st, h1, fun v hv => i.best hy hno hv⟩
  · cases hu

/-- **C64** (widest paths): with `GreaterThan()`, `ClosedMin()`, `zero` the largest capacity and `infty = 0`, the result is the largest capacity of a path, the
capacity of a path being the least weight of its arcs. -/
theorem C64_widest {g : GraphI V E} {s : V} {weight : E → Int} {zero dflt : Int} (hz : 0 < zero) (hg : g.Closed) (hs : s ∈ g.vertices)
    (hW : ∀ u ∈ g.vertices, ∀ e ∈ g.outEdges u, 0 ≤ weight e) (dist : Dict V Int) (preds : Dict V (List E)) (hp : ∀ v, preds.getD v [] = []) :
    ∃ st, Returns (dijkstra (argsWith weight greaterThan closedMin zero 0 dflt) g s (fun _ => false) dist preds) (.ok (false, st)) ∧
      ∀ v ∈ g.vertices, IsBest greaterThan 0 (fun d => ∃ p, IsPath g s p v ∧ (p.map weight).foldl min zero = d) (st.dist.getD v dflt) := by
  obtain ⟨st, h1, h2⟩ := C64_algebra (dflt := dflt) (widestAlgebra zero hz) hg hs hW dist preds hp
  refine ⟨st, h1, fun v hv => ?_⟩
  have key : ∀ p : List E, (∀ e ∈ p, 0 ≤ weight e) → ∀ z : Int, 0 ≤ z → pathWeight (closedMin 0) z weight p = (p.map weight).foldl min z := by
    intro p
    induction p with
    | nil => intro _ z _; rfl
    | cons e p ih =>
      intro hw z hz
      have he := hw e (by simp)
      have : closedMin 0 z (weight e) = min z (weight e) := by
        unfold closedMin closedOperator; split <;> omega
      have h3 := ih (fun e' he' => hw e' (by simp [he'])) (min z (weight e)) (by omega)
      unfold pathWeight at h3 ⊢
      rw [List.foldl_cons, this, h3]; rfl
  have heq : (fun d => ∃ p, IsPath g s p v ∧ pathWeight (closedMin 0) zero weight p = d) =
      (fun d => ∃ p, IsPath g s p v ∧ (p.map weight).foldl min zero = d) := by
    funext d
    refine propext (exists_congr fun p => and_congr_right fun hpp => ?_)
    rw [key p (path_edges hg hW hpp hs) zero (by omega)]
  have := h2 v hv
  rw [heq] at this
  exact this

/-- **C60**: with the default arguments and non-negative weights, `dijkstra_shortest_paths` ends without error and `pmap_vdist[v]` is the least total weight of
a path from `s` to `v`, and `INFINITY` iff no path from `s` to `v` has a total weight below `INFINITY`. -/
theorem C60_distances {g : GraphI V E} {s : V} {weight : E → Int} {dflt : Int} (hg : g.Closed) (hs : s ∈ g.vertices)
    (hW : ∀ u ∈ g.vertices, ∀ e ∈ g.outEdges u, 0 ≤ weight e) (dist : Dict V Int) (preds : Dict V (List E)) (hp : ∀ v, preds.getD v [] = []) :
    ∃ st, Returns (dijkstra (argsDefault weight dflt) g s (fun _ => false) dist preds) (.ok (false, st)) ∧
      ∀ v ∈ g.vertices, IsBest less INFINITY (fun d => ∃ p, IsPath g s p v ∧ (p.map weight).sum = d) (st.dist.getD v dflt) := by
  have hy := hyp_default (dflt := dflt) hg hs hW
  obtain ⟨r, st, bs, h1, _, h3⟩ := run hy (fun _ => false) dist hp
  rcases h3 with ⟨rfl, i, hno⟩ | ⟨_, u, hu, _⟩
  · exact ⟨st, h1, fun v hv => best_plus hg hs hW (i.best hy hno hv)⟩
  · cases hu

/-- **C60** (`compare=Less()`): the same holds if the order is passed explicitly. -/
theorem C60_distances_less {g : GraphI V E} {s : V} {weight : E → Int} {dflt : Int} (hg : g.Closed) (hs : s ∈ g.vertices)
    (hW : ∀ u ∈ g.vertices, ∀ e ∈ g.outEdges u, 0 ≤ weight e) (dist : Dict V Int) (preds : Dict V (List E)) (hp : ∀ v, preds.getD v [] = []) :
    ∃ st, Returns (dijkstra (argsLess weight dflt) g s (fun _ => false) dist preds) (.ok (false, st)) ∧
      ∀ v ∈ g.vertices, IsBest less INFINITY (fun d => ∃ p, IsPath g s p v ∧ (p.map weight).sum = d) (st.dist.getD v dflt) := by
  obtain ⟨st, h1, h2⟩ := C64_algebra (dflt := dflt) plusAlgebra hg hs hW dist preds hp
  exact ⟨st, h1, fun v hv => best_plus hg hs hW (h2 v hv)⟩

/-- **C60** (visitor): every vertex that some path reaches below `INFINITY` is examined once and finished once, by non-decreasing distances; all its out-edges are
examined once, in the order of `out_edges`; it is discovered once, except `s`. -/
theorem C60_visits {g : GraphI V E} {s : V} {weight : E → Int} {dflt : Int} (hg : g.Closed) (hs : s ∈ g.vertices)
    (hW : ∀ u ∈ g.vertices, ∀ e ∈ g.outEdges u, 0 ≤ weight e) (dist : Dict V Int) (preds : Dict V (List E)) (hp : ∀ v, preds.getD v [] = []) :
    ∃ st bs, Returns (dijkstra (argsDefault weight dflt) g s (fun _ => false) dist preds) (.ok (false, st)) ∧
      bs.Nodup ∧ (∀ v, v ∈ bs ↔ v ∈ g.vertices ∧ st.dist.getD v dflt < INFINITY) ∧
      bs.Pairwise (fun u v => st.dist.getD u dflt ≤ st.dist.getD v dflt) ∧
      examined st.trace = bs ∧ finished st.trace = bs ∧ examinedEdges st.trace = bs.flatMap g.outEdges ∧
      (discovered st.trace).Nodup ∧ (∀ v, v ∈ discovered st.trace ↔ v ∈ bs ∧ v ≠ s) := by
  have hy := hyp_default (dflt := dflt) hg hs hW
  obtain ⟨r, st, bs, h1, _, h3⟩ := run hy (fun _ => false) dist hp
  rcases h3 with ⟨rfl, i, hno⟩ | ⟨_, u, hu, _⟩
  · refine ⟨st, bs, h1, i.nd, ?_, ?_, by simpa using i.trEx, i.trFin, by simpa using i.trEdges, i.trDisc.1, ?_⟩
    · intro v
      constructor
      · intro hv
        refine ⟨i.sub v hv, ?_⟩
        have := (i.black_iff hy hno (i.sub v hv)).mp hv
        simpa [argsDefault, less, DijkstraState.distOf] using this
      · rintro ⟨hv, hlt⟩
        refine (i.black_iff hy hno hv).mpr ?_
        simpa [argsDefault, less, DijkstraState.distOf] using hlt
    · refine i.order.imp ?_
      intro x y hxy
      simpa [Le, argsDefault, less, DijkstraState.distOf] using hxy
    · intro v
      rw [i.trDisc.2]
      simp [hno]
  · cases hu

/-! ## C61 -/

/-- **C61**, for every algebra: after a complete run, `pmap_vpreds[v]` is exactly the set of the last arcs of the best paths from `s` to `v`. -/
theorem C61_predecessors {W : D → Prop} {g : GraphI V E} {s : V} {weight : E → D} {compare : D → D → Bool} {combine : D → D → D} {zero infty dflt : D}
    (h : SelectiveAlgebra compare combine zero infty W) (hg : g.Closed) (hs : s ∈ g.vertices) (hW : ∀ u ∈ g.vertices, ∀ e ∈ g.outEdges u, W (weight e))
    (dist : Dict V D) (preds : Dict V (List E)) (hp : ∀ v, preds.getD v [] = []) :
    ∃ st, Returns (dijkstra (argsWith weight compare combine zero infty dflt) g s (fun _ => false) dist preds) (.ok (false, st)) ∧
      ∀ v, compare (st.dist.getD v dflt) infty = true → ∀ e, e ∈ st.preds.getD v [] ↔
        ∃ p, IsPath g s (p ++ [e]) v ∧ pathWeight combine zero weight (p ++ [e]) = st.dist.getD v dflt := by
  have hy := hyp_with (dflt := dflt) h hg hs hW
  obtain ⟨r, st, bs, h1, _, h3⟩ := run hy (fun _ => false) dist hp
  rcases h3 with ⟨rfl, i, hno⟩ | ⟨_, u, hu, _⟩
  · exact ⟨st, h1, fun v hv e => i.optimal hy hno hv e⟩
  · cases hu

/-- **C61**, with the default arguments: for every vertex whose distance is below `INFINITY`, `pmap_vpreds[v]` is exactly the set of the last arcs of the shortest
paths from `s` to `v`. -/
theorem C61_shortest {g : GraphI V E} {s : V} {weight : E → Int} {dflt : Int} (hg : g.Closed) (hs : s ∈ g.vertices)
    (hW : ∀ u ∈ g.vertices, ∀ e ∈ g.outEdges u, 0 ≤ weight e) (dist : Dict V Int) (preds : Dict V (List E)) (hp : ∀ v, preds.getD v [] = []) :
    ∃ st, Returns (dijkstra (argsDefault weight dflt) g s (fun _ => false) dist preds) (.ok (false, st)) ∧
      ∀ v, st.dist.getD v dflt < INFINITY → ∀ e, e ∈ st.preds.getD v [] ↔
        ∃ p, IsPath g s (p ++ [e]) v ∧ ((p ++ [e]).map weight).sum = st.dist.getD v dflt := by
  have hy := hyp_default (dflt := dflt) hg hs hW
  obtain ⟨r, st, bs, h1, _, h3⟩ := run hy (fun _ => false) dist hp
  rcases h3 with ⟨rfl, i, hno⟩ | ⟨_, u, hu, _⟩
  · refine ⟨st, h1, fun v hv e => ?_⟩
    refine (i.optimal hy hno (v := v) ?_ e).trans ?_
    · simpa [argsDefault, less, DijkstraState.distOf] using hv
    · refine exists_congr fun p => and_congr_right fun hpp => ?_
      obtain ⟨j1, j2, j3⟩ := pathWeight_plus weight (p ++ [e]) (path_edges hg hW hpp hs)
      show pathWeight (closedPlus INFINITY) 0 weight (p ++ [e]) = st.dist.getD v dflt ↔ _
      constructor
      · intro heq
        rw [← j3 (j2.mp (by omega))]; exact heq
      · intro heq
        rw [j3 (by omega)]; exact heq
  · cases hu

/-! ## C62 -/

/-- The full statement of C62. -/
def C62_statement : Prop :=
  ∀ (ord : SetOracle (EdgeDesc Nat)) (g : GraphI Nat (EdgeDesc Nat)) (weight : EdgeDesc Nat → Int) (dflt : Int) (s t : Nat),
    ord.Valid → g.Closed → s ∈ g.vertices → t ∈ g.vertices → (∀ u ∈ g.vertices, ∀ e ∈ g.outEdges u, g.source e = u) →
    (∀ u ∈ g.vertices, ∀ e ∈ g.outEdges u, 0 ≤ weight e) →
    ∃ r, Returns (dijkstraShortestPath ord (argsLess weight dflt) g s t [] []) (.ok r) ∧
      ((∃ p, IsPath g s p t ∧ (p.map weight).sum < INFINITY) → ∃ p, r = some p ∧ IsPath g s p t ∧ ∀ q, IsPath g s q t → (p.map weight).sum ≤ (q.map weight).sum) ∧
      ((∀ p, IsPath g s p t → INFINITY ≤ (p.map weight).sum) → r = none)

/-- The graph `0 → 1`, `1 → 2`, `2 → 1`, `2 → 3`. -/
def loopGraph : GraphI Nat (EdgeDesc Nat) := (Graph.mk 4 [(0, [(1, [0])]), (1, [(2, [0])]), (2, [(1, [0]), (3, [0])]), (3, [])]).toI

/-- `1 → 2` and `2 → 1` weigh 0. -/
def loopWeight (e : EdgeDesc Nat) : Int := if e.source = 0 then 1 else if e.target = 3 then 5 else 0

/-- Sets are listed in the reverse order of the insertions. -/
def reverseOrder : SetOracle (EdgeDesc Nat) := fun _ l => l.reverse

/-- **C62 is false of the code** if some cycle weighs 0: `make_shortest_path` follows arbitrary predecessor arcs and may turn around the cycle for ever. -/
theorem C62_counterexample :
    (∃ st, Returns (dijkstra (argsLess loopWeight 0) loopGraph 0 (fun u => decide (u = 3)) [] []) (.ok (true, st)) ∧
      Diverges (makeShortestPath reverseOrder loopGraph 0 3 st.preds)) ∧ ¬ C62_statement := by
  have hrun : ∃ st, dijkstra (argsLess loopWeight 0) loopGraph 0 (fun u => decide (u = 3)) [] [] 5 = some (.ok (true, st)) ∧
      st.preds = [(1, [⟨0, 1, 0⟩, ⟨2, 1, 0⟩]), (2, [⟨1, 2, 0⟩]), (3, [⟨2, 3, 0⟩])] := by
    have h : (match dijkstra (argsLess loopWeight 0) loopGraph 0 (fun u => decide (u = 3)) [] [] 5 with
      | some (.ok (true, st)) => decide (st.preds = [(1, [⟨0, 1, 0⟩, ⟨2, 1, 0⟩]), (2, [⟨1, 2, 0⟩]), (3, [⟨2, 3, 0⟩])])
      | _ => false) = true := by decide
    split at h
    · rename_i st heq
      exact ⟨st, heq, by simpa using h⟩
    · cases h
  obtain ⟨st, h1, h2⟩ := hrun
  have hret : Returns (dijkstra (argsLess loopWeight 0) loopGraph 0 (fun u => decide (u = 3)) [] []) (.ok (true, st)) :=
    ⟨5, fun fuel hf => loop_mono _ h1 hf⟩
  have hdiv : Diverges (makeShortestPath reverseOrder loopGraph 0 3 st.preds) := by
    rw [h2]
    have key : ∀ fuel n u p, u = 1 ∨ u = 2 ∨ u = 3 → loop (shortestPathStep reverseOrder loopGraph 0
        [(1, [⟨0, 1, 0⟩, ⟨2, 1, 0⟩]), (2, [⟨1, 2, 0⟩]), (3, [⟨2, 3, 0⟩])]) fuel n (u, p) = none := by
      intro fuel
      induction fuel with
      | zero => intro n u p _; rfl
      | succ fuel ih =>
        intro n u p hu
        rw [loop]
        rcases hu with rfl | rfl | rfl
        · exact ih _ 2 _ (by simp)
        · exact ih _ 1 _ (by simp)
        · exact ih _ 2 _ (by simp)
    intro fuel
    exact key fuel 0 3 [] (by simp)
  refine ⟨⟨st, hret, hdiv⟩, ?_⟩
  intro hall
  obtain ⟨r, ⟨N, hN⟩, _⟩ := hall reverseOrder loopGraph loopWeight 0 0 3 (fun _ l => List.reverse_perm l) (by unfold GraphI.Closed; decide) (by decide)
    (by decide) (by decide) (by decide)
  have h3 := hN (max N 5) (Nat.le_max_left _ _)
  unfold dijkstraShortestPath at h3
  have h4 := loop_mono _ h1 (Nat.le_max_right N 5)
  unfold dijkstra at h3
  rw [h4] at h3
  simp only [hdiv (max N 5)] at h3
  cases h3

/-- The general form of C62: following a cycle changes every distance. -/
theorem C62_algebra_partial {ord : SetOracle E} (hord : ord.Valid) {W : D → Prop} {g : GraphI V E} {s t : V} {weight : E → D} {compare : D → D → Bool}
    {combine : D → D → D} {zero infty dflt : D}
    (h : SelectiveAlgebra compare combine zero infty W) (hg : g.Closed) (hs : s ∈ g.vertices) (hW : ∀ u ∈ g.vertices, ∀ e ∈ g.outEdges u, W (weight e))
    (hsrc : ∀ u ∈ g.vertices, ∀ e ∈ g.outEdges u, g.source e = u)
    (hcyc : ∀ x u q p, IsPath g s q u → IsPath g u p u → p ≠ [] → compare x infty = true → pathWeight combine x weight p ≠ x)
    (dist : Dict V D) (preds : Dict V (List E)) (hp : ∀ v, preds.getD v [] = []) :
    (∃ p, Returns (dijkstraShortestPath ord (argsWith weight compare combine zero infty dflt) g s t dist preds) (.ok (some p)) ∧
      IsPath g s p t ∧ compare (pathWeight combine zero weight p) infty = true ∧
      ∀ q, IsPath g s q t → compare (pathWeight combine zero weight q) (pathWeight combine zero weight p) = false) ∨
    (Returns (dijkstraShortestPath ord (argsWith weight compare combine zero infty dflt) g s t dist preds) (.ok none) ∧
      ∀ q, IsPath g s q t → compare (pathWeight combine zero weight q) infty = false) := by
  have hy := hyp_with (dflt := dflt) h hg hs hW
  obtain ⟨r, st, bs, h1, hb, h3⟩ := run hy (fun u => decide (u = t)) dist hp
  rcases h3 with ⟨rfl, i, hno⟩ | ⟨rfl, u, hu, i⟩
  · right
    constructor
    · obtain ⟨N, hN⟩ := h1
      refine ⟨N, fun fuel hf => ?_⟩
      unfold dijkstraShortestPath
      rw [hN fuel hf]
    · intro q hq
      cases hlt : compare (pathWeight combine zero weight q) infty with
      | false => rfl
      | true =>
        have := hb t (i.final hy hno q t hq hlt).1
        simp at this
  · left
    have hut : u = t := by simpa using hu
    subst hut
    have hop := i.curOk u rfl
    obtain ⟨p, h4, h5, h6⟩ := walkBack i hcyc hsrc hord (t := u) (.inl hop)
    have hinf := (i.disc u (.inl hop)).1
    refine ⟨p, ?_, h5, ?_, ?_⟩
    · obtain ⟨N, hN⟩ := h1
      obtain ⟨M, hM⟩ := h4
      refine ⟨max N M, fun fuel hf => ?_⟩
      unfold dijkstraShortestPath
      rw [hN fuel (by omega)]
      simp only [hM fuel (by omega)]
    · rw [show pathWeight combine zero weight p = st.distOf (argsWith weight compare combine zero infty dflt) u from h6]
      exact hinf
    · intro q hq
      rw [show pathWeight combine zero weight p = st.distOf (argsWith weight compare combine zero infty dflt) u from h6]
      cases hlt : compare (pathWeight combine zero weight q) (st.distOf (argsWith weight compare combine zero infty dflt) u) with
      | false => rfl
      | true =>
        exfalso
        rcases i.lower hy q u hq (h.trans _ _ _ hlt hinf) with ⟨h7, _⟩ | ⟨y, h7, h8⟩
        · exact i.open_not_black hop h7
        · exact Hyp.not_lt_of_le (hy.leTrans (i.curMono u rfl y h7) h8) hlt

/-- With non-negative weights, following arcs of positive total weight changes every distance below `INFINITY`. -/
theorem Dijkstra.pathWeight_ne {weight : E → Int} {p : List E} (h : ∀ e ∈ p, 0 ≤ weight e) (hpos : 0 < (p.map weight).sum) {x : Int} (hx : x < INFINITY) :
    pathWeight (closedPlus INFINITY) x weight p ≠ x := by
  have key : ∀ (p : List E), (∀ e ∈ p, 0 ≤ weight e) → ∀ x : Int,
      INFINITY ≤ pathWeight (closedPlus INFINITY) x weight p ∨ pathWeight (closedPlus INFINITY) x weight p = x + (p.map weight).sum := by
    intro p
    induction p with
    | nil => intro _ x; right; simp [pathWeight]
    | cons e p ih =>
      intro h x
      have he := h e (by simp)
      have hpw : pathWeight (closedPlus INFINITY) x weight (e :: p) = pathWeight (closedPlus INFINITY) (closedPlus INFINITY x (weight e)) weight p := rfl
      rw [hpw, List.map_cons, List.sum_cons]
      have hnn := (pathWeight_plus weight p fun e' he' => h e' (by simp [he'])).1
      rcases ih (fun e' he' => h e' (by simp [he'])) (closedPlus INFINITY x (weight e)) with h1 | h1
      · exact .inl h1
      · rw [h1]
        unfold closedPlus closedOperator
        dsimp only
        split
        · left; omega
        · right; omega
  rcases key p h x with h1 | h1 <;> omega

theorem IsPath.end_mem {g : GraphI V E} (hg : g.Closed) {u v : V} {p : List E} (h : IsPath g u p v) (hu : u ∈ g.vertices) : v ∈ g.vertices := by
  induction h with
  | nil => exact hu
  | cons he _ ih => exact ih (hg _ hu _ he)

/-- **C62, partial** (missing: cycles of weight 0, for which the claim is false): with non-negative weights, if no cycle reached from `s` weighs 0,
`dijkstra_shortest_path` returns a list of consecutive arcs from `s` to `t` of least total weight if some path weighs less than `INFINITY`, and `None` otherwise. -/
theorem C62_partial {ord : SetOracle E} (hord : ord.Valid) {g : GraphI V E} {s t : V} {weight : E → Int} {dflt : Int} (hg : g.Closed) (hs : s ∈ g.vertices)
    (hsrc : ∀ u ∈ g.vertices, ∀ e ∈ g.outEdges u, g.source e = u) (hW : ∀ u ∈ g.vertices, ∀ e ∈ g.outEdges u, 0 ≤ weight e)
    (hcyc : ∀ u q p, IsPath g s q u → IsPath g u p u → p ≠ [] → 0 < (p.map weight).sum)
    (dist : Dict V Int) (preds : Dict V (List E)) (hp : ∀ v, preds.getD v [] = []) :
    ∃ r, Returns (dijkstraShortestPath ord (argsLess weight dflt) g s t dist preds) (.ok r) ∧
      ((∃ p, IsPath g s p t ∧ (p.map weight).sum < INFINITY) → ∃ p, r = some p ∧ IsPath g s p t ∧ ∀ q, IsPath g s q t → (p.map weight).sum ≤ (q.map weight).sum) ∧
      ((∀ p, IsPath g s p t → INFINITY ≤ (p.map weight).sum) → r = none) := by
  have hpw : ∀ q, IsPath g s q t → _ := fun q hq => pathWeight_plus weight q (path_edges hg hW hq hs)
  rcases C62_algebra_partial (dflt := dflt) (t := t) hord plusAlgebra hg hs hW hsrc (by
    intro x u q p hq hc hne hx
    exact pathWeight_ne (path_edges hg hW hc (hq.end_mem hg hs)) (hcyc u q p hq hc hne) (by simpa [less] using hx)) dist preds hp with ⟨p, h1, h2, h3, h4⟩ | ⟨h1, h2⟩
  · have hlt : pathWeight (closedPlus INFINITY) 0 weight p < INFINITY := by simpa [less] using h3
    obtain ⟨_, j2, j3⟩ := hpw p h2
    have hsum := j3 (j2.mp hlt)
    refine ⟨some p, h1, fun _ => ⟨p, rfl, h2, ?_⟩, ?_⟩
    · intro q hq
      obtain ⟨_, k2, k3⟩ := hpw q hq
      have := h4 q hq
      simp [less] at this
      by_cases hc : (q.map weight).sum < INFINITY
      · have := k3 hc; omega
      · omega
    · intro hall
      have := hall p h2
      omega
  · refine ⟨none, h1, ?_, fun _ => rfl⟩
    rintro ⟨p, hpp, hlt⟩
    exfalso
    have := h2 p hpp
    simp [less] at this
    have := (hpw p hpp).2.1.mpr hlt
    omega

/-- **C62** (non-negative weights): whenever `dijkstra_shortest_path` ends, its result is right: it raises no exception, returns a list of consecutive arcs from `s` to `t` of
least combined weight, or `None` if no path is better than `infty`. What is missing in comparison with the full claim is termination, which may fail if some weight leaves a
distance unchanged. -/
theorem C62_sound_partial {ord : SetOracle E} (hord : ord.Valid) {W : D → Prop} {g : GraphI V E} {s t : V} {weight : E → D} {compare : D → D → Bool}
    {combine : D → D → D} {zero infty dflt : D}
    (h : SelectiveAlgebra compare combine zero infty W) (hg : g.Closed) (hs : s ∈ g.vertices) (hW : ∀ u ∈ g.vertices, ∀ e ∈ g.outEdges u, W (weight e))
    (hsrc : ∀ u ∈ g.vertices, ∀ e ∈ g.outEdges u, g.source e = u)
    (dist : Dict V D) (preds : Dict V (List E)) (hp : ∀ v, preds.getD v [] = []) {fuel : Nat} {r : Except PyErr (Option (List E))}
    (hr : dijkstraShortestPath ord (argsWith weight compare combine zero infty dflt) g s t dist preds fuel = some r) :
    (∃ p, r = .ok (some p) ∧ IsPath g s p t ∧ compare (pathWeight combine zero weight p) infty = true ∧
      ∀ q, IsPath g s q t → compare (pathWeight combine zero weight q) (pathWeight combine zero weight p) = false) ∨
    (r = .ok none ∧ ∀ q, IsPath g s q t → compare (pathWeight combine zero weight q) infty = false) := by
  have hy := hyp_with (dflt := dflt) h hg hs hW
  obtain ⟨b, st, bs, h1, hb, h3⟩ := run hy (fun u => decide (u = t)) dist hp
  obtain ⟨N, hN⟩ := h1
  have hfuel : dijkstra (argsWith weight compare combine zero infty dflt) g s (fun u => decide (u = t)) dist preds fuel = some (.ok (b, st)) := by
    cases hd : dijkstra (argsWith weight compare combine zero infty dflt) g s (fun u => decide (u = t)) dist preds fuel with
    | none => unfold dijkstraShortestPath at hr; rw [hd] at hr; cases hr
    | some r' =>
      have h4 := loop_mono _ hd (Nat.le_max_right N fuel)
      have h5 := hN (max N fuel) (Nat.le_max_left _ _)
      unfold dijkstra at h5
      rw [h4] at h5
      exact h5
  unfold dijkstraShortestPath at hr
  rw [hfuel] at hr
  rcases h3 with ⟨rfl, i, hno⟩ | ⟨rfl, u, hu, i⟩
  · right
    simp only at hr
    cases hr
    refine ⟨rfl, ?_⟩
    intro q hq
    cases hlt : compare (pathWeight combine zero weight q) infty with
    | false => rfl
    | true =>
      have := hb t (i.final hy hno q t hq hlt).1
      simp at this
  · left
    have hut : u = t := by simpa using hu
    subst hut
    have hop := i.curOk u rfl
    have hinf := (i.disc u (.inl hop)).1
    cases hm : makeShortestPath ord g s u st.preds fuel with
    | none => simp only [hm] at hr; cases hr
    | some r' =>
      obtain ⟨p, rfl, h5, h6⟩ := walkBack_partial i hsrc hord (t := u) (.inl hop) hm
      simp only [hm] at hr
      cases hr
      refine ⟨p, rfl, h5, ?_, ?_⟩
      · rw [show pathWeight combine zero weight p = st.distOf (argsWith weight compare combine zero infty dflt) u from h6]
        exact hinf
      · intro q hq
        rw [show pathWeight combine zero weight p = st.distOf (argsWith weight compare combine zero infty dflt) u from h6]
        cases hlt : compare (pathWeight combine zero weight q) (st.distOf (argsWith weight compare combine zero infty dflt) u) with
        | false => rfl
        | true =>
          exfalso
          rcases i.lower hy q u hq (h.trans _ _ _ hlt hinf) with ⟨h7, _⟩ | ⟨y, h7, h8⟩
          · exact i.open_not_black hop h7
          · exact Hyp.not_lt_of_le (hy.leTrans (i.curMono u rfl y h7) h8) hlt

/-- **C62** (`s = t`): the empty path is returned at once, whatever the weights. -/
theorem C62_source {ord : SetOracle E} {g : GraphI V E} {s : V} {weight : E → Int} {dflt : Int} (hg : g.Closed) (hs : s ∈ g.vertices)
    (hW : ∀ u ∈ g.vertices, ∀ e ∈ g.outEdges u, 0 ≤ weight e) (dist : Dict V Int) (preds : Dict V (List E)) (hp : ∀ v, preds.getD v [] = []) :
    Returns (dijkstraShortestPath ord (argsLess weight dflt) g s s dist preds) (.ok (some [])) := by
  have hy : Hyp (argsLess weight dflt) g s := hyp_with (dflt := dflt) plusAlgebra hg hs hW
  obtain ⟨r, st, bs, h1, hb, h3⟩ := run hy (fun u => decide (u = s)) dist hp
  rcases h3 with ⟨rfl, i, hno⟩ | ⟨rfl, u, hu, i⟩
  · exfalso
    rcases i.root_disc with h4 | h4
    · exact hno s h4
    · have := hb s h4; simp at this
  · obtain ⟨N, hN⟩ := h1
    refine ⟨N + 1, fun fuel hf => ?_⟩
    unfold dijkstraShortestPath
    rw [hN fuel (by omega)]
    have : makeShortestPath ord g s s st.preds fuel = some (.ok []) := by
      obtain ⟨k, rfl⟩ : ∃ k, fuel = k + 1 := ⟨fuel - 1, by omega⟩
      unfold makeShortestPath
      rw [loop]
      simp [shortestPathStep]
    simp only [this]

/-- **C62** (`make_shortest_path`, partial in the same way): after a complete run of `dijkstra_shortest_paths` with non-negative weights and no cycle of weight 0, `make_shortest_path(g, s, t, pmap_vpreds)`
returns a shortest path to every `t` whose distance is below `INFINITY`; if no path leads from `s` to `t`, it raises `IndexError`. -/
theorem C62_make_shortest_path_partial {ord : SetOracle E} (hord : ord.Valid) {g : GraphI V E} {s : V} {weight : E → Int} {dflt : Int} (hg : g.Closed) (hs : s ∈ g.vertices)
    (hsrc : ∀ u ∈ g.vertices, ∀ e ∈ g.outEdges u, g.source e = u) (hW : ∀ u ∈ g.vertices, ∀ e ∈ g.outEdges u, 0 ≤ weight e)
    (hcyc : ∀ u q p, IsPath g s q u → IsPath g u p u → p ≠ [] → 0 < (p.map weight).sum)
    (dist : Dict V Int) (preds : Dict V (List E)) (hp : ∀ v, preds.getD v [] = []) :
    ∃ st, Returns (dijkstra (argsDefault weight dflt) g s (fun _ => false) dist preds) (.ok (false, st)) ∧ ∀ t,
      (t ∈ g.vertices → st.dist.getD t dflt < INFINITY → ∃ p, Returns (makeShortestPath ord g s t st.preds) (.ok p) ∧ IsPath g s p t ∧
        ∀ q, IsPath g s q t → (p.map weight).sum ≤ (q.map weight).sum) ∧
      ((∀ p, ¬ IsPath g s p t) → Returns (makeShortestPath ord g s t st.preds) (.error .indexError)) := by
  have hy := hyp_default (dflt := dflt) hg hs hW
  obtain ⟨r, st, bs, h1, _, h3⟩ := run hy (fun _ => false) dist hp
  rcases h3 with ⟨rfl, i, hno⟩ | ⟨_, u, hu, _⟩
  · refine ⟨st, h1, fun t => ⟨fun ht hlt => ?_, fun hn => ?_⟩⟩
    · have hb : t ∈ bs := by
        refine (i.black_iff hy hno ht).mpr ?_
        simpa [argsDefault, less, DijkstraState.distOf] using hlt
      obtain ⟨p, k1, k2, k3⟩ := walkBack i (by
        intro x u q p hq hc hne hx
        exact pathWeight_ne (path_edges hg hW hc (hq.end_mem hg hs)) (hcyc u q p hq hc hne) (by simpa [argsDefault, less] using hx)) hsrc hord (t := t) (.inr hb)
      refine ⟨p, k1, k2, fun q hq => ?_⟩
      have hbest : IsBest less INFINITY (fun d => ∃ p, IsPath g s p t ∧ (p.map weight).sum = d) (st.dist.getD t dflt) :=
        best_plus hg hs hW (i.best hy hno ht)
      obtain ⟨j1, j2, j3⟩ := pathWeight_plus weight p (path_edges hg hW k2 hs)
      have k3' : pathWeight (closedPlus INFINITY) 0 weight p = st.dist.getD t dflt := k3
      have e1 : (p.map weight).sum = st.dist.getD t dflt := by
        rw [← k3']; exact (j3 (j2.mp (by omega))).symm
      rw [e1]
      rcases hbest with ⟨_, _, h6⟩ | ⟨h6, _⟩
      · have := h6 _ ⟨q, hq, rfl⟩
        simpa [less] using this
      · omega
    · refine ⟨1, fun fuel hf => ?_⟩
      obtain ⟨k, rfl⟩ : ∃ k, fuel = k + 1 := ⟨fuel - 1, by omega⟩
      have hts : t ≠ s := fun e => hn [] (by rw [e]; exact .nil s)
      have hpe : st.preds.getD t [] = [] := by
        rw [List.eq_nil_iff_forall_not_mem]
        intro e he
        obtain ⟨b, hex, rfl, _⟩ := (i.preds _ e).mp he
        rcases hex with ⟨hb, he⟩ | ⟨hb, _⟩
        · obtain ⟨_, p, h4, _⟩ := i.disc b (.inr hb)
          exact hn _ (h4.snoc he)
        · cases hb
      have hoe : ord 0 ([] : List E) = [] := List.perm_nil.mp (hord 0 [])
      unfold makeShortestPath
      rw [loop]
      simp [shortestPathStep, hts, hpe, hoe]
  · cases hu

/-! ## C63 -/

/-- **C63**: for every map of predecessors (cyclic or not), `make_shortest_paths_dag` ends without error and returns exactly the arcs that lie on some chain of predecessor
arcs ending in `t`. -/
theorem C63_dag (ord : SetOracle E) (g : GraphI V E) (t : V) (preds : Dict V (List E)) :
    ∃ kept, Returns (makeShortestPathsDag ord g t preds false) (.ok kept) ∧ kept.Nodup ∧
      ∀ e, e ∈ kept ↔ ∃ u p, PredPath g (preds.getD · []) t u p ∧ e ∈ p := dag_all ord g t preds

/-- **C63** (`single_path=True`): for every map of predecessors, the result is made of the arcs of one chain ending in `t`, which cannot be extended without coming back to
one of its vertices. -/
theorem C63_single {ord : SetOracle E} (hord : ord.Valid) (g : GraphI V E) (t : V) (preds : Dict V (List E)) :
    ∃ kept u p, Returns (makeShortestPathsDag ord g t preds true) (.ok kept) ∧ kept.Nodup ∧ PredPath g (preds.getD · []) t u p ∧ (∀ e, e ∈ kept ↔ e ∈ p) ∧
      (preds.getD u [] = [] ∨ ∃ e q, p = e :: q ∧ (u = t ∨ u ∈ q.map g.source)) := by
  obtain ⟨kept, u, p, h1, h2, h3, h4, h5⟩ := dag_single hord g t preds
  refine ⟨kept, u, p, h1, h2, h3, h4, h5.imp id fun h => ?_⟩
  cases p with
  | nil => cases h
  | cons e q => exact ⟨e, q, rfl, List.mem_cons.mp h⟩

/-- **C63** (after Dijkstra): if `combine` is strictly monotone, the arcs returned for the predecessors computed by `dijkstra_shortest_paths` are exactly those of the best
paths from `s` to `t`. -/
theorem C63_shortest {ord : SetOracle E} {W : D → Prop} {g : GraphI V E} {s : V} {weight : E → D} {compare : D → D → Bool}
    {combine : D → D → D} {zero infty dflt : D}
    (h : SelectiveAlgebra compare combine zero infty W) (hg : g.Closed) (hs : s ∈ g.vertices) (hW : ∀ u ∈ g.vertices, ∀ e ∈ g.outEdges u, W (weight e))
    (hsrc : ∀ u ∈ g.vertices, ∀ e ∈ g.outEdges u, g.source e = u)
    (hstrict : ∀ x y w, W w → compare x y = true → compare (combine y w) infty = true → compare (combine x w) (combine y w) = true)
    (dist : Dict V D) (preds : Dict V (List E)) (hp : ∀ v, preds.getD v [] = []) :
    ∃ st, Returns (dijkstra (argsWith weight compare combine zero infty dflt) g s (fun _ => false) dist preds) (.ok (false, st)) ∧
      ∀ t ∈ g.vertices, compare (st.dist.getD t dflt) infty = true →
        ∃ kept, Returns (makeShortestPathsDag ord g t st.preds false) (.ok kept) ∧
          ∀ e, e ∈ kept ↔ ∃ p, IsPath g s p t ∧ pathWeight combine zero weight p = st.dist.getD t dflt ∧ e ∈ p := by
  have hy := hyp_with (dflt := dflt) h hg hs hW
  obtain ⟨r, st, bs, h1, _, h3⟩ := run hy (fun _ => false) dist hp
  rcases h3 with ⟨rfl, i, hno⟩ | ⟨_, u, hu, _⟩
  · refine ⟨st, h1, fun t ht hlt => ?_⟩
    obtain ⟨kept, k1, _, k3⟩ := dag_all ord g t st.preds
    refine ⟨kept, k1, fun e => ?_⟩
    rw [k3]
    have htb : t ∈ bs := (i.black_iff hy hno ht).mpr hlt
    constructor
    · rintro ⟨u, p, h4, h5⟩
      obtain ⟨h6, h7, h8⟩ := predPath_spec hsrc i htb h4
      obtain ⟨_, q, h9, h10⟩ := i.disc u (.inr h6)
      refine ⟨q ++ p, h9.append h7, ?_, by simp [h5]⟩
      have : pathWeight combine zero weight (q ++ p) = p.foldl (fun d e => combine d (weight e)) (pathWeight combine zero weight q) := by
        unfold pathWeight; rw [List.foldl_append]
      rw [this, show pathWeight combine zero weight q = st.distOf (argsWith weight compare combine zero infty dflt) u from h10]
      exact h8
    · rintro ⟨p, h4, h5, h6⟩
      exact path_predPath hy hsrc i hno (fun x y w hw => hstrict x y w (by obtain ⟨u, hu, e, he, rfl⟩ := hw; exact hW u hu e he)) p t h4 h5 hlt e h6
  · cases hu

/-- **C63** (after Dijkstra, `single_path=True`): if combining with a weight strictly worsens a distance, the arcs returned are those of one best path from `s` to `t`. -/
theorem C63_single_shortest {ord : SetOracle E} (hord : ord.Valid) {W : D → Prop} {g : GraphI V E} {s : V} {weight : E → D} {compare : D → D → Bool}
    {combine : D → D → D} {zero infty dflt : D}
    (h : SelectiveAlgebra compare combine zero infty W) (hg : g.Closed) (hs : s ∈ g.vertices) (hW : ∀ u ∈ g.vertices, ∀ e ∈ g.outEdges u, W (weight e))
    (hsrc : ∀ u ∈ g.vertices, ∀ e ∈ g.outEdges u, g.source e = u)
    (hpos : ∀ x w, W w → compare x infty = true → compare x (combine x w) = true)
    (dist : Dict V D) (preds : Dict V (List E)) (hp : ∀ v, preds.getD v [] = []) :
    ∃ st, Returns (dijkstra (argsWith weight compare combine zero infty dflt) g s (fun _ => false) dist preds) (.ok (false, st)) ∧
      ∀ t ∈ g.vertices, compare (st.dist.getD t dflt) infty = true →
        ∃ kept p, Returns (makeShortestPathsDag ord g t st.preds true) (.ok kept) ∧ (∀ e, e ∈ kept ↔ e ∈ p) ∧
          IsPath g s p t ∧ pathWeight combine zero weight p = st.dist.getD t dflt := by
  have hy := hyp_with (dflt := dflt) h hg hs hW
  obtain ⟨r, st, bs, h1, _, h3⟩ := run hy (fun _ => false) dist hp
  rcases h3 with ⟨rfl, i, hno⟩ | ⟨_, u, hu, _⟩
  · refine ⟨st, h1, fun t ht hlt => ?_⟩
    have htb : t ∈ bs := (i.black_iff hy hno ht).mpr hlt
    obtain ⟨kept, u, p, k1, _, k3, k4, k5⟩ := dag_single hord g t st.preds
    obtain ⟨h6, h7, h8⟩ := predPath_spec hsrc i htb k3
    have hus : u = s := by
      by_contra hus
      rcases k5 with h9 | h9
      · exact i.predsNe u (.inr h6) hus h9
      · have := predPath_pos hy hsrc i (fun x w hw hx => hpos x w (by obtain ⟨u, hu, e, he, rfl⟩ := hw; exact hW u hu e he) hx) htb k3 u h9
        rw [hy.alg.irrefl] at this; cases this
    subst hus
    refine ⟨kept, p, k1, k4, h7, ?_⟩
    rw [i.root] at h8
    exact h8
  · cases hu

/-! ## Concrete cases -/

namespace Examples

example : loopGraph.Closed ∧ 0 ∈ loopGraph.vertices ∧ (∀ u ∈ loopGraph.vertices, ∀ e ∈ loopGraph.outEdges u, 0 ≤ loopWeight e ∧ loopGraph.source e = u) := by
  refine ⟨?_, ?_, ?_⟩
  · unfold GraphI.Closed; decide
  · decide
  · decide

/-- Two shortest paths from 0 to 3, and an unreachable vertex 4. -/
def diamondGraph : GraphI Nat (EdgeDesc Nat) :=
  (Graph.mk 5 [(0, [(1, [0]), (2, [0]), (3, [0])]), (1, [(3, [0]), (0, [0])]), (2, [(3, [0])]), (3, []), (4, [(0, [0])])]).toI

def diamondWeight (e : EdgeDesc Nat) : Int := if e.source = 0 then (if e.target = 1 then 2 else if e.target = 2 then 3 else 10) else (if e.source = 1 then 4 else 3)

example : diamondGraph.Closed ∧ (∀ u ∈ diamondGraph.vertices, ∀ e ∈ diamondGraph.outEdges u, 0 < diamondWeight e ∧ diamondGraph.source e = u) :=
  ⟨by unfold GraphI.Closed; decide, by decide⟩

example : (match dijkstra (argsDefault diamondWeight 0) diamondGraph 0 (fun _ => false) [] [] 10 with
    | some (.ok (false, st)) => st.dist == [(0, 0), (1, 2), (2, 3), (3, 6), (4, INFINITY)] &&
        st.preds == [(1, [⟨0, 1, 0⟩]), (2, [⟨0, 2, 0⟩]), (3, [⟨1, 3, 0⟩, ⟨2, 3, 0⟩])] && examined st.trace == [0, 1, 2, 3]
    | _ => false) = true := by decide

example : (match dijkstraShortestPath reverseOrder (argsLess diamondWeight 0) diamondGraph 0 3 [] [] 10 with
    | some (.ok (some p)) => p == [⟨0, 2, 0⟩, ⟨2, 3, 0⟩]
    | _ => false) = true := by decide

example : (match dijkstraShortestPath reverseOrder (argsLess diamondWeight 0) diamondGraph 0 4 [] [] 10 with
    | some (.ok none) => true
    | _ => false) = true := by decide

example : (match dijkstra (argsDefault diamondWeight 0) diamondGraph 0 (fun _ => false) [] [] 10 with
    | some (.ok (false, st)) => decide (makeShortestPath reverseOrder diamondGraph 0 3 st.preds 10 = some (.ok [⟨0, 2, 0⟩, ⟨2, 3, 0⟩])) &&
        decide (makeShortestPath reverseOrder diamondGraph 0 4 st.preds 10 = some (.error .indexError))
    | _ => false) = true := by decide

/-- If some potential makes every arc strictly positive, no cycle weighs 0: for instance if all the weights are positive. -/
theorem cycles_of_potential {V E : Type} {g : GraphI V E} {weight : E → Int} (hg : g.Closed) (k : Int) (hk : 0 < k) (φ : V → Int)
    (h : ∀ u ∈ g.vertices, ∀ e ∈ g.outEdges u, 0 < k * weight e + φ u - φ (g.target e)) {u : V} {p : List E} (hu : u ∈ g.vertices) (hp : IsPath g u p u) (hne : p ≠ []) :
    0 < (p.map weight).sum := by
  have key : ∀ {u v : V} {p : List E}, IsPath g u p v → u ∈ g.vertices → (p.length : Int) ≤ k * (p.map weight).sum + φ u - φ v := by
    intro u v p hp
    induction hp with
    | nil => intro _; simp
    | @cons u v e p he hp ih =>
      intro hu
      have h1 := h u hu e he
      have h2 := ih (hg u hu e he)
      simp only [List.length_cons, List.map_cons, List.sum_cons, Int.mul_add]
      push_cast
      omega
  have h1 := key hp hu
  have h2 : 0 < p.length := List.length_pos_of_ne_nil hne
  have h3 : 0 < k * (p.map weight).sum := by omega
  by_contra hn
  have := Int.mul_le_mul_of_nonneg_left (show (p.map weight).sum ≤ 0 by omega) (Int.le_of_lt hk)
  simp only [Int.mul_zero] at this
  omega

/-- `0 → 1` weighs 0 and `1 → 0` weighs 1: the hypotheses of `C62_partial` hold although some weight is 0. -/
def zeroGraph : GraphI Nat (EdgeDesc Nat) := (Graph.mk 2 [(0, [(1, [0])]), (1, [(0, [0])])]).toI

def zeroWeight (e : EdgeDesc Nat) : Int := if e.source = 0 then 0 else 1

example : zeroGraph.Closed ∧ (∀ u ∈ zeroGraph.vertices, ∀ e ∈ zeroGraph.outEdges u, 0 ≤ zeroWeight e ∧ zeroGraph.source e = u) ∧
    (∀ u q p, IsPath zeroGraph 0 q u → IsPath zeroGraph u p u → p ≠ [] → 0 < (p.map zeroWeight).sum) ∧
    dijkstraShortestPath reverseOrder (argsLess zeroWeight 0) zeroGraph 0 1 [] [] 10 = some (.ok (some [⟨0, 1, 0⟩])) := by
  have hc : zeroGraph.Closed := by unfold GraphI.Closed; decide
  refine ⟨hc, by decide, fun u q p hq hp hne => ?_, by decide⟩
  exact cycles_of_potential hc 2 (by decide) (fun u => if u = 0 then 1 else 0) (by decide) (hq.end_mem hc (by decide)) hp hne

/-- Strict monotonicity and strict growth hold of `Less()` and `ClosedPlus()` with positive weights. -/
example (x y w : Int) (hw : 0 < w) :
    (less x y = true → less (closedPlus INFINITY y w) INFINITY = true → less (closedPlus INFINITY x w) (closedPlus INFINITY y w) = true) ∧
    (less x INFINITY = true → less x (closedPlus INFINITY x w) = true) := by
  simp only [less, closedPlus, closedOperator, decide_eq_true_eq]
  constructor
  · intro h1 h2
    split at h2
    · omega
    · split <;> omega
  · intro h1; split <;> omega

end Examples

end PyBGL
