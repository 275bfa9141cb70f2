import Verif.Proofs.FloatDijkstra

/-!
# C152: distances that are floating-point numbers
# C153: shortest paths, when the weights are floating-point numbers

The weights are non-negative floats: `F.Weight`. Since they may be any number of any format, the sums that the search computes are rounded, and the addition is not
associative.
-/

namespace PyBGL
open Dijkstra FloatFormat
variable {V E : Type} [DecidableEq V] [DecidableEq E] {F : FloatFormat} {g : GraphI V E} {s t : V} {weight : E → F.Num} {dflt : F.Num}

/-- **C152** (rounded sums): with floats, whatever the format and the ties, the search ends, and the distance of every vertex is the least of the sums of the weights
along the paths from `s`, where each sum is rounded after each arc, from `s` on; it is `INFINITY` if there is none below `INFINITY`. The same holds whether `compare`
is given or not. -/
theorem C152_distances (hg : g.Closed) (hs : s ∈ g.vertices) (hW : ∀ u ∈ g.vertices, ∀ e ∈ g.outEdges u, F.Weight (weight e))
    (dist : Dict V F.Num) (preds : Dict V (List E)) (hp : ∀ v, preds.getD v [] = []) (a : DijkstraArgs E F.Num) (ha : a = F.args weight dflt ∨ a = F.argsNone weight dflt) :
    ∃ st, Returns (dijkstra a g s (fun _ => false) dist preds) (.ok (false, st)) ∧
      ∀ v ∈ g.vertices, IsBest (fun x y => decide (x < y)) (INFINITY : Rat) (fun d => ∃ p, IsPath g s p v ∧ F.sumFrom 0 (p.map fun e => (weight e).val) = d)
        (st.dist.getD v dflt).val := by
  rcases ha with rfl | rfl
  · obtain ⟨st, h1, h2⟩ := C64_algebra (dflt := dflt) F.algebra hg hs hW dist preds hp
    exact ⟨st, h1, fun v hv => best_sum hg hs hW (h2 v hv)⟩
  · have hy := hyp_none (dflt := dflt) hg hs hW
    obtain ⟨r, st, bs, h1, _, h3⟩ := run hy (fun _ => false) dist hp
    rcases h3 with ⟨rfl, i, hno⟩ | ⟨_, u, hu, _⟩
    · exact ⟨st, h1, fun v hv => best_sum hg hs hW (i.best hy hno hv)⟩
    · cases hu

/-- **C152** (errors): if the relative error of one addition is at most `ε`, and if the graph has `k + 1` vertices, then every distance `d` below `INFINITY` is, up to
the factor `1 - k ε`, at least the exact total weight of some path and at most that of every path. `INFINITY` stands for the vertices all paths to which weigh
at least `(1 - k ε) INFINITY`. -/
theorem C152_errors {ε : Rat} (hF : F.Precise ε) (h0 : 0 ≤ ε) (h1 : ε ≤ 1) (hg : g.Closed) (hs : s ∈ g.vertices)
    (hW : ∀ u ∈ g.vertices, ∀ e ∈ g.outEdges u, F.Weight (weight e))
    (dist : Dict V F.Num) (preds : Dict V (List E)) (hp : ∀ v, preds.getD v [] = []) (a : DijkstraArgs E F.Num) (ha : a = F.args weight dflt ∨ a = F.argsNone weight dflt) :
    ∃ st, Returns (dijkstra a g s (fun _ => false) dist preds) (.ok (false, st)) ∧ ∀ v ∈ g.vertices,
      (st.dist.getD v dflt).val ≤ (INFINITY : Rat) ∧
      ((st.dist.getD v dflt).val < (INFINITY : Rat) →
        ∃ p, IsPath g s p v ∧ (1 - (g.vertices.length - 1 : Nat) * ε) * (p.map fun e => (weight e).val).sum ≤ (st.dist.getD v dflt).val) ∧
      ∀ q, IsPath g s q v → (1 - (g.vertices.length - 1 : Nat) * ε) * (st.dist.getD v dflt).val ≤ (q.map fun e => (weight e).val).sum := by
  obtain ⟨st, k1, k2⟩ := C152_distances hg hs hW dist preds hp a ha
  exact ⟨st, k1, fun v hv => best_error hF h0 h1 hg hs hW (k2 v hv)⟩

/-- **C152** (double precision): with Python's floats, the error of one addition is at most `2^-53`. -/
theorem C152_double (hF : F.Binary64) (hg : g.Closed) (hs : s ∈ g.vertices)
    (hW : ∀ u ∈ g.vertices, ∀ e ∈ g.outEdges u, F.Weight (weight e))
    (dist : Dict V F.Num) (preds : Dict V (List E)) (hp : ∀ v, preds.getD v [] = []) (a : DijkstraArgs E F.Num) (ha : a = F.args weight dflt ∨ a = F.argsNone weight dflt) :
    ∃ st, Returns (dijkstra a g s (fun _ => false) dist preds) (.ok (false, st)) ∧ ∀ v ∈ g.vertices,
      (st.dist.getD v dflt).val ≤ (INFINITY : Rat) ∧
      ((st.dist.getD v dflt).val < (INFINITY : Rat) →
        ∃ p, IsPath g s p v ∧ (1 - (g.vertices.length - 1 : Nat) * (1 / 2 ^ 53)) * (p.map fun e => (weight e).val).sum ≤ (st.dist.getD v dflt).val) ∧
      ∀ q, IsPath g s q v → (1 - (g.vertices.length - 1 : Nat) * (1 / 2 ^ 53)) * (st.dist.getD v dflt).val ≤ (q.map fun e => (weight e).val).sum :=
  C152_errors (precise_bits (p := 53) (by omega) hF) (by norm_num) (by norm_num) hg hs hW dist preds hp a ha

/-- **C152** (paths): whatever `dijkstra_shortest_path` returns, it is a path whose rounded sum is the least one; hence, up to the factors `1 - |p| ε` and `1 - k ε`,
no path weighs less. `None` means that all paths weigh at least `(1 - k ε) INFINITY`. -/
theorem C152_paths {ε : Rat} (hF : F.Precise ε) (h0 : 0 ≤ ε) (h1 : ε ≤ 1) {ord : SetOracle E} (hord : ord.Valid) (hg : g.Closed) (hs : s ∈ g.vertices)
    (hsrc : ∀ u ∈ g.vertices, ∀ e ∈ g.outEdges u, g.source e = u) (hW : ∀ u ∈ g.vertices, ∀ e ∈ g.outEdges u, F.Weight (weight e))
    (dist : Dict V F.Num) (preds : Dict V (List E)) (hp : ∀ v, preds.getD v [] = []) {fuel : Nat} {r : Except PyErr (Option (List E))}
    (hr : dijkstraShortestPath ord (F.args weight dflt) g s t dist preds fuel = some r) :
    (∃ p, r = .ok (some p) ∧ IsPath g s p t ∧ F.sumFrom 0 (p.map fun e => (weight e).val) < (INFINITY : Rat) ∧
      (1 - p.length * ε) * (p.map fun e => (weight e).val).sum ≤ F.sumFrom 0 (p.map fun e => (weight e).val) ∧
      ∀ q, IsPath g s q t → F.sumFrom 0 (p.map fun e => (weight e).val) ≤ F.sumFrom 0 (q.map fun e => (weight e).val) ∧
        (1 - (g.vertices.length - 1 : Nat) * ε) * F.sumFrom 0 (p.map fun e => (weight e).val) ≤ (q.map fun e => (weight e).val).sum) ∨
    (r = .ok none ∧ ∀ q, IsPath g s q t → (INFINITY : Rat) ≤ F.sumFrom 0 (q.map fun e => (weight e).val) ∧
      (1 - (g.vertices.length - 1 : Nat) * ε) * (INFINITY : Rat) ≤ (q.map fun e => (weight e).val).sum) := by
  rcases C62_sound_partial (dflt := dflt) hord F.algebra hg hs hW hsrc dist preds hp hr with ⟨p, rfl, k1, k2, k3⟩ | ⟨rfl, k1⟩
  · have hb := best_sum hg hs hW (v := t) (d := pathWeight F.closedPlus F.zeroNum weight p) (.inl ⟨⟨p, k1, rfl⟩, k2, by rintro w ⟨q, hq, rfl⟩; exact k3 q hq⟩)
    obtain ⟨j1, j2⟩ := F.pathWeight_eq weight p (path_edges hg hW k1 hs)
    have hlt := j1.mp (F.less_iff.mp k2)
    rw [j2 hlt] at hb
    left
    refine ⟨p, rfl, k1, hlt, ?_, fun q hq => ⟨?_, (best_error hF h0 h1 hg hs hW hb).2.2 q hq⟩⟩
    · exact (sum_errors hF h0 h1 (path_weights hg hs hW k1) (by simp)).1
    · rcases hb with ⟨_, _, h3⟩ | ⟨h3, _⟩
      · simpa using h3 _ ⟨q, hq, rfl⟩
      · exact absurd h3 (ne_of_lt hlt)
  · right
    have hb := best_sum hg hs hW (v := t) (d := F.infNum) (.inr ⟨rfl, by rintro w ⟨q, hq, rfl⟩; exact k1 q hq⟩)
    refine ⟨rfl, fun q hq => ⟨?_, (best_error hF h0 h1 hg hs hW hb).2.2 q hq⟩⟩
    rcases hb with ⟨_, h2, _⟩ | ⟨_, h3⟩
    · exact absurd (of_decide_eq_true h2) (lt_irrefl _)
    · simpa using h3 _ ⟨q, hq, rfl⟩

/-- The hypotheses are met: double precision exists, and the weights `2^54` and 1 belong to it; its additions are inexact. -/
example : ∃ F : FloatFormat, F.Binary64 ∧ F.Precise (1 / 2 ^ 53) ∧ F.mem (2 ^ 54) ∧ F.mem 1 ∧ F.rnd (2 ^ 54 + 1) = 2 ^ 54 := by
  obtain ⟨F, hF⟩ := exists_format 53 1074
  exact ⟨F, hF, precise_bits (p := 53) (by omega) hF, absorbed (p := 53) (by omega) hF⟩

/-! ## C153 -/

/-- The full statement of C153: with positive floats, `dijkstra_shortest_path` returns a path if some path weighs less than `INFINITY`. -/
def C153_statement : Prop :=
  ∀ (F : FloatFormat) (ord : SetOracle (EdgeDesc Nat)) (g : GraphI Nat (EdgeDesc Nat)) (weight : EdgeDesc Nat → F.Num) (dflt : F.Num) (s t : Nat),
    F.Binary64 → ord.Valid → g.Closed → s ∈ g.vertices → t ∈ g.vertices → (∀ u ∈ g.vertices, ∀ e ∈ g.outEdges u, g.source e = u) →
    (∀ u ∈ g.vertices, ∀ e ∈ g.outEdges u, F.Weight (weight e) ∧ 0 < (weight e).val) →
    (∃ p, IsPath g s p t ∧ F.sumFrom 0 (p.map fun e => (weight e).val) < (INFINITY : Rat)) →
    ∃ p, Returns (dijkstraShortestPath ord (F.args weight dflt) g s t [] []) (.ok (some p)) ∧ IsPath g s p t

/-- **C153, partial** (missing: weights too different from each other, for which the claim is false): if all weights are between `x` and `y`, where `y / x` is less
than `1 / ε` divided by the number of vertices, then `dijkstra_shortest_path` returns a path if some path weighs less than `INFINITY`, and `None` otherwise. The
path meets no vertex twice, its rounded sum is the least one, and its exact weight is at most that of every path, up to the factor `(1 - k ε)^2`. -/
theorem C153_ratio_partial {ε x y : Rat} (hF : F.Precise ε) (h0 : 0 ≤ ε) (h1 : ε ≤ 1) {ord : SetOracle E} (hord : ord.Valid) (hg : g.Closed) (hs : s ∈ g.vertices)
    (hsrc : ∀ u ∈ g.vertices, ∀ e ∈ g.outEdges u, g.source e = u) (hW : ∀ u ∈ g.vertices, ∀ e ∈ g.outEdges u, F.Weight (weight e))
    (hx : ∀ u ∈ g.vertices, ∀ e ∈ g.outEdges u, x ≤ (weight e).val ∧ (weight e).val ≤ y)
    (hr : ε * ((1 + ε) ^ (g.vertices.length - 1) * ((g.vertices.length - 1 : Nat) * y)) < (1 - ε) * x)
    (dist : Dict V F.Num) (preds : Dict V (List E)) (hp : ∀ v, preds.getD v [] = []) :
    (∃ p, Returns (dijkstraShortestPath ord (F.args weight dflt) g s t dist preds) (.ok (some p)) ∧ IsPath g s p t ∧ (s :: p.map g.target).Nodup ∧
      F.sumFrom 0 (p.map fun e => (weight e).val) < (INFINITY : Rat) ∧
      ∀ q, IsPath g s q t → F.sumFrom 0 (p.map fun e => (weight e).val) ≤ F.sumFrom 0 (q.map fun e => (weight e).val) ∧
        (1 - (g.vertices.length - 1 : Nat) * ε) * ((1 - (g.vertices.length - 1 : Nat) * ε) * (p.map fun e => (weight e).val).sum) ≤ (q.map fun e => (weight e).val).sum) ∨
    (Returns (dijkstraShortestPath ord (F.args weight dflt) g s t dist preds) (.ok none) ∧
      ∀ q, IsPath g s q t → (INFINITY : Rat) ≤ F.sumFrom 0 (q.map fun e => (weight e).val)) := by
  have hy : Hyp (F.args weight dflt) g s := hyp_with (dflt := dflt) F.algebra hg hs hW
  have key : ∃ r, Returns (dijkstraShortestPath ord (F.args weight dflt) g s t dist preds) r ∧ ∀ p, r = .ok (some p) → (s :: p.map g.target).Nodup := by
    obtain ⟨b, st, bs, ⟨N, hN⟩, _, h3⟩ := run hy (fun u => decide (u = t)) dist hp
    rcases h3 with ⟨rfl, i, hno⟩ | ⟨rfl, u, hu, i⟩
    · refine ⟨.ok none, ⟨N, fun fuel hf => ?_⟩, fun p h => by cases h⟩
      unfold dijkstraShortestPath
      rw [hN fuel hf]
    · have hut : u = t := by simpa using hu
      subst hut
      have hpred := fun v e (hv : Open s st v ∨ v ∈ bs) (he : e ∈ st.preds.getD v []) => strict_pred hF h0 h1 hg hs hW hsrc hx hr i hv he
      have hop : Open s st u ∨ u ∈ bs := .inl (i.curOk u rfl)
      have hno : ¬ TrailCycle g s (st.preds.getD · []) u := by
        rintro ⟨w, p, c, m1, m2, m3⟩
        obtain ⟨_, n1, _⟩ := strict_trail hpred m1 hop
        exact absurd ((strict_trail hpred m2 n1).2.2.1 m3) (lt_irrefl _)
      obtain ⟨r, M, hM⟩ := (C62_ends_exact g s u st.preds).mpr hno ord hord
      rcases (C62_results g s u st.preds).1 ord r hord ⟨M, hM⟩ with ⟨p, rfl, htr⟩ | ⟨rfl, w, p, m1, m2, m3⟩
      · refine ⟨.ok (some p), ⟨max N M, fun fuel hf => ?_⟩, ?_⟩
        · unfold dijkstraShortestPath
          rw [hN fuel (by omega)]
          simp only [hM fuel (by omega)]
        · rintro p' h
          cases h
          exact (strict_trail hpred htr hop).2.2.2.imp fun h e => by rw [e] at h; exact lt_irrefl _ h
      · obtain ⟨_, n1, _⟩ := strict_trail hpred m1 hop
        exact absurd m3 (i.predsNe w n1 m2)
  obtain ⟨r, ⟨N, hN⟩, hnd⟩ := key
  rcases C152_paths hF h0 h1 hord hg hs hsrc hW dist preds hp (hN N (Nat.le_refl N)) with ⟨p, rfl, k1, k2, k3, k4⟩ | ⟨rfl, k1⟩
  · left
    have hndp := hnd p rfl
    refine ⟨p, ⟨N, hN⟩, k1, hndp, k2, fun q hq => ⟨(k4 q hq).1, ?_⟩⟩
    have hlen : p.length ≤ g.vertices.length - 1 := by
      have hsub : ∀ x ∈ s :: p.map g.target, x ∈ g.vertices := by
        intro x hx
        rcases List.mem_cons.mp hx with rfl | hx
        · exact hs
        · obtain ⟨e, he, rfl⟩ := List.mem_map.mp hx
          exact path_edges (P := fun e => g.target e ∈ g.vertices) hg (fun u hu e he => hg u hu e he) k1 hs e he
      have := (List.subperm_of_subset hndp hsub).length_le
      simp only [List.length_cons, List.length_map] at this
      omega
    have hsum := (sum_errors hF h0 h1 (path_weights hg hs hW k1) (k := g.vertices.length - 1) (by simpa using hlen)).1
    rcases le_or_gt (1 - ((g.vertices.length - 1 : Nat) : Rat) * ε) 0 with hc | hc
    · have hq0 := FloatFormat.sum_nonneg fun w hw => (path_weights hg hs hW hq w hw).2
      by_cases hpn : p = []
      · subst hpn; simpa using hq0
      -- the ratio is not that large
      exfalso
      have hk : (1 : Rat) ≤ (g.vertices.length - 1 : Nat) * ε := by linarith
      cases k1 with
      | nil => exact hpn rfl
      | @cons _ _ e p he _ =>
        obtain ⟨w1, w2⟩ := hx s hs e he
        have hw0 := (hW s hs e he).2
        have hy0 : 0 ≤ y := le_trans hw0 w2
        have hpow : (1 : Rat) ≤ (1 + ε) ^ (g.vertices.length - 1) := one_le_pow₀ (by linarith)
        have e1 : y ≤ (g.vertices.length - 1 : Nat) * ε * y := by nlinarith
        have e2 : (g.vertices.length - 1 : Nat) * ε * y ≤ (1 + ε) ^ (g.vertices.length - 1) * ((g.vertices.length - 1 : Nat) * ε * y) := by
          have : (0 : Rat) ≤ (g.vertices.length - 1 : Nat) * ε * y := by linarith
          nlinarith
        have e3 : (1 + ε) ^ (g.vertices.length - 1) * ((g.vertices.length - 1 : Nat) * ε * y) = ε * ((1 + ε) ^ (g.vertices.length - 1) * ((g.vertices.length - 1 : Nat) * y)) := by ring
        have e4 : (1 - ε) * x ≤ y := by
          rcases le_or_gt x 0 with hx0 | hx0
          · have : (1 - ε) * x ≤ 0 := mul_nonpos_of_nonneg_of_nonpos (by linarith) hx0
            linarith
          · nlinarith
        linarith
    · exact le_trans (mul_le_mul_of_nonneg_left hsum (le_of_lt hc)) (k4 q hq).2
  · exact .inr ⟨⟨N, hN⟩, fun q hq => (k1 q hq).1⟩

/-- **C153, partial**, with Python's floats: it is enough that there are at most `2^20` vertices and that no weight is more than `2^30` times another one. -/
theorem C153_double_partial {x : Rat} (hF : F.Binary64) {ord : SetOracle E} (hord : ord.Valid) (hg : g.Closed) (hs : s ∈ g.vertices)
    (hsrc : ∀ u ∈ g.vertices, ∀ e ∈ g.outEdges u, g.source e = u) (hW : ∀ u ∈ g.vertices, ∀ e ∈ g.outEdges u, F.mem (weight e).val)
    (hx : 0 < x) (hxy : ∀ u ∈ g.vertices, ∀ e ∈ g.outEdges u, x ≤ (weight e).val ∧ (weight e).val ≤ 2 ^ 30 * x) (hn : g.vertices.length ≤ 2 ^ 20)
    (dist : Dict V F.Num) (preds : Dict V (List E)) (hp : ∀ v, preds.getD v [] = []) :
    (∃ p, Returns (dijkstraShortestPath ord (F.args weight dflt) g s t dist preds) (.ok (some p)) ∧ IsPath g s p t ∧ (s :: p.map g.target).Nodup ∧
      ∀ q, IsPath g s q t → (1 - 1 / 2 ^ 33) ^ 2 * (p.map fun e => (weight e).val).sum ≤ (q.map fun e => (weight e).val).sum) ∨
    (Returns (dijkstraShortestPath ord (F.args weight dflt) g s t dist preds) (.ok none) ∧
      ∀ q, IsPath g s q t → (INFINITY : Rat) ≤ F.sumFrom 0 (q.map fun e => (weight e).val)) := by
  have hk : ((g.vertices.length - 1 : Nat) : Rat) ≤ 2 ^ 20 := by
    have : g.vertices.length - 1 ≤ 2 ^ 20 := by omega
    exact_mod_cast this
  have hk0 : (0 : Rat) ≤ ((g.vertices.length - 1 : Nat) : Rat) := Nat.cast_nonneg _
  have hW' : ∀ u ∈ g.vertices, ∀ e ∈ g.outEdges u, F.Weight (weight e) := fun u hu e he => ⟨hW u hu e he, le_trans (le_of_lt hx) (hxy u hu e he).1⟩
  have hpow : ((1 : Rat) + 1 / 2 ^ 53) ^ (g.vertices.length - 1) ≤ 2 := by
    have h1 := (pow_bounds (ε := 1 / 2 ^ 53) (by norm_num) (by norm_num) (g.vertices.length - 1)).2
    have h2 : (1 : Rat) / 2 ≤ 1 - ((g.vertices.length - 1 : Nat) : Rat) * (1 / 2 ^ 53) := by
      generalize ((g.vertices.length - 1 : Nat) : Rat) = K at hk
      norm_num at hk ⊢; linarith
    have h3 : (0 : Rat) ≤ ((1 : Rat) + 1 / 2 ^ 53) ^ (g.vertices.length - 1) := pow_nonneg (by norm_num) _
    nlinarith
  have hratio : (1 : Rat) / 2 ^ 53 * ((1 + 1 / 2 ^ 53) ^ (g.vertices.length - 1) * ((g.vertices.length - 1 : Nat) * (2 ^ 30 * x))) < (1 - 1 / 2 ^ 53) * x := by
    have h1 : ((g.vertices.length - 1 : Nat) : Rat) * (2 ^ 30 * x) ≤ 2 ^ 20 * (2 ^ 30 * x) := mul_le_mul_of_nonneg_right hk (by positivity)
    have h2 : ((1 : Rat) + 1 / 2 ^ 53) ^ (g.vertices.length - 1) * (((g.vertices.length - 1 : Nat) : Rat) * (2 ^ 30 * x)) ≤ 2 * (2 ^ 20 * (2 ^ 30 * x)) :=
      mul_le_mul hpow h1 (by positivity) (by norm_num)
    have h3 : (1 : Rat) / 2 ^ 53 * ((1 + 1 / 2 ^ 53) ^ (g.vertices.length - 1) * ((g.vertices.length - 1 : Nat) * (2 ^ 30 * x))) ≤ 1 / 2 ^ 53 * (2 * (2 ^ 20 * (2 ^ 30 * x))) :=
      mul_le_mul_of_nonneg_left h2 (by norm_num)
    norm_num at h3 ⊢
    linarith
  rcases C153_ratio_partial (dflt := dflt) (t := t) (precise_bits (p := 53) (by omega) hF) (by norm_num) (by norm_num) hord hg hs hsrc hW' hxy hratio dist preds hp
    with ⟨p, k1, k2, k3, _, k4⟩ | h
  · refine .inl ⟨p, k1, k2, k3, fun q hq => le_trans ?_ (k4 q hq).2⟩
    rw [← mul_assoc, sq]
    refine mul_le_mul_of_nonneg_right ?_ (FloatFormat.sum_nonneg fun w hw => (path_weights hg hs hW' k2 w hw).2)
    have : (1 : Rat) - 1 / 2 ^ 33 ≤ 1 - ((g.vertices.length - 1 : Nat) : Rat) * (1 / 2 ^ 53) := by
      generalize ((g.vertices.length - 1 : Nat) : Rat) = K at hk
      norm_num at hk ⊢; linarith
    exact mul_le_mul this this (by norm_num) (le_trans (by norm_num) this)
  · exact .inr h

/-- A case: `loopGraph`, every arc of which weighs 1. -/
example : ∃ F : FloatFormat, F.Binary64 ∧ ∃ w : F.Num, w.val = 1 ∧ ∃ p,
    Returns (dijkstraShortestPath reverseOrder (F.args (fun _ => w) w) loopGraph 0 3 [] []) (.ok (some p)) ∧ IsPath loopGraph 0 p 3 := by
  obtain ⟨F, hF⟩ := exists_format 53 1074
  have hm1 : F.mem 1 := (absorbed (p := 53) (by omega) hF).2.1
  refine ⟨F, hF, ⟨1, .inl hm1⟩, rfl, ?_⟩
  have hclosed : loopGraph.Closed := by
    intro u hu e he
    have : ∀ u ∈ loopGraph.vertices, ∀ e ∈ loopGraph.outEdges u, loopGraph.target e ∈ loopGraph.vertices := by decide
    exact this u hu e he
  have h3 : IsPath loopGraph 0 [⟨0, 1, 0⟩, ⟨1, 2, 0⟩, ⟨2, 3, 0⟩] 3 := .cons (by decide) (.cons (by decide) (.cons (by decide) (.nil _)))
  rcases C153_double_partial (F := F) (weight := fun _ => (⟨1, .inl hm1⟩ : F.Num)) (dflt := ⟨1, .inl hm1⟩) (g := loopGraph) (s := 0) (t := 3) (x := 1) hF
    (ord := reverseOrder) (fun _ l => List.reverse_perm l) hclosed (by decide) (by decide) (fun _ _ _ _ => hm1) (by norm_num)
    (fun _ _ _ _ => ⟨le_refl _, by norm_num⟩) (by decide) [] [] (fun _ => rfl) with ⟨p, k1, k2, _⟩ | ⟨_, k⟩
  · exact ⟨p, k1, k2⟩
  · exfalso
    have h4 := k _ h3
    have h5 := (F.sumFrom_error (precise_bits (p := 53) (by omega) hF) (by norm_num) (by norm_num)
      ([(⟨0, 1, 0⟩ : EdgeDesc Nat), ⟨1, 2, 0⟩, ⟨2, 3, 0⟩].map fun _ => (⟨1, .inl hm1⟩ : F.Num).val) 0 F.zero (le_refl _) (by
        intro w hw
        simp only [List.map_cons, List.map_nil, List.mem_cons, List.not_mem_nil, or_false, or_self] at hw
        subst hw
        exact ⟨hm1, by norm_num⟩)).2
    have h6 : (16 : Rat) < ((INFINITY : Int) : Rat) := by exact_mod_cast (by decide : (16 : Int) < INFINITY)
    have h7 := le_trans h4 h5
    simp only [List.map_cons, List.map_nil, List.sum_cons, List.sum_nil, List.length_cons, List.length_nil] at h7
    norm_num at h7
    linarith

/-- The weights of `loopGraph`: `2^54` for `0 → 1`, 1 for the other arcs. -/
def lostWeight (F : FloatFormat) (h : F.mem (2 ^ 54)) (h1 : F.mem 1) (e : EdgeDesc Nat) : F.Num := if e.source = 0 then ⟨2 ^ 54, .inl h⟩ else ⟨1, .inl h1⟩

/-- **C153 is false of the code**: with the weights `2^54` and 1, all of them positive, the sums `2^54 + 1` are rounded to `2^54`; the cycle `1 → 2 → 1` is made of
predecessor arcs, and `make_shortest_path` may turn around it for ever. -/
theorem C153_counterexample : ¬ C153_statement := by
  obtain ⟨F, hF⟩ := exists_format 53 1074
  obtain ⟨hm, hm1, hr⟩ := absorbed (p := 53) (by omega) hF
  have hm : F.mem (2 ^ 54) := hm
  have hr : F.rnd (2 ^ 54 + 1) = 2 ^ 54 := hr
  intro hst
  let W := lostWeight F hm hm1
  have hclosed : loopGraph.Closed := by
    intro u hu e he
    have : ∀ u ∈ loopGraph.vertices, ∀ e ∈ loopGraph.outEdges u, loopGraph.target e ∈ loopGraph.vertices := by decide
    exact this u hu e he
  have hsrc : ∀ u ∈ loopGraph.vertices, ∀ e ∈ loopGraph.outEdges u, loopGraph.source e = u := by decide
  have hpos : ∀ u ∈ loopGraph.vertices, ∀ e ∈ loopGraph.outEdges u, F.Weight (W e) ∧ 0 < (W e).val := by
    intro u _ e _
    show F.Weight (lostWeight F hm hm1 e) ∧ 0 < (lostWeight F hm hm1 e).val
    unfold lostWeight FloatFormat.Weight
    split
    · exact ⟨⟨hm, by norm_num⟩, by norm_num⟩
    · exact ⟨⟨hm1, by norm_num⟩, by norm_num⟩
  have hinf : (2 : Rat) ^ 54 < ((INFINITY : Int) : Rat) := by exact_mod_cast (by decide : (2 : Int) ^ 54 < INFINITY)
  let X : F.Num := ⟨2 ^ 54, .inl hm⟩
  have hX : X ≠ F.infNum := by
    intro h
    have : (2 : Rat) ^ 54 = ((INFINITY : Int) : Rat) := congrArg FloatFormat.Num.val h
    linarith
  -- the sums
  have hout : ∀ u ∈ loopGraph.vertices, ∀ e ∈ loopGraph.outEdges u, (u ≠ 0 → e.source ≠ 0) ∧ (u = 0 → e.source = 0) ∧ loopGraph.target e ≠ 0 := by decide
  have hstep : ∀ e : EdgeDesc Nat, e.source ≠ 0 → F.closedPlus X (W e) = X := by
    intro e he
    have hwe : (W e).val = 1 := by show (lostWeight F hm hm1 e).val = 1; unfold lostWeight; rw [if_neg he]
    have hwn : W e ≠ F.infNum := by
      intro h
      have h2 : (W e).val = ((INFINITY : Int) : Rat) := congrArg FloatFormat.Num.val h
      rw [hwe] at h2
      rw [← h2] at hinf
      norm_num at hinf
    refine F.val_inj ?_
    rw [F.plus_val hX hwn, hwe]
    exact hr
  have hzero : ∀ e : EdgeDesc Nat, e.source = 0 → F.closedPlus F.zeroNum (W e) = X := by
    intro e he
    have hwe : W e = X := by show lostWeight F hm hm1 e = X; unfold lostWeight; rw [if_pos he]
    have hzn : F.zeroNum ≠ F.infNum := by
      intro h
      have h2 : (0 : Rat) = ((INFINITY : Int) : Rat) := congrArg FloatFormat.Num.val h
      rw [← h2] at hinf
      norm_num at hinf
    rw [hwe]
    refine F.val_inj ?_
    rw [F.plus_val hzn hX]
    show F.rnd (0 + 2 ^ 54) = 2 ^ 54
    rw [zero_add]
    exact F.rnd_mem hm
  have hfold : ∀ {u v : Nat} {p : List (EdgeDesc Nat)}, IsPath loopGraph u p v → u ∈ loopGraph.vertices → u ≠ 0 → p.foldl (fun d e => F.closedPlus d (W e)) X = X := by
    intro u v p hp
    induction hp with
    | nil => intro _ _; rfl
    | @cons u v e p he _ ih =>
      intro hu hu0
      obtain ⟨k1, _, k3⟩ := hout u hu e he
      rw [List.foldl_cons, hstep e (k1 hu0)]
      exact ih (hclosed u hu e he) k3
  have h0v : 0 ∈ loopGraph.vertices := by decide
  have hpath : ∀ {v : Nat} {p : List (EdgeDesc Nat)}, IsPath loopGraph 0 p v → v ≠ 0 → pathWeight F.closedPlus F.zeroNum W p = X := by
    intro v p hp hv
    cases hp with
    | nil => exact absurd rfl hv
    | @cons _ _ e p he hp =>
      obtain ⟨_, k2, k3⟩ := hout 0 h0v e he
      show (e :: p).foldl (fun d e => F.closedPlus d (W e)) F.zeroNum = X
      rw [List.foldl_cons, hzero e (k2 rfl)]
      exact hfold hp (hclosed 0 h0v e he) k3
  have hW : ∀ u ∈ loopGraph.vertices, ∀ e ∈ loopGraph.outEdges u, F.Weight (W e) := fun u hu e he => (hpos u hu e he).1
  have hy : Hyp (F.args W F.zeroNum) loopGraph 0 := hyp_with (dflt := F.zeroNum) F.algebra hclosed h0v hW
  have h3 : IsPath loopGraph 0 [⟨0, 1, 0⟩, ⟨1, 2, 0⟩, ⟨2, 3, 0⟩] 3 := .cons (by decide) (.cons (by decide) (.cons (by decide) (.nil _)))
  have hlt3 : F.less (pathWeight F.closedPlus F.zeroNum W [⟨0, 1, 0⟩, ⟨1, 2, 0⟩, ⟨2, 3, 0⟩]) F.infNum = true := by
    rw [hpath h3 (by decide)]
    exact F.less_iff.mpr hinf
  obtain ⟨r, st, bs, hret, hb, hcase⟩ := run hy (fun u => decide (u = 3)) [] (preds := []) (fun _ => rfl)
  rcases hcase with ⟨rfl, i, hno⟩ | ⟨rfl, u, hu, i⟩
  · have := hb 3 (i.final hy hno _ 3 h3 hlt3).1
    simp at this
  have hu3 : u = 3 := by simpa using hu
  subst hu3
  have hdist : ∀ v, v ≠ 0 → (Open 0 st v ∨ v ∈ bs) → st.distOf (F.args W F.zeroNum) v = X := by
    intro v hv hd
    obtain ⟨_, p, k1, k2⟩ := i.disc v hd
    exact k2.symm.trans (hpath k1 hv)
  -- the predecessor arcs
  have hpre : ∀ v, v ≠ 0 → (Open 0 st v ∨ v ∈ bs) → ∃ b e, b ∈ bs ∧ e ∈ loopGraph.outEdges b ∧ loopGraph.target e = v ∧ e ∈ st.preds.getD v [] := by
    intro v hv hd
    obtain ⟨e, he⟩ := List.exists_mem_of_ne_nil _ (i.predsNe v hd hv)
    obtain ⟨b, k1, k2, _⟩ := (i.preds v e).mp he
    rcases k1 with ⟨k1, k4⟩ | ⟨_, k1⟩
    · exact ⟨b, e, k1, k4, k2, he⟩
    · cases k1
  have hin : ∀ b ∈ loopGraph.vertices, ∀ e ∈ loopGraph.outEdges b, (loopGraph.target e = 3 → b = 2 ∧ e = ⟨2, 3, 0⟩) ∧ (loopGraph.target e = 2 → b = 1 ∧ e = ⟨1, 2, 0⟩) := by decide
  obtain ⟨b, e, p1, p2, p3, p4⟩ := hpre 3 (by decide) (.inl (i.curOk 3 rfl))
  obtain ⟨rfl, rfl⟩ := (hin b (i.sub b p1) e p2).1 p3
  obtain ⟨b, e, q1, q2, q3, q4⟩ := hpre 2 (by decide) (.inr p1)
  obtain ⟨rfl, rfl⟩ := (hin b (i.sub b q1) e q2).2 q3
  have hback : (⟨2, 1, 0⟩ : EdgeDesc Nat) ∈ st.preds.getD 1 [] := by
    refine (i.preds 1 ⟨2, 1, 0⟩).mpr ⟨2, .inl ⟨p1, by decide⟩, by decide, ?_⟩
    rw [hdist 2 (by decide) (.inr p1), hdist 1 (by decide) (.inr q1)]
    exact hstep ⟨2, 1, 0⟩ (by decide)
  have hcycle : TrailCycle loopGraph 0 (st.preds.getD · []) 3 := by
    have t1 : Trail loopGraph 0 (st.preds.getD · []) 3 2 [⟨2, 3, 0⟩] := Trail.cons (g := loopGraph) (s := 0) (u := 3) (e := (⟨2, 3, 0⟩ : EdgeDesc Nat)) .nil (by decide) p4
    have t2 : Trail loopGraph 0 (st.preds.getD · []) 2 1 [⟨1, 2, 0⟩] := Trail.cons (g := loopGraph) (s := 0) (u := 2) (e := (⟨1, 2, 0⟩ : EdgeDesc Nat)) .nil (by decide) q4
    have t3 : Trail loopGraph 0 (st.preds.getD · []) 2 2 [⟨2, 1, 0⟩, ⟨1, 2, 0⟩] := Trail.cons (g := loopGraph) (s := 0) (u := 1) (e := (⟨2, 1, 0⟩ : EdgeDesc Nat)) t2 (by decide) hback
    exact ⟨2, _, _, t1, t3, by simp⟩
  obtain ⟨f, hf, hdiv⟩ := (C62_results loopGraph 0 3 st.preds).2 hcycle
  have hsum : F.sumFrom 0 ([⟨0, 1, 0⟩, ⟨1, 2, 0⟩, ⟨2, 3, 0⟩].map fun e => (W e).val) < (INFINITY : Rat) :=
    (F.pathWeight_eq W _ (path_edges hclosed hW h3 h0v)).1.mp (F.less_iff.mp hlt3)
  obtain ⟨p, ⟨N, hN⟩, _⟩ := hst F (fun _ => f) loopGraph W F.zeroNum 0 3 hF hf hclosed h0v (by decide) hsrc hpos ⟨_, h3, hsum⟩
  obtain ⟨M, hM⟩ := hret
  have h5 := hN (max N M) (Nat.le_max_left _ _)
  unfold dijkstraShortestPath at h5
  rw [hM (max N M) (Nat.le_max_right _ _)] at h5
  simp only [hdiv (max N M)] at h5
  cases h5

end PyBGL
