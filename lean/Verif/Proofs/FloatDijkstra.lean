import Verif.Proofs.FloatWeights
import Verif.Props.C62_Ends

/-!
# Errors of the distances that are floating-point numbers, walks along their predecessor arcs
-/

namespace PyBGL
open Dijkstra
variable {V E : Type} [DecidableEq V] [DecidableEq E]

namespace FloatFormat
variable {F : FloatFormat} {g : GraphI V E} {s t : V} {weight : E → F.Num} {dflt : F.Num}

omit [DecidableEq V] [DecidableEq E] in
theorem hyp_none (hg : g.Closed) (hs : s ∈ g.vertices) (hW : ∀ u ∈ g.vertices, ∀ e ∈ g.outEdges u, F.Weight (weight e)) : Hyp (F.argsNone weight dflt) g s := by
  refine ⟨F.algebra.imp (by rintro w ⟨u, hu, e, he, rfl⟩; exact hW u hu e he), ?_, hg, hs⟩
  refine ⟨?_, ?_, ?_, ?_, ?_⟩
  · intro x; exact F.less_false.mpr (le_refl _)
  · intro x y z h1 h2
    exact F.less_false.mpr (le_trans (F.less_false.mp h1) (F.less_false.mp h2))
  · intro x y h; exact F.less_false.mpr (le_of_lt (F.less_iff.mp h))
  · intro x y h; exact h
  · intro x y h
    have h : x = y := by simpa [argsNone] using h
    subst h
    exact ⟨F.less_false.mpr (le_refl _), F.less_false.mpr (le_refl _)⟩

/-- From the values that `combine` computes to the rounded sums. -/
theorem best_sum (hg : g.Closed) (hs : s ∈ g.vertices) (hW : ∀ u ∈ g.vertices, ∀ e ∈ g.outEdges u, F.Weight (weight e)) {v : V} {d : F.Num}
    (h : IsBest F.less F.infNum (fun d => ∃ p, IsPath g s p v ∧ pathWeight F.closedPlus F.zeroNum weight p = d) d) :
    IsBest (fun x y => decide (x < y)) (INFINITY : Rat) (fun d => ∃ p, IsPath g s p v ∧ F.sumFrom 0 (p.map fun e => (weight e).val) = d) d.val := by
  have key : ∀ p, IsPath g s p v → _ := fun p hp => F.pathWeight_eq weight p (path_edges hg hW hp hs)
  rcases h with ⟨⟨p, h1, rfl⟩, h2, h3⟩ | ⟨rfl, h2⟩
  · have h2 := F.less_iff.mp h2
    obtain ⟨k1, k2⟩ := key p h1
    refine .inl ⟨⟨p, h1, (k2 (k1.mp h2)).symm⟩, decide_eq_true h2, ?_⟩
    rintro w ⟨q, hq, rfl⟩
    have h4 := F.less_false.mp (h3 _ ⟨q, hq, rfl⟩)
    obtain ⟨j1, j2⟩ := key q hq
    rw [decide_eq_false_iff_not, not_lt]
    rcases lt_or_ge (F.sumFrom 0 (q.map fun e => (weight e).val)) (INFINITY : Rat) with h5 | h5
    · rwa [j2 h5] at h4
    · exact le_trans (le_of_lt h2) h5
  · refine .inr ⟨rfl, ?_⟩
    rintro w ⟨q, hq, rfl⟩
    have h4 := F.less_false.mp (h2 _ ⟨q, hq, rfl⟩)
    obtain ⟨j1, j2⟩ := key q hq
    rw [decide_eq_false_iff_not]
    intro h5
    exact absurd (j1.mpr h5) (not_lt.mpr h4)

/-- Powers close to 1. -/
theorem pow_bounds {ε : Rat} (h0 : 0 ≤ ε) (h1 : ε ≤ 1) (k : Nat) : 1 - k * ε ≤ (1 - ε) ^ k ∧ (1 + ε) ^ k * (1 - k * ε) ≤ 1 := by
  induction k with
  | zero => simp
  | succ k ih =>
    obtain ⟨i1, i2⟩ := ih
    have hk : (0 : Rat) ≤ k := Nat.cast_nonneg k
    rw [pow_succ, pow_succ]
    push_cast
    constructor
    · have := mul_le_mul_of_nonneg_right i1 (show 0 ≤ 1 - ε by linarith)
      refine le_trans ?_ this
      nlinarith [mul_nonneg hk (mul_nonneg h0 h0)]
    · have hp : (0 : Rat) ≤ (1 + ε) ^ k := pow_nonneg (by linarith) k
      refine le_trans ?_ i2
      rw [mul_assoc]
      refine mul_le_mul_of_nonneg_left ?_ hp
      nlinarith [mul_nonneg hk (mul_nonneg h0 h0)]

/-- The errors of the sums over at most `k` weights. -/
theorem sum_errors {ε : Rat} (hF : F.Precise ε) (h0 : 0 ≤ ε) (h1 : ε ≤ 1) {l : List Rat} (hl : ∀ w ∈ l, F.mem w ∧ 0 ≤ w) {k : Nat} (hk : l.length ≤ k) :
    (1 - k * ε) * l.sum ≤ F.sumFrom 0 l ∧ (1 - k * ε) * F.sumFrom 0 l ≤ l.sum := by
  have hs : 0 ≤ l.sum := sum_nonneg fun w h => (hl w h).2
  have hr : 0 ≤ F.sumFrom 0 l := (F.sumFrom_le 0 F.zero l fun w h => (hl w h).2).1
  have hkr : (l.length : Rat) ≤ k := by exact_mod_cast hk
  have hke : (l.length : Rat) * ε ≤ k * ε := mul_le_mul_of_nonneg_right hkr h0
  obtain ⟨e1, e2⟩ := F.sumFrom_error hF h0 h1 l 0 F.zero (le_refl _) hl
  rw [zero_add] at e1 e2
  obtain ⟨b1, b2⟩ := pow_bounds h0 h1 l.length
  constructor
  · exact le_trans (mul_le_mul_of_nonneg_right (by linarith) hs) e1
  · rcases le_or_gt (1 - (l.length : Rat) * ε) 0 with hc | hc
    · have : (1 - k * ε) * F.sumFrom 0 l ≤ 0 := mul_nonpos_of_nonpos_of_nonneg (by linarith) hr
      linarith
    · calc (1 - k * ε) * F.sumFrom 0 l ≤ (1 - l.length * ε) * F.sumFrom 0 l := mul_le_mul_of_nonneg_right (by linarith) hr
        _ ≤ (1 - l.length * ε) * ((1 + ε) ^ l.length * l.sum) := mul_le_mul_of_nonneg_left e2 (le_of_lt hc)
        _ = ((1 + ε) ^ l.length * (1 - l.length * ε)) * l.sum := by ring
        _ ≤ 1 * l.sum := mul_le_mul_of_nonneg_right b2 hs
        _ = l.sum := one_mul _

theorem path_weights (hg : g.Closed) (hs : s ∈ g.vertices) (hW : ∀ u ∈ g.vertices, ∀ e ∈ g.outEdges u, F.Weight (weight e)) {v : V} {p : List E} (hp : IsPath g s p v) :
    ∀ w ∈ p.map fun e => (weight e).val, F.mem w ∧ 0 ≤ w := by
  intro w hw
  obtain ⟨e, he, rfl⟩ := List.mem_map.mp hw
  exact path_edges hg hW hp hs e he

/-- The least rounded sum is close to the least sum. -/
theorem best_error {ε : Rat} (hF : F.Precise ε) (h0 : 0 ≤ ε) (h1 : ε ≤ 1) (hg : g.Closed) (hs : s ∈ g.vertices)
    (hW : ∀ u ∈ g.vertices, ∀ e ∈ g.outEdges u, F.Weight (weight e)) {v : V} {d : Rat}
    (h : IsBest (fun x y => decide (x < y)) (INFINITY : Rat) (fun d => ∃ p, IsPath g s p v ∧ F.sumFrom 0 (p.map fun e => (weight e).val) = d) d) :
    d ≤ (INFINITY : Rat) ∧
    (d < (INFINITY : Rat) → ∃ p, IsPath g s p v ∧ (1 - (g.vertices.length - 1 : Nat) * ε) * (p.map fun e => (weight e).val).sum ≤ d) ∧
    ∀ q, IsPath g s q v → (1 - (g.vertices.length - 1 : Nat) * ε) * d ≤ (q.map fun e => (weight e).val).sum := by
  have hlow : ∀ q, IsPath g s q v → ∃ q', IsPath g s q' v ∧ q'.length ≤ g.vertices.length - 1 ∧
      F.sumFrom 0 (q'.map fun e => (weight e).val) ≤ F.sumFrom 0 (q.map fun e => (weight e).val) ∧ (q'.map fun e => (weight e).val).sum ≤ (q.map fun e => (weight e).val).sum := by
    intro q hq
    obtain ⟨q', k1, k2, k3⟩ := hq.short hg hs
    have hn := fun w hw => (path_weights hg hs hW hq w hw).2
    exact ⟨q', k2, k3, F.sumFrom_sublist (k1.map _) hn F.zero, sum_sublist (k1.map _) hn⟩
  have hd0 : 0 ≤ d := by
    rcases h with ⟨⟨p, hp, rfl⟩, _⟩ | ⟨rfl, _⟩
    · exact (F.sumFrom_le 0 F.zero _ fun w hw => (path_weights hg hs hW hp w hw).2).1
    · exact_mod_cast (by decide : (0 : Int) ≤ INFINITY)
  have hle : ∀ q, IsPath g s q v → d ≤ F.sumFrom 0 (q.map fun e => (weight e).val) := by
    intro q hq
    rcases h with ⟨_, _, h3⟩ | ⟨rfl, h3⟩
    · simpa using h3 _ ⟨q, hq, rfl⟩
    · simpa using h3 _ ⟨q, hq, rfl⟩
  refine ⟨?_, ?_, ?_⟩
  · rcases h with ⟨_, h2, _⟩ | ⟨rfl, _⟩
    · exact le_of_lt (by simpa using h2)
    · exact le_refl _
  · intro hlt
    rcases h with ⟨⟨p, hp, rfl⟩, _, h3⟩ | ⟨rfl, _⟩
    · obtain ⟨p', k1, k2, k3, _⟩ := hlow p hp
      refine ⟨p', k1, le_trans ?_ k3⟩
      exact (sum_errors hF h0 h1 (path_weights hg hs hW k1) (by simpa using k2)).1
    · exact absurd hlt (lt_irrefl _)
  · intro q hq
    obtain ⟨q', k1, k2, _, k4⟩ := hlow q hq
    refine le_trans ?_ k4
    have he := (sum_errors hF h0 h1 (path_weights hg hs hW k1) (k := g.vertices.length - 1) (by simpa using k2)).2
    rcases le_or_gt (1 - ((g.vertices.length - 1 : Nat) : Rat) * ε) 0 with hc | hc
    · have h5 := mul_nonpos_of_nonpos_of_nonneg hc hd0
      have h6 := sum_nonneg fun w hw => (path_weights hg hs hW k1 w hw).2
      linarith
    · exact le_trans (mul_le_mul_of_nonneg_left (hle q' k1) (le_of_lt hc)) he

section
variable {bs : List V} {cur : Option V} {st : DijkstraState V E F.Num}

/-- The distance of a finished vertex is at most the rounded sum along any path. -/
theorem black_le (hg : g.Closed) (hs : s ∈ g.vertices) (hW : ∀ u ∈ g.vertices, ∀ e ∈ g.outEdges u, F.Weight (weight e))
    (i : Inv (F.args weight dflt) g s bs cur [] st) {b : V} (hb : b ∈ bs) {q : List E} (hq : IsPath g s q b) :
    (st.dist.getD b dflt).val ≤ F.sumFrom 0 (q.map fun e => (weight e).val) := by
  have hy : Hyp (F.args weight dflt) g s := hyp_with (dflt := dflt) F.algebra hg hs hW
  obtain ⟨k1, k2⟩ := F.pathWeight_eq weight q (path_edges hg hW hq hs)
  have hinf : (st.dist.getD b dflt).val < (INFINITY : Rat) := F.less_iff.mp (i.disc b (.inr hb)).1
  rcases lt_or_ge (F.sumFrom 0 (q.map fun e => (weight e).val)) (INFINITY : Rat) with h | h
  · rw [← k2 h]
    rcases i.lower hy q b hq (F.less_iff.mpr (k1.mpr h)) with ⟨_, h2⟩ | ⟨y, h1, h2⟩
    · exact F.less_false.mp h2
    · exact le_trans (F.less_false.mp (i.mono b hb y h1)) (F.less_false.mp h2)
  · linarith

/-- No addition of a weight between `x` and `y` to a distance is lost, if `y / x` is not too large. -/
theorem strict_pred {ε x y : Rat} (hF : F.Precise ε) (h0 : 0 ≤ ε) (h1 : ε ≤ 1) (hg : g.Closed) (hs : s ∈ g.vertices)
    (hW : ∀ u ∈ g.vertices, ∀ e ∈ g.outEdges u, F.Weight (weight e)) (hsrc : ∀ u ∈ g.vertices, ∀ e ∈ g.outEdges u, g.source e = u)
    (hx : ∀ u ∈ g.vertices, ∀ e ∈ g.outEdges u, x ≤ (weight e).val ∧ (weight e).val ≤ y)
    (hr : ε * ((1 + ε) ^ (g.vertices.length - 1) * ((g.vertices.length - 1 : Nat) * y)) < (1 - ε) * x)
    (i : Inv (F.args weight dflt) g s bs cur [] st) {v : V} (hv : Open s st v ∨ v ∈ bs) {e : E} (he : e ∈ st.preds.getD v []) :
    g.source e ∈ bs ∧ e ∈ g.outEdges (g.source e) ∧ g.target e = v ∧ (st.dist.getD (g.source e) dflt).val < (st.dist.getD v dflt).val := by
  obtain ⟨b, k1, k2, k3⟩ := (i.preds v e).mp he
  rcases k1 with ⟨k1, k4⟩ | ⟨_, k1⟩
  · have hbv := i.sub b k1
    have hsb := hsrc b hbv e k4
    rw [hsb]
    refine ⟨k1, k4, k2, ?_⟩
    have hvi : (st.dist.getD v dflt).val < (INFINITY : Rat) := F.less_iff.mp (i.disc v hv).1
    have k3 : F.closedPlus (st.dist.getD b dflt) (weight e) = st.dist.getD v dflt := k3
    by_cases hinf : st.dist.getD b dflt = F.infNum ∨ weight e = F.infNum
    · rw [F.plus_inf hinf] at k3
      rw [← k3] at hvi
      exact absurd hvi (lt_irrefl _)
    · rw [not_or] at hinf
      rw [← k3, F.plus_val hinf.1 hinf.2]
      obtain ⟨hw, hw0⟩ := hW b hbv e k4
      obtain ⟨hxe, hye⟩ := hx b hbv e k4
      have hbm := F.mem_of_ne hinf.1
      obtain ⟨hbi, p, hp, hpw⟩ := i.disc b (.inr k1)
      obtain ⟨p', m1, m2, m3⟩ := hp.short hg hs
      have hup := black_le hg hs hW i k1 m2
      have hb0 : 0 ≤ (st.dist.getD b dflt).val := by
        obtain ⟨j1, j2⟩ := F.pathWeight_eq weight p (path_edges hg hW hp hs)
        have hpw : pathWeight F.closedPlus F.zeroNum weight p = st.dist.getD b dflt := hpw
        have hbi : (st.dist.getD b dflt).val < (INFINITY : Rat) := F.less_iff.mp hbi
        rw [hpw] at j1 j2
        rw [j2 (j1.mp hbi)]
        exact (F.sumFrom_le 0 F.zero _ fun w hw => (path_weights hg hs hW hp w hw).2).1
      have hy0 : 0 ≤ y := le_trans hw0 hye
      have hsum : (p'.map fun e => (weight e).val).sum ≤ (g.vertices.length - 1 : Nat) * y := by
        have h2 : (p'.map fun e => (weight e).val).sum ≤ p'.length * y := by
          have hle := path_edges (P := fun e => (weight e).val ≤ y) hg (fun u hu e he => (hx u hu e he).2) m2 hs
          clear m1 m2 m3 hup
          induction p' with
          | nil => simp
          | cons f p' ih =>
            have h3 := ih fun e he => hle e (by simp [he])
            have h4 := hle f (by simp)
            simp only [List.map_cons, List.sum_cons, List.length_cons]
            push_cast
            linarith
        refine le_trans h2 (mul_le_mul_of_nonneg_right ?_ hy0)
        exact_mod_cast m3
      have herr := (F.sumFrom_error hF h0 h1 _ 0 F.zero (le_refl _) (path_weights hg hs hW m2)).2
      rw [zero_add, List.length_map] at herr
      have hpow : (1 + ε) ^ p'.length ≤ (1 + ε) ^ (g.vertices.length - 1) := pow_le_pow_right₀ (by linarith) m3
      have hs0 : 0 ≤ (p'.map fun e => (weight e).val).sum := sum_nonneg fun w hw => (path_weights hg hs hW m2 w hw).2
      have hb : (st.dist.getD b dflt).val ≤ (1 + ε) ^ (g.vertices.length - 1) * ((g.vertices.length - 1 : Nat) * y) := by
        refine le_trans hup (le_trans herr ?_)
        exact mul_le_mul hpow hsum hs0 (pow_nonneg (by linarith) _)
      have hprec := (abs_le.mp (hF _ _ hbm hw hb0 hw0)).1
      have h2 : ε * (st.dist.getD b dflt).val ≤ ε * ((1 + ε) ^ (g.vertices.length - 1) * ((g.vertices.length - 1 : Nat) * y)) := mul_le_mul_of_nonneg_left hb h0
      have h3 : (1 - ε) * x ≤ (1 - ε) * (weight e).val := mul_le_mul_of_nonneg_left hxe (by linarith)
      nlinarith
  · cases k1

omit [DecidableEq E] in
/-- Walking back along such arcs. -/
theorem strict_trail
    (hpred : ∀ v e, (Open s st v ∨ v ∈ bs) → e ∈ st.preds.getD v [] →
      g.source e ∈ bs ∧ e ∈ g.outEdges (g.source e) ∧ g.target e = v ∧ (st.dist.getD (g.source e) dflt).val < (st.dist.getD v dflt).val)
    {v u : V} {p : List E} (h : Trail g s (st.preds.getD · []) v u p) (hv : Open s st v ∨ v ∈ bs) :
    IsPath g u p v ∧ (Open s st u ∨ u ∈ bs) ∧ (p ≠ [] → (st.dist.getD u dflt).val < (st.dist.getD v dflt).val) ∧
      (u :: p.map g.target).Pairwise fun a b => (st.dist.getD a dflt).val < (st.dist.getD b dflt).val := by
  induction h with
  | nil => exact ⟨.nil _, hv, fun h => absurd rfl h, by simp⟩
  | @cons u p e _ hu he ih =>
    obtain ⟨h1, h2, h3, h4⟩ := ih
    obtain ⟨k1, k2, k3, k4⟩ := hpred u e h2 he
    refine ⟨.cons k2 (by rw [k3]; exact h1), .inr k1, fun _ => ?_, ?_⟩
    · by_cases hp : p = []
      · subst hp; cases h1; exact k4
      · exact lt_trans k4 (h3 hp)
    · rw [List.map_cons, k3]
      refine List.pairwise_cons.mpr ⟨?_, h4⟩
      intro a ha
      rcases List.mem_cons.mp ha with rfl | ha
      · exact k4
      · exact lt_trans k4 ((List.pairwise_cons.mp h4).1 a ha)

end

end FloatFormat
end PyBGL
