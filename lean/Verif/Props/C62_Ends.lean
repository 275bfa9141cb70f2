import Verif.Proofs.MakePath
import Verif.Props.C60_C64_Dijkstra

/-!
# C62: when `make_shortest_path` and `dijkstra_shortest_path` end

C62 is false of the code because `make_shortest_path` may turn around a cycle for ever. Here is exactly when.
-/

namespace PyBGL
open Dijkstra
variable {V E : Type} [DecidableEq V] [DecidableEq E] {g : GraphI V E} {s t : V}

/-- **C62** (`make_shortest_path`, any predecessor map): it ends whatever the order in which sets are listed if and only if, walking back from `t` along predecessor
arcs without going beyond `s`, one never turns around a cycle. -/
theorem C62_ends_exact (g : GraphI V E) (s t : V) (preds : Dict V (List E)) :
    (∀ ord : SetOracle E, ord.Valid → ∃ r, Returns (makeShortestPath ord g s t preds) r) ↔ ¬ TrailCycle g s (preds.getD · []) t := by
  constructor
  · intro h hc
    obtain ⟨f, h1, h2⟩ := makePath_diverges hc
    obtain ⟨r, N, hN⟩ := h _ h1
    have := hN N (Nat.le_refl N)
    rw [h2 N] at this
    cases this
  · intro hc ord hord
    exact makePath_ends hc hord

/-- **C62** (`make_shortest_path`, any predecessor map): the only results are a chain of predecessor arcs from `s` to `t`, and `IndexError` if the walk comes to a vertex
without predecessor. If there is a cycle, some order of the sets, the same at every moment, makes it turn for ever. -/
theorem C62_results (g : GraphI V E) (s t : V) (preds : Dict V (List E)) :
    (∀ (ord : SetOracle E) r, ord.Valid → Returns (makeShortestPath ord g s t preds) r →
      (∃ p, r = .ok p ∧ Trail g s (preds.getD · []) t s p) ∨
      (r = .error .indexError ∧ ∃ u p, Trail g s (preds.getD · []) t u p ∧ u ≠ s ∧ preds.getD u [] = [])) ∧
    (TrailCycle g s (preds.getD · []) t →
      ∃ f : List E → List E, SetOracle.Valid (fun _ => f) ∧ Diverges (makeShortestPath (fun _ => f) g s t preds)) :=
  ⟨fun _ _ hord ⟨N, hN⟩ => makePath_result hord (hN N (Nat.le_refl N)), makePath_diverges⟩

namespace Dijkstra

theorem fold_plus {weight : E → Int} (p : List E) : (∀ e ∈ p, 0 ≤ weight e) → ∀ x : Int,
    INFINITY ≤ p.foldl (fun d e => closedPlus INFINITY d (weight e)) x ∨ p.foldl (fun d e => closedPlus INFINITY d (weight e)) x = x + (p.map weight).sum := by
  induction p with
  | nil => intro _ x; right; simp
  | cons e p ih =>
    intro h x
    have he := h e (by simp)
    rw [List.foldl_cons, List.map_cons, List.sum_cons]
    have hnn := (pathWeight_plus weight p fun e' he' => h e' (by simp [he'])).1
    rcases ih (fun e' he' => h e' (by simp [he'])) (closedPlus INFINITY x (weight e)) with h1 | h1
    · exact .inl h1
    · rw [h1]
      unfold closedPlus closedOperator
      dsimp only
      split
      · left; omega
      · right; omega

variable {weight : E → Int} {dflt : Int} {bs : List V} {cur : Option V} {st : DijkstraState V E Int}

theorem known (hg : g.Closed) (hs : s ∈ g.vertices) (hW : ∀ u ∈ g.vertices, ∀ e ∈ g.outEdges u, 0 ≤ weight e)
    (i : Inv (argsLess weight dflt) g s bs cur [] st) {v : V} (hv : Open s st v ∨ v ∈ bs) :
    0 ≤ st.dist.getD v dflt ∧ st.dist.getD v dflt < INFINITY ∧ ∃ q, IsPath g s q v ∧ (q.map weight).sum = st.dist.getD v dflt := by
  obtain ⟨h1, q, h2, h3⟩ := i.disc v hv
  have h1 : st.dist.getD v dflt < INFINITY := by simpa [argsLess, argsWith, less, DijkstraState.distOf] using h1
  have h3 : pathWeight (closedPlus INFINITY) 0 weight q = st.dist.getD v dflt := h3
  obtain ⟨k1, k2, k3⟩ := pathWeight_plus weight q (path_edges hg hW h2 hs)
  rw [h3] at k2 k3
  have := k3 (k2.mp h1)
  exact ⟨by omega, h1, q, h2, this.symm⟩

/-- A vertex reached by a path shorter than the distance of `t` is finished. -/
theorem nearer (hg : g.Closed) (hs : s ∈ g.vertices) (hW : ∀ u ∈ g.vertices, ∀ e ∈ g.outEdges u, 0 ≤ weight e)
    (i : Inv (argsLess weight dflt) g s bs (some t) [] st) {v : V} {q : List E} (hq : IsPath g s q v) (hlt : (q.map weight).sum < st.dist.getD t dflt) :
    v ∈ bs ∧ st.dist.getD v dflt ≤ (q.map weight).sum := by
  have hy : Hyp (argsLess weight dflt) g s := hyp_with (dflt := dflt) plusAlgebra hg hs hW
  obtain ⟨_, hti, _⟩ := known hg hs hW i (.inl (i.curOk t rfl))
  obtain ⟨k1, k2, k3⟩ := pathWeight_plus weight q (path_edges hg hW hq hs)
  have k4 := k3 (by omega)
  have hw : pathWeight (argsLess weight dflt).combine (argsLess weight dflt).zero (argsLess weight dflt).weight q = (q.map weight).sum := k4
  rcases i.lower hy q v hq (by rw [hw]; simp [argsLess, argsWith, less]; omega) with ⟨h1, h2⟩ | ⟨y, h1, h2⟩
  · rw [hw] at h2
    exact ⟨h1, by simpa [Le, argsLess, argsWith, less, DijkstraState.distOf] using h2⟩
  · have h3 := i.curMono t rfl y h1
    rw [hw] at h2
    simp [Le, argsLess, argsWith, less, DijkstraState.distOf] at h2 h3
    omega

/-- The distance of `t` is the least weight of a path. -/
theorem least (hg : g.Closed) (hs : s ∈ g.vertices) (hW : ∀ u ∈ g.vertices, ∀ e ∈ g.outEdges u, 0 ≤ weight e)
    (i : Inv (argsLess weight dflt) g s bs (some t) [] st) {r : List E} (hr : IsPath g s r t) : st.dist.getD t dflt ≤ (r.map weight).sum := by
  by_contra hlt
  exact i.open_not_black (i.curOk t rfl) (nearer hg hs hW i hr (by omega)).1

omit [DecidableEq E] in
theorem trail_path (hsrc : ∀ u ∈ g.vertices, ∀ e ∈ g.outEdges u, g.source e = u)
    (i : Inv (argsLess weight dflt) g s bs cur [] st) {v u : V} {p : List E} (h : Trail g s (st.preds.getD · []) v u p) (hv : Open s st v ∨ v ∈ bs) :
    IsPath g u p v ∧ (Open s st u ∨ u ∈ bs) ∧ (∀ e ∈ p, g.target e ≠ s) ∧
      p.foldl (fun d e => closedPlus INFINITY d (weight e)) (st.dist.getD u dflt) = st.dist.getD v dflt := by
  induction h with
  | nil => exact ⟨.nil _, hv, by simp, rfl⟩
  | @cons u p e _ hu he ih =>
    obtain ⟨h1, h2, h3, h4⟩ := ih
    obtain ⟨b, k1, k2, k3⟩ := (i.preds u e).mp he
    rcases k1 with ⟨k1, k4⟩ | ⟨_, k1⟩
    · have hb : g.source e = b := hsrc b (i.sub b k1) e k4
      refine ⟨?_, .inr (hb ▸ k1), ?_, ?_⟩
      · rw [hb]; exact .cons k4 (k2 ▸ h1)
      · intro x hx
        rcases List.mem_cons.mp hx with rfl | hx
        · rw [k2]; exact hu
        · exact h3 x hx
      · rw [List.foldl_cons, hb]
        have k3 : closedPlus INFINITY (st.dist.getD b dflt) (weight e) = st.dist.getD u dflt := k3
        rw [k3]
        exact h4
    · cases k1

omit [DecidableEq V] [DecidableEq E] in
theorem path_trail (hg : g.Closed) (hsrc : ∀ u ∈ g.vertices, ∀ e ∈ g.outEdges u, g.source e = u) {f : V → List E} {v u : V} {p : List E} (h : IsPath g u p v)
    (hu : u ∈ g.vertices) (hp : ∀ e ∈ p, g.target e ≠ s ∧ e ∈ f (g.target e)) : Trail g s f v u p := by
  induction h with
  | nil => exact .nil
  | @cons u v e p he _ ih =>
    have h1 := ih (hg _ hu _ he) fun x hx => hp x (by simp [hx])
    obtain ⟨h2, h3⟩ := hp e (by simp)
    have := Trail.cons h1 h2 h3
    rwa [hsrc u hu e he] at this

/-- The arcs of a shortest path are predecessor arcs, as long as they start before the distance of `t`. -/
theorem arc_pred (hg : g.Closed) (hs : s ∈ g.vertices) (hW : ∀ u ∈ g.vertices, ∀ e ∈ g.outEdges u, 0 ≤ weight e)
    (i : Inv (argsLess weight dflt) g s bs (some t) [] st) {P₁ P₂ : List E} {x : E} (hP : IsPath g s (P₁ ++ x :: P₂) t)
    (hsum : ((P₁ ++ x :: P₂).map weight).sum = st.dist.getD t dflt) (h1 : (P₁.map weight).sum < st.dist.getD t dflt)
    (h2 : P₂ = [] ∨ (P₁.map weight).sum + weight x < st.dist.getD t dflt) : x ∈ st.preds.getD (g.target x) [] := by
  obtain ⟨_, hti, _⟩ := known hg hs hW i (.inl (i.curOk t rfl))
  obtain ⟨v, k1, k2⟩ := isPath_append_iff.mp hP
  cases k2 with
  | cons he k2 =>
    simp only [List.map_append, List.map_cons, List.sum_append, List.sum_cons] at hsum
    obtain ⟨hvb, hv⟩ := nearer hg hs hW i k1 h1
    obtain ⟨hv0, hvi, q, hq, hqs⟩ := known hg hs hW i (v := v) (.inr hvb)
    have hv2 := least hg hs hW i (hq.append (.cons he k2))
    simp only [List.map_append, List.map_cons, List.sum_append, List.sum_cons] at hv2
    have hwx : 0 ≤ weight x := hW v (i.sub v hvb) x he
    have hP₂ := (pathWeight_plus weight P₂ (path_edges hg hW k2 (hg _ (i.sub v hvb) _ he))).1
    have htx : st.dist.getD (g.target x) dflt = (P₁.map weight).sum + weight x := by
      rcases h2 with rfl | h2
      · cases k2
        simp at hsum
        omega
      · have hp : IsPath g s (P₁ ++ [x]) (g.target x) := k1.snoc he
        obtain ⟨hxb, hx⟩ := nearer hg hs hW i hp (by simpa using h2)
        obtain ⟨_, _, q', hq', hqs'⟩ := known hg hs hW i (v := g.target x) (.inr hxb)
        have := least hg hs hW i (hq'.append k2)
        simp only [List.map_append, List.sum_append, List.map_cons, List.map_nil, List.sum_cons, List.sum_nil] at this hx
        omega
    refine (i.preds (g.target x) x).mpr ⟨v, .inl ⟨hvb, he⟩, rfl, ?_⟩
    show closedPlus INFINITY (st.dist.getD v dflt) (weight x) = st.dist.getD (g.target x) dflt
    rw [htx]
    unfold closedPlus closedOperator
    rw [if_neg (by omega)]
    dsimp only
    omega

end Dijkstra

/-- **C62, partial** (missing: cycles of weight 0 on a shortest path towards `t`): with non-negative weights, unless a cycle of weight 0 is attached to a shortest path
from `s` to `t`, `dijkstra_shortest_path` returns a list of consecutive arcs from `s` to `t` of least total weight if some path weighs less than `INFINITY`, and `None`
otherwise. -/
theorem C62_no_zero_cycle_partial {ord : SetOracle E} (hord : ord.Valid) {weight : E → Int} {dflt : Int} (hg : g.Closed) (hs : s ∈ g.vertices)
    (hsrc : ∀ u ∈ g.vertices, ∀ e ∈ g.outEdges u, g.source e = u) (hW : ∀ u ∈ g.vertices, ∀ e ∈ g.outEdges u, 0 ≤ weight e)
    (hz : ∀ u q c p, ((q ++ p).map weight).sum < INFINITY → ¬ ZeroCycle g weight s t u q c p)
    (dist : Dict V Int) (preds : Dict V (List E)) (hp : ∀ v, preds.getD v [] = []) :
    ∃ r, Returns (dijkstraShortestPath ord (argsLess weight dflt) g s t dist preds) (.ok r) ∧
      ((∃ p, IsPath g s p t ∧ (p.map weight).sum < INFINITY) → ∃ p, r = some p ∧ IsPath g s p t ∧ ∀ q, IsPath g s q t → (p.map weight).sum ≤ (q.map weight).sum) ∧
      ((∀ p, IsPath g s p t → INFINITY ≤ (p.map weight).sum) → r = none) := by
  have hy : Hyp (argsLess weight dflt) g s := hyp_with (dflt := dflt) plusAlgebra hg hs hW
  have hret : ∃ r, Returns (dijkstraShortestPath ord (argsLess weight dflt) g s t dist preds) r := by
    obtain ⟨b, st, bs, ⟨N, hN⟩, _, h3⟩ := run hy (fun u => decide (u = t)) dist hp
    rcases h3 with ⟨rfl, i, hno⟩ | ⟨rfl, u, hu, i⟩
    · refine ⟨.ok none, N, fun fuel hf => ?_⟩
      unfold dijkstraShortestPath
      rw [hN fuel hf]
    · have hut : u = t := by simpa using hu
      subst hut
      have hno : ¬ TrailCycle g s (st.preds.getD · []) u := by
        rintro ⟨w, p, c, k1, k2, k3⟩
        obtain ⟨m1, m2, m3, m4⟩ := trail_path hsrc i k1 (.inl (i.curOk u rfl))
        obtain ⟨n1, _, n3, n4⟩ := trail_path hsrc i k2 m2
        obtain ⟨w0, wi, q, hq, hqs⟩ := known hg hs hW i m2
        obtain ⟨_, ui, _⟩ := known hg hs hW i (.inl (i.curOk u rfl))
        have hwv : w ∈ g.vertices := hq.end_mem hg hs
        have e1 := (fold_plus p (path_edges hg hW m1 hwv) (st.dist.getD w dflt)).resolve_left (by rw [m4]; omega)
        have e2 := (fold_plus c (path_edges hg hW n1 hwv) (st.dist.getD w dflt)).resolve_left (by rw [n4]; omega)
        rw [m4] at e1
        rw [n4] at e2
        have hqp : ((q ++ p).map weight).sum = st.dist.getD u dflt := by
          simp only [List.map_append, List.sum_append]
          omega
        refine hz w q c p (by omega) ⟨hq, n1, k3, by omega, m1, ?_, ?_⟩
        · intro e he
          rcases List.mem_append.mp he with he | he
          · exact n3 e he
          · exact m3 e he
        · intro r hr
          rw [hqp]
          exact least hg hs hW i hr
      obtain ⟨r, M, hM⟩ := makePath_ends hno hord
      cases r with
      | error e =>
        refine ⟨.error e, max N M, fun fuel hf => ?_⟩
        unfold dijkstraShortestPath
        rw [hN fuel (by omega)]
        simp only [hM fuel (by omega)]
      | ok p =>
        refine ⟨.ok (some p), max N M, fun fuel hf => ?_⟩
        unfold dijkstraShortestPath
        rw [hN fuel (by omega)]
        simp only [hM fuel (by omega)]
  have hpw : ∀ q, IsPath g s q t → _ := fun q hq => pathWeight_plus weight q (path_edges hg hW hq hs)
  obtain ⟨r, hr⟩ := hret
  obtain ⟨N, hN⟩ := id hr
  rcases C62_sound_partial (dflt := dflt) hord plusAlgebra hg hs hW hsrc dist preds hp (hN N (Nat.le_refl N)) with ⟨p, rfl, h2, h3, h4⟩ | ⟨rfl, h2⟩
  · have hlt : pathWeight (closedPlus INFINITY) 0 weight p < INFINITY := by simpa [less] using h3
    obtain ⟨_, j2, j3⟩ := hpw p h2
    have hsum := j3 (j2.mp hlt)
    refine ⟨some p, hr, fun _ => ⟨p, rfl, h2, ?_⟩, ?_⟩
    · intro q hq
      obtain ⟨_, k2, k3⟩ := hpw q hq
      have := h4 q hq
      simp [less] at this
      by_cases hc : (q.map weight).sum < INFINITY
      · have := k3 hc; omega
      · omega
    · intro hall
      have := hall p h2
      omega
  · refine ⟨none, hr, ?_, fun _ => rfl⟩
    rintro ⟨p, hpp, hlt⟩
    exfalso
    have := h2 p hpp
    simp [less] at this
    have := (hpw p hpp).2.1.mpr hlt
    omega

/-- **C62 fails for each such cycle:** with non-negative weights, if a cycle of weight 0 is attached to a shortest path from `s` to `t` whose last arc has a positive
weight, some order of the sets makes `dijkstra_shortest_path` turn for ever. -/
theorem C62_zero_cycle_diverges {weight : E → Int} {dflt : Int} (hg : g.Closed) (hs : s ∈ g.vertices)
    (hsrc : ∀ u ∈ g.vertices, ∀ e ∈ g.outEdges u, g.source e = u) (hW : ∀ u ∈ g.vertices, ∀ e ∈ g.outEdges u, 0 ≤ weight e)
    {u : V} {q c p : List E} {e : E} (hz : ZeroCycle g weight s t u q c (p ++ [e])) (hlt : ((q ++ (p ++ [e])).map weight).sum < INFINITY) (he : 0 < weight e)
    (dist : Dict V Int) (preds : Dict V (List E)) (hp : ∀ v, preds.getD v [] = []) :
    ∃ f : List E → List E, SetOracle.Valid (fun _ => f) ∧ Diverges (dijkstraShortestPath (fun _ => f) (argsLess weight dflt) g s t dist preds) := by
  have hy : Hyp (argsLess weight dflt) g s := hyp_with (dflt := dflt) plusAlgebra hg hs hW
  obtain ⟨b, st, bs, ⟨N, hN⟩, hb, h3⟩ := run hy (fun u => decide (u = t)) dist hp
  have hwhole : IsPath g s (q ++ (p ++ [e])) t := hz.first.append hz.last
  rcases h3 with ⟨rfl, i, hno⟩ | ⟨rfl, t', ht', i⟩
  · exfalso
    obtain ⟨_, k2, _⟩ := pathWeight_plus weight _ (path_edges hg hW hwhole hs)
    have := hb t (i.final hy hno _ t hwhole (by
      have := k2.mpr hlt
      simp only [argsLess, argsWith, less, decide_eq_true_eq]
      exact this)).1
    simp at this
  · have htt : t' = t := by simpa using ht'
    subst htt
    obtain ⟨_, ti, qt, hqt, hqts⟩ := known hg hs hW i (.inl (i.curOk t' rfl))
    have hD : ((q ++ (p ++ [e])).map weight).sum = st.dist.getD t' dflt := by
      have h1 := hz.shortest qt hqt
      have h2 := least hg hs hW i hwhole
      omega
    have huv : u ∈ g.vertices := hz.first.end_mem hg hs
    -- the whole walk, once around the cycle
    have hP : IsPath g s (q ++ (c ++ (p ++ [e]))) t' := hz.first.append (hz.cycle.append hz.last)
    have hzero := hz.zero
    have hPs : ((q ++ (c ++ (p ++ [e]))).map weight).sum = st.dist.getD t' dflt := by
      simp only [List.map_append, List.sum_append] at hD ⊢
      omega
    have hnn := path_edges hg hW hP hs
    have harc : ∀ x ∈ c ++ (p ++ [e]), x ∈ st.preds.getD (g.target x) [] := by
      intro x hx
      have hx' : x ∈ q ++ (c ++ (p ++ [e])) := List.mem_append_right _ hx
      obtain ⟨P₁, P₂, hsp⟩ := List.append_of_mem hx'
      have hsum := hPs
      rw [hsp] at hsum hP
      have hlast : (P₁ ++ [x]) ++ P₂ = (q ++ (c ++ p)) ++ [e] := by rw [List.append_assoc, List.singleton_append, ← hsp]; simp
      have hnnP : 0 ≤ (P₂.map weight).sum := (pathWeight_plus weight P₂ fun y hy => hnn y (by rw [hsp]; simp [hy])).1
      have hwx : 0 ≤ weight x := hnn x hx'
      refine arc_pred hg hs hW i hP hsum ?_ ?_
      · simp only [List.map_append, List.map_cons, List.sum_append, List.sum_cons] at hsum
        rcases List.eq_nil_or_concat P₂ with rfl | ⟨P₃, y, rfl⟩
        · have := List.append_inj' (by simpa using hlast : P₁ ++ [x] = (q ++ (c ++ p)) ++ [e]) rfl
          have hxe : x = e := by simpa using this.2
          subst hxe
          simp at hsum
          omega
        · have : y = e := by
            have h := congrArg List.getLast? hlast
            simpa [← List.append_assoc] using h
          subst this
          have hn3 := (pathWeight_plus weight P₃ fun z hz' => hnn z (by rw [hsp]; simp [hz'])).1
          simp only [List.concat_eq_append, List.map_append, List.map_cons, List.map_nil, List.sum_append, List.sum_cons, List.sum_nil] at hsum
          omega
      · rcases List.eq_nil_or_concat P₂ with rfl | ⟨P₃, y, rfl⟩
        · exact .inl rfl
        · right
          have : y = e := by
            have h := congrArg List.getLast? hlast
            simpa [← List.append_assoc] using h
          subst this
          have hn3 := (pathWeight_plus weight P₃ fun z hz' => hnn z (by rw [hsp]; simp [hz'])).1
          simp only [List.concat_eq_append, List.map_append, List.map_cons, List.map_nil, List.sum_append, List.sum_cons, List.sum_nil] at hsum
          omega
    have hcyc : TrailCycle g s (st.preds.getD · []) t' :=
      ⟨u, p ++ [e], c, path_trail hg hsrc hz.last huv fun x hx => ⟨hz.away x (by simp at hx ⊢; tauto), harc x (by simp at hx ⊢; tauto)⟩,
        path_trail hg hsrc hz.cycle huv fun x hx => ⟨hz.away x (by simp [hx]), harc x (by simp [hx])⟩, hz.nonempty⟩
    obtain ⟨f, hf, hdiv⟩ := makePath_diverges hcyc
    refine ⟨f, hf, fun fuel => ?_⟩
    unfold dijkstraShortestPath
    cases hd : dijkstra (argsLess weight dflt) g s (fun u => decide (u = t')) dist preds fuel with
    | none => rfl
    | some r =>
      have h4 := loop_mono _ hd (Nat.le_max_right N fuel)
      have h5 := hN (max N fuel) (Nat.le_max_left _ _)
      unfold dijkstra at h5
      rw [h4] at h5
      cases h5
      simp only [hdiv fuel]

/-! The cycle `1 → 2 → 1` of `loopGraph` meets the hypotheses of `C62_zero_cycle_diverges`. -/

example : ZeroCycle loopGraph loopWeight 0 3 1 [⟨0, 1, 0⟩] [⟨1, 2, 0⟩, ⟨2, 1, 0⟩] ([⟨1, 2, 0⟩] ++ [⟨2, 3, 0⟩]) where
  first := .cons (by decide) (.nil _)
  cycle := .cons (by decide) (.cons (by decide) (.nil _))
  nonempty := by simp
  zero := by decide
  last := .cons (by decide) (.cons (by decide) (.nil _))
  away := by decide
  shortest := by
    intro r hr
    -- the first arc weighs 1 and the last one 5
    have hnn : ∀ e ∈ r, 0 ≤ loopWeight e := by
      intro e _
      unfold loopWeight
      split
      · omega
      · split <;> omega
    have hsum : ∀ l : List (EdgeDesc Nat), (∀ e ∈ l, 0 ≤ loopWeight e) → 0 ≤ (l.map loopWeight).sum := fun l h => (pathWeight_plus loopWeight l h).1
    show (6 : Int) ≤ _
    cases hr with
    | @cons _ _ e r he hr =>
      have h0 : e = ⟨0, 1, 0⟩ := by
        have : ∀ e ∈ loopGraph.outEdges 0, e = ⟨0, 1, 0⟩ := by decide
        exact this e he
      subst h0
      rcases List.eq_nil_or_concat r with rfl | ⟨r', y, rfl⟩
      · cases hr
      · rw [List.concat_eq_append] at hr hnn
        obtain ⟨w, k1, k2⟩ := isPath_append_iff.mp hr
        have hy : y.target = 3 := by
          cases k2 with
          | cons _ k2 =>
            generalize hgt : loopGraph.target y = z at k2
            cases k2
            exact hgt
        have hys : y.source ≠ 0 ∨ y.source = 0 := by omega
        have hw0 : loopWeight (⟨0, 1, 0⟩ : EdgeDesc Nat) = 1 := by decide
        have hn := hsum r' fun e he => hnn e (by simp [he])
        have hwy : loopWeight y = 5 := by
          have hwv : w ∈ loopGraph.vertices := k1.end_mem (by unfold GraphI.Closed; decide) (by decide)
          cases k2 with
          | cons hye _ =>
            have : ∀ w ∈ loopGraph.vertices, ∀ y ∈ loopGraph.outEdges w, y.target = 3 → loopWeight y = 5 := by decide
            exact this w hwv y hye hy
        simp only [List.concat_eq_append, List.map_cons, List.map_append, List.map_nil, List.sum_cons, List.sum_append, List.sum_nil, hw0, hwy]
        omega

example : 0 < loopWeight ⟨2, 3, 0⟩ ∧ (([⟨0, 1, 0⟩, ⟨1, 2, 0⟩, ⟨2, 3, 0⟩] : List (EdgeDesc Nat)).map loopWeight).sum < INFINITY := by decide

/-! A graph whose arcs weigh 0, without any cycle, meets those of `C62_no_zero_cycle_partial`. -/

/-- `0 → 1`, `0 → 2`, `1 → 2`. -/
def flatGraph : GraphI Nat (EdgeDesc Nat) := (Graph.mk 3 [(0, [(1, [0]), (2, [0])]), (1, [(2, [0])]), (2, [])]).toI

example : flatGraph.Closed ∧ (∀ u ∈ flatGraph.vertices, ∀ e ∈ flatGraph.outEdges u, flatGraph.source e = u) ∧
    ∀ u q c p, ((q ++ p).map fun _ => (0 : Int)).sum < INFINITY → ¬ ZeroCycle flatGraph (fun _ => 0) 0 2 u q c p := by
  have hcl : flatGraph.Closed := by unfold GraphI.Closed; decide
  refine ⟨hcl, by decide, ?_⟩
  intro u q c p _ hz
  have hup : ∀ u ∈ flatGraph.vertices, ∀ e ∈ flatGraph.outEdges u, u < flatGraph.target e := by decide
  have key : ∀ {u v : Nat} {c : List (EdgeDesc Nat)}, IsPath flatGraph u c v → u ∈ flatGraph.vertices → u ≤ v ∧ (c ≠ [] → u < v) := by
    intro u v c h
    induction h with
    | nil => intro _; simp
    | cons he _ ih =>
      intro hu
      have h1 := hup _ hu _ he
      have h2 := ih (hcl _ hu _ he)
      exact ⟨by omega, fun _ => by omega⟩
  have := (key hz.cycle (hz.first.end_mem hcl (by decide))).2 hz.nonempty
  omega

end PyBGL
