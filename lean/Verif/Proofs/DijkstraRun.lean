import Mathlib.Data.List.Perm.Subperm
import Verif.Proofs.Dijkstra

/-!
# Complete runs of `dijkstra_shortest_paths`
-/

namespace PyBGL.Dijkstra
open Heapq DijkstraState
variable {V E D : Type} [DecidableEq V] [DecidableEq E] [DecidableEq D]
variable {a : DijkstraArgs E D} {g : GraphI V E} {s : V}

theorem run (h : Hyp a g s) (stop : V → Bool) (dist : Dict V D) {preds : Dict V (List E)} (hp : ∀ v, preds.getD v [] = []) :
    ∃ r st bs, Returns (dijkstra a g s stop dist preds) (.ok (r, st)) ∧ (∀ b ∈ bs, stop b = false) ∧
      ((r = false ∧ Inv a g s bs none [] st ∧ ∀ v, ¬ Open s st v) ∨ (r = true ∧ ∃ u, stop u = true ∧ Inv a g s bs (some u) [] st)) := by
  obtain ⟨r, h1, h2⟩ := loop_total (dijkstraStep a g stop) (fun st => ∃ bs, (∀ b ∈ bs, stop b = false) ∧ Inv a g s bs none [] st)
    (fun st => g.vertices.length - (finished st.trace).length)
    (fun r => ∃ b st bs, r = .ok (b, st) ∧ (∀ b ∈ bs, stop b = false) ∧
      ((b = false ∧ Inv a g s bs none [] st ∧ ∀ v, ¬ Open s st v) ∨ (b = true ∧ ∃ u, stop u = true ∧ Inv a g s bs (some u) [] st)))
    (by
      rintro t st st' ⟨bs, hb, i⟩ hs
      unfold dijkstraStep at hs
      split at hs
      · rename_i hne
        obtain ⟨u, heap, h1, h2⟩ := i.popStep h hne
        rw [h1] at hs
        simp only at hs
        split at hs
        · cases hs
        · rename_i hstop
          have h3 := (h2.edges h (g.outEdges u) fun e he => he)
          rw [List.nil_append] at h3
          have h4 := h3.finish
          cases hs
          refine ⟨⟨bs ++ [u], ?_, h4⟩, ?_⟩
          · intro b hb'
            rw [List.mem_append, List.mem_singleton] at hb'
            rcases hb' with hb' | rfl
            · exact hb b hb'
            · simpa using hstop
          · have h5 := (List.subperm_of_subset h4.nd h4.sub).length_le
            have h6 := h4.trFin
            have h7 := i.trFin
            simp only [distOf] at h6 ⊢
            rw [List.length_append, List.length_singleton] at h5
            rw [h7]
            have := congrArg List.length h6
            rw [List.length_append, List.length_singleton] at this
            have hd : ({ st with heap := heap }.emit (DijkstraEvent.examineVertex u)).dist = st.dist := rfl
            rw [hd] at this
            rw [this]
            omega
      · cases hs)
    (by
      rintro t st r ⟨bs, hb, i⟩ hs
      unfold dijkstraStep at hs
      split at hs
      · rename_i hne
        obtain ⟨u, heap, h1, h2⟩ := i.popStep h hne
        rw [h1] at hs
        simp only at hs
        split at hs
        · rename_i hstop
          cases hs
          exact ⟨true, _, bs, rfl, hb, .inr ⟨rfl, u, hstop, h2⟩⟩
        · cases hs
      · rename_i hne
        cases hs
        refine ⟨false, st, bs, rfl, hb, .inl ⟨rfl, i, ?_⟩⟩
        intro v hv
        have := (i.heapMem v).mpr ⟨by simp, hv⟩
        have hd : st.heap.data = [] := by
          unfold Heap.nonempty at hne
          simpa using hne
        rw [hd] at this
        cases this)
    (by
      rintro t st e ⟨bs, hb, i⟩ hs
      unfold dijkstraStep at hs
      split at hs
      · rename_i hne
        obtain ⟨u, heap, h1, h2⟩ := i.popStep h hne
        rw [h1] at hs
        simp only at hs
        split at hs <;> cases hs
      · cases hs)
    (s := dijkstraInit a g s dist preds) ⟨[], by simp, Inv.init h hp⟩ 0
  obtain ⟨b, st, bs, rfl, h3, h4⟩ := h2
  exact ⟨b, st, bs, h1, h3, h4⟩

/-- The weight of every path is bounded from below. -/
theorem Inv.lower (h : Hyp a g s) {bs : List V} {cur : Option V} {P : List E} {st : DijkstraState V E D} (i : Inv a g s bs cur P st) :
    ∀ (p : List E) (v : V), IsPath g s p v → a.compare (pathWeight a.combine a.zero a.weight p) a.infty = true →
      (v ∈ bs ∧ Le a (st.distOf a v) (pathWeight a.combine a.zero a.weight p)) ∨
      (∃ y, Open s st y ∧ Le a (st.distOf a y) (pathWeight a.combine a.zero a.weight p)) := by
  intro p
  induction p using List.reverseRecOn with
  | nil =>
    intro v hp _
    cases hp
    have hle : Le a (st.distOf a s) (pathWeight a.combine a.zero a.weight []) := by rw [i.root]; exact h.leRefl _
    rcases i.root_disc with h1 | h1
    · exact .inr ⟨s, h1, hle⟩
    · exact .inl ⟨h1, hle⟩
  | append_singleton p e ih =>
    intro v hp hlt
    obtain ⟨u, h1, h2, h3⟩ := snoc_inv hp
    subst h3
    rw [pathWeight_snoc] at hlt ⊢
    have hW : ∃ u ∈ g.vertices, ∃ e' ∈ g.outEdges u, a.weight e = a.weight e' := ⟨u, h.pathV h1, e, h2, rfl⟩
    have h4 := h.alg.back _ _ hW hlt
    rcases ih u h1 h4 with ⟨h5, h6⟩ | ⟨y, h5, h6⟩
    · have h7 : Le a (st.distOf a (g.target e)) (a.combine (pathWeight a.combine a.zero a.weight p) (a.weight e)) :=
        h.leTrans (i.edge u e (.inl ⟨h5, h2⟩)) (h.alg.mono _ _ _ hW h6 hlt)
      by_cases hb : g.target e ∈ bs
      · exact .inl ⟨hb, h7⟩
      · refine .inr ⟨g.target e, ?_, h7⟩
        by_contra hno
        have h8 := i.undisc _ (h.closed _ (h.pathV h1) _ h2) hno hb
        rw [h8] at h7
        exact Hyp.not_lt_of_le h7 hlt
    · exact .inr ⟨y, h5, h.leTrans h6 (h.alg.grow _ _ hW h4)⟩

/-- The distances after a complete run. -/
theorem Inv.final (h : Hyp a g s) {bs : List V} {st : DijkstraState V E D} (i : Inv a g s bs none [] st) (hno : ∀ v, ¬ Open s st v) :
    ∀ (p : List E) (v : V), IsPath g s p v → a.compare (pathWeight a.combine a.zero a.weight p) a.infty = true →
      v ∈ bs ∧ Le a (st.distOf a v) (pathWeight a.combine a.zero a.weight p) := by
  intro p v hp hlt
  rcases i.lower h p v hp hlt with h1 | ⟨y, h1, _⟩
  · exact h1
  · exact absurd h1 (hno y)

theorem Inv.black_iff (h : Hyp a g s) {bs : List V} {st : DijkstraState V E D} (i : Inv a g s bs none [] st) (hno : ∀ v, ¬ Open s st v) {v : V}
    (hv : v ∈ g.vertices) : v ∈ bs ↔ a.compare (st.distOf a v) a.infty = true := by
  constructor
  · intro hb; exact (i.disc v (.inr hb)).1
  · intro hlt
    by_contra hb
    rw [i.undisc v hv (hno v) hb, h.alg.irrefl] at hlt
    cases hlt

theorem Inv.best (h : Hyp a g s) {bs : List V} {st : DijkstraState V E D} (i : Inv a g s bs none [] st) (hno : ∀ v, ¬ Open s st v) {v : V}
    (hv : v ∈ g.vertices) :
    IsBest a.compare a.infty (fun d => ∃ p, IsPath g s p v ∧ pathWeight a.combine a.zero a.weight p = d) (st.distOf a v) := by
  by_cases hb : v ∈ bs
  · obtain ⟨h1, h2⟩ := i.disc v (.inr hb)
    refine .inl ⟨h2, h1, ?_⟩
    rintro w ⟨p, hp, rfl⟩
    cases hw : a.compare (pathWeight a.combine a.zero a.weight p) (st.distOf a v) with
    | false => rfl
    | true =>
      exfalso
      exact Hyp.not_lt_of_le (i.final h hno p v hp (h.alg.trans _ _ _ hw h1)).2 hw
  · refine .inr ⟨i.undisc v hv (hno v) hb, ?_⟩
    rintro w ⟨p, hp, rfl⟩
    cases hw : a.compare (pathWeight a.combine a.zero a.weight p) a.infty with
    | false => rfl
    | true => exact absurd (i.final h hno p v hp hw).1 hb

/-- The predecessors after a complete run. -/
theorem Inv.optimal (h : Hyp a g s) {bs : List V} {st : DijkstraState V E D} (i : Inv a g s bs none [] st) (hno : ∀ v, ¬ Open s st v) {v : V}
    (hlt : a.compare (st.distOf a v) a.infty = true) (e : E) :
    e ∈ st.predsOf v ↔ ∃ p, IsPath g s (p ++ [e]) v ∧ pathWeight a.combine a.zero a.weight (p ++ [e]) = st.distOf a v := by
  rw [i.preds]
  constructor
  · rintro ⟨b, h1, rfl, h3⟩
    rcases h1 with ⟨hb, he⟩ | ⟨hb, _⟩
    · obtain ⟨_, p, h4, h5⟩ := i.disc b (.inr hb)
      exact ⟨p, h4.snoc he, by rw [pathWeight_snoc, h5, h3]⟩
    · cases hb
  · rintro ⟨p, h1, h2⟩
    obtain ⟨u, h3, h4, rfl⟩ := snoc_inv h1
    rw [pathWeight_snoc] at h2
    have hW : ∃ u ∈ g.vertices, ∃ e' ∈ g.outEdges u, a.weight e = a.weight e' := ⟨u, h.pathV h3, e, h4, rfl⟩
    have hlt2 := hlt
    rw [← h2] at hlt2
    have h5 := h.alg.back _ _ hW hlt2
    obtain ⟨h6, h7⟩ := i.final h hno p u h3 h5
    refine ⟨u, .inl ⟨h6, h4⟩, rfl, ?_⟩
    have h8 := i.edge u e (.inl ⟨h6, h4⟩)
    have h9 : Le a _ _ := h.alg.mono _ _ _ hW h7 hlt2
    rw [h2] at h9
    exact h.antisymm h9 h8

theorem walkStep {bs : List V} {cur : Option V} {st : DijkstraState V E D} (i : Inv a g s bs cur [] st)
    (hsrc : ∀ u ∈ g.vertices, ∀ e ∈ g.outEdges u, g.source e = u) {ord : SetOracle E} (hord : ord.Valid) : ∀ (n : Nat) (x : V × List E), x.1 ≠ s →
      (Open s st x.1 ∨ x.1 ∈ bs) →
      ∃ e b, shortestPathStep ord g s st.preds n x = .next (b, e :: x.2) ∧ b ∈ bs ∧ e ∈ g.outEdges b ∧ g.target e = x.1 ∧
        a.combine (st.distOf a b) (a.weight e) = st.distOf a x.1 := by
  intro n x hx hd
  have hne := i.predsNe _ hd hx
  unfold shortestPathStep
  rw [if_neg hx]
  have hperm := hord n (st.preds.getD x.1 [])
  cases ho : ord n (st.preds.getD x.1 []) with
  | nil =>
    rw [ho] at hperm
    exact absurd hperm.symm.eq_nil hne
  | cons e es =>
    have he : e ∈ st.predsOf x.1 := by
      have := hperm.mem_iff (a := e)
      rw [ho] at this
      exact this.mp (by simp)
    obtain ⟨b, h1, h2, h3⟩ := (i.preds _ e).mp he
    rcases h1 with ⟨hb, he'⟩ | ⟨_, h1⟩
    · exact ⟨e, b, by simp only [hsrc b (i.sub b hb) e he'], hb, he', h2, h3⟩
    · cases h1

/-- Whenever `make_shortest_path` ends, it has found a path of weight `dist t`. -/
theorem walkBack_partial {bs : List V} {cur : Option V} {st : DijkstraState V E D} (i : Inv a g s bs cur [] st)
    (hsrc : ∀ u ∈ g.vertices, ∀ e ∈ g.outEdges u, g.source e = u) {ord : SetOracle E} (hord : ord.Valid) {t : V} (ht : Open s st t ∨ t ∈ bs)
    {fuel : Nat} {r : Except PyErr (List E)} (hr : makeShortestPath ord g s t st.preds fuel = some r) :
    ∃ p, r = .ok p ∧ IsPath g s p t ∧ pathWeight a.combine a.zero a.weight p = st.distOf a t := by
  have hstep := walkStep i hsrc hord
  refine loop_partial (shortestPathStep ord g s st.preds)
    (fun x => (Open s st x.1 ∨ x.1 ∈ bs) ∧ IsPath g x.1 x.2 t ∧ x.2.foldl (fun d e => a.combine d (a.weight e)) (st.distOf a x.1) = st.distOf a t)
    (fun r => ∃ p, r = .ok p ∧ IsPath g s p t ∧ pathWeight a.combine a.zero a.weight p = st.distOf a t)
    (by
      rintro n x x' ⟨i1, i2, i3⟩ hs
      have hx : x.1 ≠ s := by
        intro hx; unfold shortestPathStep at hs; rw [if_pos hx] at hs; cases hs
      obtain ⟨e, b, k1, k2, k3, k4, k5⟩ := hstep n x hx i1
      rw [k1] at hs
      cases hs
      refine ⟨.inr k2, .cons k3 (k4 ▸ i2), ?_⟩
      rw [List.foldl_cons, k5]; exact i3)
    (by
      rintro n x p ⟨i1, i2, i3⟩ hs
      by_cases hx : x.1 = s
      · unfold shortestPathStep at hs
        rw [if_pos hx] at hs
        cases hs
        rw [hx] at i2 i3
        rw [i.root] at i3
        exact ⟨_, rfl, i2, i3⟩
      · obtain ⟨e, b, k1, _⟩ := hstep n x hx i1
        rw [k1] at hs; cases hs)
    (by
      rintro n x e ⟨i1, i2, i3⟩ hs
      by_cases hx : x.1 = s
      · unfold shortestPathStep at hs
        rw [if_pos hx] at hs
        cases hs
      · obtain ⟨e, b, k1, _⟩ := hstep n x hx i1
        rw [k1] at hs; cases hs)
    (s := (t, [])) ⟨ht, .nil t, rfl⟩ hr

/-- `make_shortest_path`: any chain of predecessors, read backwards from `t`, has weight `dist t` and ends at `s`, as long as following a cycle reached from `s`
changes every distance. -/
theorem walkBack {bs : List V} {cur : Option V} {st : DijkstraState V E D} (i : Inv a g s bs cur [] st)
    (hcyc : ∀ x u q p, IsPath g s q u → IsPath g u p u → p ≠ [] → a.compare x a.infty = true → p.foldl (fun d e => a.combine d (a.weight e)) x ≠ x)
    (hsrc : ∀ u ∈ g.vertices, ∀ e ∈ g.outEdges u, g.source e = u) {ord : SetOracle E} (hord : ord.Valid) {t : V} (ht : Open s st t ∨ t ∈ bs) :
    ∃ p, Returns (makeShortestPath ord g s t st.preds) (.ok p) ∧ IsPath g s p t ∧ pathWeight a.combine a.zero a.weight p = st.distOf a t := by
  have hstep := walkStep i hsrc hord
  obtain ⟨r, h1, h2⟩ := loop_total (shortestPathStep ord g s st.preds)
    (fun x => (Open s st x.1 ∨ x.1 ∈ bs) ∧ IsPath g x.1 x.2 t ∧ x.2.foldl (fun d e => a.combine d (a.weight e)) (st.distOf a x.1) = st.distOf a t ∧
      (x.2.map g.source).Nodup ∧ ∀ b ∈ x.2.map g.source, b ∈ bs ∧ ∃ q, IsPath g x.1 q b ∧
        q.foldl (fun d e => a.combine d (a.weight e)) (st.distOf a x.1) = st.distOf a b)
    (fun x => bs.length - (x.2.map g.source).length)
    (fun r => ∃ p, r = .ok p ∧ IsPath g s p t ∧ pathWeight a.combine a.zero a.weight p = st.distOf a t)
    (by
      rintro n x x' ⟨i1, i2, i3, i4, i5⟩ hs
      have hx : x.1 ≠ s := by
        intro hx; unfold shortestPathStep at hs; rw [if_pos hx] at hs; cases hs
      obtain ⟨e, b, k1, k2, k3, k4, k5⟩ := hstep n x hx i1
      rw [k1] at hs
      cases hs
      have hse : g.source e = b := hsrc b (i.sub b k2) e k3
      have hnb : b ∉ x.2.map g.source := by
        intro hb
        obtain ⟨_, q, h6, h7⟩ := i5 b hb
        obtain ⟨hinf, q0, h8, _⟩ := i.disc b (.inr k2)
        refine hcyc (st.distOf a b) b q0 (e :: q) h8 (.cons k3 (k4 ▸ h6)) (by simp) hinf ?_
        rw [List.foldl_cons, k5]; exact h7
      have hnd : ((e :: x.2).map g.source).Nodup := by
        rw [List.map_cons, List.nodup_cons, hse]; exact ⟨hnb, i4⟩
      have hsub : ∀ y ∈ (e :: x.2).map g.source, y ∈ bs := by
        intro y hy
        rw [List.map_cons, hse] at hy
        rcases List.mem_cons.mp hy with rfl | hy
        · exact k2
        · exact (i5 y hy).1
      refine ⟨⟨.inr k2, .cons k3 (k4 ▸ i2), ?_, hnd, ?_⟩, ?_⟩
      · rw [List.foldl_cons, k5]; exact i3
      · intro y hy
        refine ⟨hsub y hy, ?_⟩
        rw [List.map_cons, hse] at hy
        rcases List.mem_cons.mp hy with rfl | hy
        · exact ⟨[], .nil y, rfl⟩
        · obtain ⟨_, q, h6, h7⟩ := i5 y hy
          refine ⟨e :: q, .cons k3 (k4 ▸ h6), ?_⟩
          rw [List.foldl_cons, k5]; exact h7
      · have := (List.subperm_of_subset hnd hsub).length_le
        rw [List.map_cons, List.length_cons] at this
        show bs.length - ((e :: x.2).map g.source).length < _
        rw [List.map_cons, List.length_cons]
        omega)
    (by
      rintro n x p ⟨i1, i2, i3, _⟩ hs
      by_cases hx : x.1 = s
      · unfold shortestPathStep at hs
        rw [if_pos hx] at hs
        cases hs
        rw [hx] at i2 i3
        rw [i.root] at i3
        exact ⟨_, rfl, i2, i3⟩
      · obtain ⟨e, b, k1, _⟩ := hstep n x hx i1
        rw [k1] at hs; cases hs)
    (by
      rintro n x e ⟨i1, i2, i3, _⟩ hs
      by_cases hx : x.1 = s
      · unfold shortestPathStep at hs
        rw [if_pos hx] at hs
        cases hs
      · obtain ⟨e, b, k1, _⟩ := hstep n x hx i1
        rw [k1] at hs; cases hs)
    (s := (t, [])) ⟨ht, .nil t, rfl, by simp, by simp⟩ 0
  obtain ⟨p, rfl, h3, h4⟩ := h2
  exact ⟨p, h1, h3, h4⟩

end PyBGL.Dijkstra
