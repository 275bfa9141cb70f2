import Verif.Proofs.ColorMask
import Verif.Proofs.DijkstraRun

/-!
# `dijkstra_shortest_paths` with maps of arbitrary contents
-/

namespace PyBGL.Dijkstra
open Heapq DijkstraState
variable {V E D : Type} [DecidableEq V] [DecidableEq E] [DecidableEq D]

/-! ## The heap -/

theorem push_congr {o : KeyOrd D} {key key' : V → D} {x : V} (h : key x = key' x) (hp : Heap D V) : hp.push o key x = hp.push o key' x := by
  unfold Heap.push; rw [h]

theorem decreaseAt_congr {o : KeyOrd D} {key key' : V → D} {x : V} (h : key x = key' x) : Heap.decreaseAt o key x = Heap.decreaseAt o key' x := by
  funext hp i; unfold Heap.decreaseAt; rw [h]

theorem decreaseKey_congr {o : KeyOrd D} {key key' : V → D} {x : V} (h : key x = key' x) (hp : Heap D V) : hp.decreaseKey o key x = hp.decreaseKey o key' x := by
  unfold Heap.decreaseKey; rw [decreaseAt_congr h]

/-- An element that is not in the heap is not added by `decrease_key`. -/
theorem decreaseKey_absent {o : KeyOrd D} {key : V → D} {x : V} {hp : Heap D V} (h : ∀ y ∈ hp.data, y.2.2 ≠ x) : hp.decreaseKey o key x = hp := by
  unfold Heap.decreaseKey
  generalize List.range hp.data.length = l
  induction l with
  | nil => rfl
  | cons i l ih =>
    have : Heap.decreaseAt o key x hp i = hp := by
      unfold Heap.decreaseAt
      split
      · rfl
      · rename_i k j y he
        have := h _ (List.mem_of_getElem? he)
        rw [if_neg (Ne.symm this)]
    rw [List.foldl_cons, this, ih]

/-! ## The relation between the search with the maps of the caller and the search with new maps -/

/-- The graph without the edges towards the vertices of the mask. -/
abbrev unmasked (g : GraphI V E) (m : V → Bool) : GraphI V E := g.through (fun e => !m (g.target e))

/-- `st` is the state of the search of `g` with the colours `c0` and the predecessors `p0` given by the caller, `st'` the state of the search with new maps of the
graph without the edges towards the vertices of the mask `m`. -/
structure Rel (a : DijkstraArgs E D) (g : GraphI V E) (s : V) (m : V → Bool) (c0 : Dict V Color) (p0 : Dict V (List E)) (bs : List V) (cur : Option V)
    (P : List E) (st st' : DijkstraState V E D) : Prop where
  heap : st.heap = st'.heap
  dist : ∀ v, m v = false → st.distOf a v = st'.distOf a v
  color : Overlay m c0 st.color st'.color
  white : ∀ v, m v = true → colorOf st'.color v = .white
  predsEq : ∀ v, m v = false → v ≠ s → colorOf st'.color v ≠ .white → st.predsOf v = st'.predsOf v
  predsOld : ∀ v, m v = false → (v = s ∨ colorOf st'.color v = .white) → ∀ e, e ∈ st.predsOf v ↔ e ∈ st'.predsOf v ∨ e ∈ p0.getD v []
  maskLe : ∀ b e, Ex g bs cur P b e → m (g.target e) = true → Le a (st.distOf a (g.target e)) (a.combine (st'.distOf a b) (a.weight e))
  maskEx : ∀ v ∈ g.vertices, m v = true → st.distOf a v = a.infty ∨ (a.compare (st.distOf a v) a.infty = true ∧
    ∃ b e, Ex g bs cur P b e ∧ g.target e = v ∧ a.combine (st'.distOf a b) (a.weight e) = st.distOf a v)
  maskPreds : ∀ v ∈ g.vertices, m v = true → a.compare (st.distOf a v) a.infty = true → ∀ e, e ∈ st.predsOf v ↔
    ∃ b, Ex g bs cur P b e ∧ g.target e = v ∧ a.combine (st'.distOf a b) (a.weight e) = st.distOf a v
  trace : st'.trace = st.trace.filter (dijkstraUnmasked g m)

section
variable {a : DijkstraArgs E D} {g : GraphI V E} {s : V} {m : V → Bool} {c0 : Dict V Color} {p0 : Dict V (List E)}

theorem Hyp.mask (h : Hyp a g s) (m : V → Bool) : Hyp a (unmasked g m) s := by
  have hsub : ∀ u e, e ∈ (unmasked g m).outEdges u → e ∈ g.outEdges u := fun u e he => (List.mem_filter.mp he).1
  have hW : ∀ w, (∃ u ∈ (unmasked g m).vertices, ∃ e ∈ (unmasked g m).outEdges u, w = a.weight e) → ∃ u ∈ g.vertices, ∃ e ∈ g.outEdges u, w = a.weight e := by
    rintro w ⟨u, hu, e, he, rfl⟩
    exact ⟨u, hu, e, hsub u e he, rfl⟩
  exact ⟨⟨h.alg.irrefl, h.alg.trans, h.alg.total, h.alg.zero_lt, fun x w hw => h.alg.grow x w (hW w hw), fun x w hw => h.alg.back x w (hW w hw),
    fun x y w hw => h.alg.mono x y w (hW w hw)⟩, h.ord, fun u hu e he => h.closed u hu e (hsub u e he), h.src⟩

theorem ex_snoc {bs : List V} {u : V} {P : List E} {e : E} (b : V) (e' : E) :
    Ex g bs (some u) (P ++ [e]) b e' ↔ Ex g bs (some u) P b e' ∨ (b = u ∧ e' = e) := by
  unfold Ex
  simp only [Option.some.injEq, List.mem_append, List.mem_singleton]
  constructor
  · rintro (h | ⟨rfl, h | rfl⟩)
    · exact .inl (.inl h)
    · exact .inl (.inr ⟨rfl, h⟩)
    · exact .inr ⟨rfl, rfl⟩
  · rintro ((h | ⟨rfl, h⟩) | ⟨rfl, rfl⟩)
    · exact .inl h
    · exact .inr ⟨rfl, .inl h⟩
    · exact .inr ⟨rfl, .inr rfl⟩

theorem queue_dist (st : DijkstraState V E D) (v x : V) : (dijkstraQueue a st v).distOf a x = st.distOf a x := by
  unfold dijkstraQueue; split <;> rfl

theorem queue_preds (st : DijkstraState V E D) (v x : V) : (dijkstraQueue a st v).predsOf x = st.predsOf x := by
  unfold dijkstraQueue; split <;> rfl

/-- One edge towards a vertex of the mask: nothing but the values of this vertex changes. -/
theorem Rel.maskedEdge (h : Hyp a g s) (hm : ∀ v, m v = true → colorOf c0 v ≠ .white) (hms : m s = false) {bs : List V} {u : V} {P Q : List E}
    {st st' : DijkstraState V E D} (r : Rel a g s m c0 p0 bs (some u) P st st') (i : Inv a (unmasked g m) s bs (some u) Q st') {e : E}
    (hme : m (g.target e) = true) :
    Rel a g s m c0 p0 bs (some u) (P ++ [e]) (dijkstraEdge a g (st'.distOf a u) st e) st' := by
  have hcol : colorOf st.color (g.target e) ≠ .white := by
    have := r.color (g.target e); rw [hme, if_pos rfl] at this; rw [this]; exact hm _ hme
  have hheap : ∀ y ∈ st.heap.data, y.2.2 ≠ g.target e := by
    intro y hy heq
    rw [r.heap] at hy
    have := ((i.heapMem y.2.2).mp (List.mem_map_of_mem hy)).2
    rw [heq] at this
    rcases this with h1 | ⟨h1, _⟩
    · rw [r.white _ hme] at h1; cases h1
    · rw [h1, hms] at hme; cases hme
  have hne : ∀ v, m v = false → g.target e ≠ v := by intro v hv heq; rw [heq, hv] at hme; cases hme
  unfold dijkstraEdge
  by_cases hlt : a.compare (a.combine (st'.distOf a u) (a.weight e)) (st.distOf a (g.target e)) = true
  · rw [if_pos hlt]
    generalize hst1 : ({ st.emit (.examineEdge e) with
      dist := st.dist.set (g.target e) (a.combine (st'.distOf a u) (a.weight e)), preds := st.preds.set (g.target e) [e] } : DijkstraState V E D) = st1
    have hq : dijkstraQueue a st1 (g.target e) = st1 := by
      subst hst1
      unfold dijkstraQueue
      simp only [DijkstraState.emit]
      cases hc : colorOf st.color (g.target e) with
      | white => exact absurd hc hcol
      | gray => simp only; rw [decreaseKey_absent hheap]
      | black => rfl
    have hd : ∀ x, (st1.emit (.edgeRelaxed e)).distOf a x = if g.target e = x then a.combine (st'.distOf a u) (a.weight e) else st.distOf a x := by
      intro x; subst hst1; exact distOf_set st _ _ _
    have hp : ∀ x, (st1.emit (.edgeRelaxed e)).predsOf x = if g.target e = x then [e] else st.predsOf x := by
      intro x; subst hst1; exact predsOf_set st _ _ _
    rw [hq]
    refine ⟨?_, ?_, ?_, r.white, ?_, ?_, ?_, ?_, ?_, ?_⟩
    · subst hst1; exact r.heap
    · intro v hv; rw [hd, if_neg (hne v hv)]; exact r.dist v hv
    · subst hst1; exact r.color
    · intro v hv; rw [hp, if_neg (hne v hv)]; exact r.predsEq v hv
    · intro v hv; rw [hp, if_neg (hne v hv)]; exact r.predsOld v hv
    · intro b e' hex hme'
      rw [hd]
      rw [ex_snoc] at hex
      split
      · rename_i heq
        rcases hex with hex | ⟨rfl, rfl⟩
        · have := r.maskLe b e' hex hme'
          rw [← heq] at this
          have h3 := h.lt_le_trans hlt this
          unfold Le
          cases hc : a.compare (a.combine (st'.distOf a b) (a.weight e')) (a.combine (st'.distOf a u) (a.weight e)) with
          | false => rfl
          | true => have := h.alg.trans _ _ _ h3 hc; rw [h.alg.irrefl] at this; cases this
        · exact h.leRefl _
      · rename_i heq
        rcases hex with hex | ⟨rfl, rfl⟩
        · exact r.maskLe b e' hex hme'
        · exact absurd rfl heq
    · intro v hv hmv
      rw [hd]
      by_cases heq : g.target e = v
      · rw [if_pos heq]
        refine .inr ⟨?_, u, e, (ex_snoc _ _).mpr (.inr ⟨rfl, rfl⟩), heq, rfl⟩
        rcases r.maskEx v hv hmv with h1 | ⟨h1, _⟩
        · rw [heq, h1] at hlt; exact hlt
        · rw [heq] at hlt; exact h.alg.trans _ _ _ hlt h1
      · rw [if_neg heq]
        rcases r.maskEx v hv hmv with h1 | ⟨h1, b, e', h2, h3⟩
        · exact .inl h1
        · exact .inr ⟨h1, b, e', (ex_snoc _ _).mpr (.inl h2), h3⟩
    · intro v hv0 hmv hlt' e'
      rw [hd] at hlt' ⊢
      rw [hp]
      by_cases heq : g.target e = v
      · rw [if_pos heq] at hlt' ⊢
        rw [if_pos heq]
        subst heq
        constructor
        · intro he'
          rw [List.mem_singleton] at he'
          subst he'
          exact ⟨u, (ex_snoc _ _).mpr (.inr ⟨rfl, rfl⟩), rfl, rfl⟩
        · rintro ⟨b, hex, h2, h3⟩
          rw [ex_snoc] at hex
          rcases hex with hex | ⟨rfl, rfl⟩
          · have := r.maskLe b e' hex (by rw [h2]; exact hmv)
            rw [h2, h3] at this
            unfold Le at this
            rw [hlt] at this; cases this
          · simp
      · rw [if_neg heq] at hlt' ⊢
        rw [if_neg heq, r.maskPreds v hv0 hmv hlt' e']
        refine exists_congr fun b => ?_
        rw [ex_snoc]
        constructor
        · rintro ⟨h1, h2⟩; exact ⟨.inl h1, h2⟩
        · rintro ⟨h1 | ⟨_, rfl⟩, h2⟩
          · exact ⟨h1, h2⟩
          · exact absurd h2.1 heq
    · subst hst1
      simp [DijkstraState.emit, r.trace, List.filter_cons, dijkstraUnmasked, hme]
  · rw [if_neg hlt]
    have hle : Le a (st.distOf a (g.target e)) (a.combine (st'.distOf a u) (a.weight e)) := by
      unfold Le
      simpa using hlt
    have key : ∀ st1 : DijkstraState V E D, st1.heap = st.heap → st1.dist = st.dist → st1.color = st.color →
        (∀ x e', e' ∈ st1.predsOf x ↔ e' ∈ st.predsOf x ∨ (e' = e ∧ x = g.target e ∧ a.combine (st'.distOf a u) (a.weight e) = st.distOf a (g.target e))) →
        (∀ x, x ≠ g.target e → st1.predsOf x = st.predsOf x) →
        st1.trace.filter (dijkstraUnmasked g m) = st.trace.filter (dijkstraUnmasked g m) → Rel a g s m c0 p0 bs (some u) (P ++ [e]) st1 st' := by
      intro st1 k1 k2 k3 k4 k5 k6
      have hd : ∀ x, st1.distOf a x = st.distOf a x := by intro x; unfold distOf; rw [k2]
      refine ⟨k1.trans r.heap, fun v hv => by rw [hd]; exact r.dist v hv, fun v => by rw [k3]; exact r.color v, r.white, ?_, ?_, ?_, ?_, ?_, ?_⟩
      · intro v hv; rw [k5 v (Ne.symm (hne v hv))]; exact r.predsEq v hv
      · intro v hv; rw [k5 v (Ne.symm (hne v hv))]; exact r.predsOld v hv
      · intro b e' hex hme'
        rw [hd]
        rw [ex_snoc] at hex
        rcases hex with hex | ⟨rfl, rfl⟩
        · exact r.maskLe b e' hex hme'
        · exact hle
      · intro v hv hmv
        rw [hd]
        rcases r.maskEx v hv hmv with h1 | ⟨h1, b, e', h2, h3⟩
        · exact .inl h1
        · exact .inr ⟨h1, b, e', (ex_snoc _ _).mpr (.inl h2), h3⟩
      · intro v hv0 hmv hlt' e'
        rw [hd] at hlt' ⊢
        rw [k4, r.maskPreds v hv0 hmv hlt' e']
        constructor
        · rintro (⟨b, h1, h2⟩ | ⟨rfl, rfl, h2⟩)
          · exact ⟨b, (ex_snoc _ _).mpr (.inl h1), h2⟩
          · exact ⟨u, (ex_snoc _ _).mpr (.inr ⟨rfl, rfl⟩), rfl, h2⟩
        · rintro ⟨b, hex, h2, h3⟩
          rw [ex_snoc] at hex
          rcases hex with hex | ⟨rfl, rfl⟩
          · exact .inl ⟨b, hex, h2, h3⟩
          · exact .inr ⟨rfl, h2.symm, by rw [h3, h2]⟩
      · rw [k6]; exact r.trace
    split
    · rename_i heq
      refine key _ rfl rfl rfl ?_ ?_ (by simp [DijkstraState.emit, List.filter_cons, dijkstraUnmasked, hme])
      · intro x e'
        show e' ∈ (st.preds.set (g.target e) (setAdd (st.predsOf (g.target e)) e)).getD x [] ↔ _
        rw [predsOf_set]
        split
        · rename_i hx; subst hx
          rw [mem_setAdd]
          constructor
          · rintro (h1 | h1)
            · exact .inl h1
            · exact .inr ⟨h1, rfl, heq⟩
          · rintro (h1 | ⟨h1, _⟩)
            · exact .inl h1
            · exact .inr h1
        · rename_i hx
          constructor
          · exact .inl
          · rintro (h1 | ⟨_, h1, _⟩)
            · exact h1
            · exact absurd h1.symm hx
      · intro x hx
        show (st.preds.set (g.target e) (setAdd (st.predsOf (g.target e)) e)).getD x [] = _
        rw [predsOf_set, if_neg (Ne.symm hx)]
    · rename_i heq
      refine key _ rfl rfl rfl ?_ (fun x _ => rfl) (by simp [DijkstraState.emit, List.filter_cons, dijkstraUnmasked, hme])
      intro x e'
      constructor
      · exact .inl
      · rintro (h1 | ⟨_, _, h1⟩)
        · exact h1
        · exact absurd h1 heq

/-- One edge towards a vertex out of the mask: the two searches do the same. -/
theorem Rel.openEdge (h : Hyp a g s) (hms : m s = false) {bs : List V} {u : V} {P Q : List E}
    {st st' : DijkstraState V E D} (r : Rel a g s m c0 p0 bs (some u) P st st') (i : Inv a (unmasked g m) s bs (some u) Q st') {e : E}
    (he : e ∈ g.outEdges u) (hme : m (g.target e) = false) :
    Rel a g s m c0 p0 bs (some u) (P ++ [e]) (dijkstraEdge a g (st'.distOf a u) st e) (dijkstraEdge a (unmasked g m) (st'.distOf a u) st' e) := by
  have he' : e ∈ (unmasked g m).outEdges u := List.mem_filter.mpr ⟨he, by simp [hme]⟩
  obtain ⟨_, hf⟩ := i.relax_facts (h.mask m) he'
  have hdt := r.dist _ hme
  have hcolt : colorOf st.color (g.target e) = colorOf st'.color (g.target e) := by have := r.color (g.target e); rw [hme] at this; simpa using this
  have hex : ∀ b e', Ex g bs (some u) (P ++ [e]) b e' → m (g.target e') = true → Ex g bs (some u) P b e' := by
    intro b e' hx hm'
    rw [ex_snoc] at hx
    rcases hx with hx | ⟨_, rfl⟩
    · exact hx
    · rw [hme] at hm'; cases hm'
  have hnem : ∀ v, m v = true → g.target e ≠ v := by intro v hv heq; rw [← heq, hme] at hv; cases hv
  have tgt : (unmasked g m).target e = g.target e := rfl
  unfold dijkstraEdge
  rw [tgt] at hf ⊢
  rw [← hdt] at hf ⊢
  by_cases hlt : a.compare (a.combine (st'.distOf a u) (a.weight e)) (st.distOf a (g.target e)) = true
  · rw [if_pos hlt, if_pos hlt]
    obtain ⟨f1, f2, f3, _⟩ := hf hlt
    have key : ∀ st1 st1' : DijkstraState V E D, st1.heap = st1'.heap →
        (∀ x, st1.distOf a x = if g.target e = x then a.combine (st'.distOf a u) (a.weight e) else st.distOf a x) →
        (∀ x, st1'.distOf a x = if g.target e = x then a.combine (st'.distOf a u) (a.weight e) else st'.distOf a x) →
        (∀ x, st1.predsOf x = if g.target e = x then [e] else st.predsOf x) →
        (∀ x, st1'.predsOf x = if g.target e = x then [e] else st'.predsOf x) →
        (∀ x, colorOf st1.color x = if g.target e = x then .gray else colorOf st.color x) →
        (∀ x, colorOf st1'.color x = if g.target e = x then .gray else colorOf st'.color x) →
        st1'.trace = st1.trace.filter (dijkstraUnmasked g m) → Rel a g s m c0 p0 bs (some u) (P ++ [e]) st1 st1' := by
      intro st1 st1' k1 k2 k3 k4 k5 k6 k7 k8
      have hb : ∀ b e', Ex g bs (some u) P b e' → st1'.distOf a b = st'.distOf a b := by
        intro b e' hx
        rw [k3, if_neg]
        rintro rfl
        rcases hx with ⟨hx, _⟩ | ⟨hx, _⟩
        · exact f3 hx
        · exact f2 (Option.some.inj hx).symm
      refine ⟨k1, ?_, ?_, ?_, ?_, ?_, ?_, ?_, ?_, k8⟩
      · intro v hv; rw [k2, k3, r.dist v hv]
      · intro v
        rw [k6, k7, r.color v]
        by_cases hv : g.target e = v
        · subst hv; simp [hme]
        · simp [hv]
      · intro v hv; rw [k7, if_neg (hnem v hv)]; exact r.white v hv
      · intro v hv hvs hvc
        rw [k4, k5]
        by_cases hv' : g.target e = v
        · simp [hv']
        · rw [if_neg hv', if_neg hv']
          rw [k7, if_neg hv'] at hvc
          exact r.predsEq v hv hvs hvc
      · intro v hv hvs
        have hv' : g.target e ≠ v := by
          rintro rfl
          rcases hvs with hvs | hvs
          · exact f1 hvs
          · rw [k7, if_pos rfl] at hvs; cases hvs
        rw [k7, if_neg hv'] at hvs
        rw [k4, k5, if_neg hv', if_neg hv']
        exact r.predsOld v hv hvs
      · intro b e' hx hm'
        have hx' := hex b e' hx hm'
        rw [k2, if_neg (hnem _ hm'), hb b e' hx']
        exact r.maskLe b e' hx' hm'
      · intro v hv hmv
        rw [k2, if_neg (hnem v hmv)]
        rcases r.maskEx v hv hmv with h1 | ⟨h1, b, e', h2, h3⟩
        · exact .inl h1
        · exact .inr ⟨h1, b, e', (ex_snoc _ _).mpr (.inl h2), by rw [hb b e' h2]; exact h3⟩
      · intro v hv0 hmv hlt' e'
        rw [k2, if_neg (hnem v hmv)] at hlt' ⊢
        rw [k4, if_neg (hnem v hmv), r.maskPreds v hv0 hmv hlt' e']
        refine exists_congr fun b => ?_
        constructor
        · rintro ⟨h1, h2, h3⟩; exact ⟨(ex_snoc _ _).mpr (.inl h1), h2, by rw [hb b e' h1]; exact h3⟩
        · rintro ⟨h1, h2, h3⟩
          have h1' := hex b e' h1 (by rw [h2]; exact hmv)
          exact ⟨h1', h2, by rw [← hb b e' h1']; exact h3⟩
    have hgray : ∀ (c : Dict V Color), colorOf c (g.target e) = .gray → ∀ x, colorOf c x = if g.target e = x then .gray else colorOf c x := by
      intro c hc x
      split
      · rename_i hx; rw [← hx]; exact hc
      · rfl
    unfold dijkstraQueue
    simp only [DijkstraState.emit, hcolt]
    cases hc : colorOf st'.color (g.target e) with
    | white =>
      simp only
      refine key _ _ ?_ (fun x => distOf_set st _ _ _) (fun x => distOf_set st' _ _ _) (fun x => predsOf_set st _ _ _) (fun x => predsOf_set st' _ _ _)
        (fun x => colorOf_set _ _ _ _) (fun x => colorOf_set _ _ _ _) (by simp [r.trace, List.filter_cons, dijkstraUnmasked, hme])
      simp only [r.heap]
      refine push_congr ?_ _
      exact (distOf_set st _ _ _).trans ((if_pos rfl).trans ((distOf_set st' _ _ _).trans (if_pos rfl)).symm)
    | gray =>
      simp only
      refine key _ _ ?_ (fun x => distOf_set st _ _ _) (fun x => distOf_set st' _ _ _) (fun x => predsOf_set st _ _ _) (fun x => predsOf_set st' _ _ _)
        (hgray _ (hcolt.trans hc)) (hgray _ hc) (by simp [r.trace, List.filter_cons, dijkstraUnmasked, hme])
      simp only [r.heap]
      refine decreaseKey_congr ?_ _
      exact (distOf_set st _ _ _).trans ((if_pos rfl).trans ((distOf_set st' _ _ _).trans (if_pos rfl)).symm)
    | black => exact absurd ((i.black _).mp hc) f3
  · rw [if_neg hlt, if_neg hlt]
    have key : ∀ st1 st1' : DijkstraState V E D, st1.heap = st.heap → st1'.heap = st'.heap → st1.dist = st.dist → st1'.dist = st'.dist → st1.color = st.color →
        st1'.color = st'.color → (∀ x, x ≠ g.target e → st1.predsOf x = st.predsOf x ∧ st1'.predsOf x = st'.predsOf x) →
        ((st1.predsOf (g.target e) = st.predsOf (g.target e) ∧ st1'.predsOf (g.target e) = st'.predsOf (g.target e)) ∨
          (st1.predsOf (g.target e) = setAdd (st.predsOf (g.target e)) e ∧ st1'.predsOf (g.target e) = setAdd (st'.predsOf (g.target e)) e)) →
        st1'.trace = st1.trace.filter (dijkstraUnmasked g m) → Rel a g s m c0 p0 bs (some u) (P ++ [e]) st1 st1' := by
      intro st1 st1' k1 k1' k2 k2' k3 k3' k4 k5 k6
      have hd : ∀ x, st1.distOf a x = st.distOf a x := by intro x; unfold distOf; rw [k2]
      have hd' : ∀ x, st1'.distOf a x = st'.distOf a x := by intro x; unfold distOf; rw [k2']
      refine ⟨by rw [k1, k1', r.heap], fun v hv => by rw [hd, hd', r.dist v hv], fun v => by rw [k3, k3', r.color v], fun v hv => by rw [k3', r.white v hv],
        ?_, ?_, ?_, ?_, ?_, k6⟩
      · intro v hv hvs hvc
        rw [k3'] at hvc
        have := r.predsEq v hv hvs hvc
        by_cases hx : v = g.target e
        · subst hx
          rcases k5 with ⟨k5, k5'⟩ | ⟨k5, k5'⟩ <;> rw [k5, k5', this]
        · rw [(k4 v hx).1, (k4 v hx).2, this]
      · intro v hv hvs e'
        rw [k3'] at hvs
        have := r.predsOld v hv hvs e'
        by_cases hx : v = g.target e
        · subst hx
          rcases k5 with ⟨k5, k5'⟩ | ⟨k5, k5'⟩
          · rw [k5, k5', this]
          · rw [k5, k5', mem_setAdd, mem_setAdd, this]; tauto
        · rw [(k4 v hx).1, (k4 v hx).2, this]
      · intro b e' hx hm'
        rw [hd, hd']
        exact r.maskLe b e' (hex b e' hx hm') hm'
      · intro v hv hmv
        rw [hd]
        rcases r.maskEx v hv hmv with h1 | ⟨h1, b, e', h2, h3⟩
        · exact .inl h1
        · exact .inr ⟨h1, b, e', (ex_snoc _ _).mpr (.inl h2), by rw [hd']; exact h3⟩
      · intro v hv0 hmv hlt' e'
        rw [hd] at hlt' ⊢
        rw [(k4 v (Ne.symm (hnem v hmv))).1, r.maskPreds v hv0 hmv hlt' e']
        refine exists_congr fun b => ?_
        rw [hd']
        constructor
        · rintro ⟨h1, h2, h3⟩; exact ⟨(ex_snoc _ _).mpr (.inl h1), h2, h3⟩
        · rintro ⟨h1, h2, h3⟩; exact ⟨hex b e' h1 (by rw [h2]; exact hmv), h2, h3⟩
    by_cases heq : a.combine (st'.distOf a u) (a.weight e) = st.distOf a (g.target e)
    · rw [if_pos heq, if_pos heq]
      refine key _ _ rfl rfl rfl rfl rfl rfl ?_ (.inr ⟨?_, ?_⟩) (by simp [DijkstraState.emit, r.trace, List.filter_cons, dijkstraUnmasked, hme])
      · intro x hx
        exact ⟨(predsOf_set st _ _ _).trans (if_neg (Ne.symm hx)), (predsOf_set st' _ _ _).trans (if_neg (Ne.symm hx))⟩
      · exact (predsOf_set st _ _ _).trans (if_pos rfl)
      · exact (predsOf_set st' _ _ _).trans (if_pos rfl)
    · rw [if_neg heq, if_neg heq]
      exact key _ _ rfl rfl rfl rfl rfl rfl (fun x _ => ⟨rfl, rfl⟩) (.inl ⟨rfl, rfl⟩)
        (by simp [DijkstraState.emit, r.trace, List.filter_cons, dijkstraUnmasked, hme])

/-- The loop over the out-edges. -/
theorem Rel.edges (h : Hyp a g s) (hm : ∀ v, m v = true → colorOf c0 v ≠ .white) (hms : m s = false) {bs : List V} {u : V} (es : List E) :
    ∀ {P : List E} {st st' : DijkstraState V E D}, Rel a g s m c0 p0 bs (some u) P st st' →
      Inv a (unmasked g m) s bs (some u) (P.filter fun e => !m (g.target e)) st' → (∀ e ∈ es, e ∈ g.outEdges u) →
      Rel a g s m c0 p0 bs (some u) (P ++ es) (es.foldl (dijkstraEdge a g (st'.distOf a u)) st)
        ((es.filter fun e => !m (g.target e)).foldl (dijkstraEdge a (unmasked g m) (st'.distOf a u)) st') := by
  induction es with
  | nil => intro P st st' r _ _; simpa using r
  | cons e es ih =>
    intro P st st' r i hes
    have he := hes e (by simp)
    rw [List.foldl_cons]
    cases hme : m (g.target e) with
    | true =>
      have r1 := r.maskedEdge h hm hms i hme
      have := ih r1 (by simpa [List.filter_append, List.filter_cons, hme] using i) fun x hx => hes x (by simp [hx])
      simpa [List.filter_cons, hme] using this
    | false =>
      have he' : e ∈ (unmasked g m).outEdges u := List.mem_filter.mpr ⟨he, by simp [hme]⟩
      have r1 := r.openEdge h hms i he hme
      have i1 := i.edgeStep (h.mask m) he'
      have hd := edge_dist_cur (h.mask m) i he'
      have := ih r1 (by simpa [List.filter_append, List.filter_cons, hme] using i1) fun x hx => hes x (by simp [hx])
      rw [hd] at this
      simpa [List.filter_cons, hme] using this

/-- `examine_vertex(u)`. -/
theorem Rel.pop {bs : List V} {st st' : DijkstraState V E D} (r : Rel a g s m c0 p0 bs none [] st st') (u : V) (hp : Heap D V) :
    Rel a g s m c0 p0 bs (some u) [] (({ st with heap := hp }).emit (.examineVertex u)) (({ st' with heap := hp }).emit (.examineVertex u)) := by
  have hEx : ∀ b e, Ex g bs (some u) [] b e ↔ Ex g bs none [] b e := by intro b e; simp [Ex]
  refine ⟨rfl, r.dist, r.color, r.white, r.predsEq, r.predsOld, fun b e hx => r.maskLe b e ((hEx b e).mp hx), ?_, ?_, ?_⟩
  · intro v hv hmv
    rcases r.maskEx v hv hmv with h1 | ⟨h1, b, e, h2, h3⟩
    · exact .inl h1
    · exact .inr ⟨h1, b, e, (hEx b e).mpr h2, h3⟩
  · intro v hv hmv hlt e
    exact (r.maskPreds v hv hmv hlt e).trans (exists_congr fun b => and_congr_left' (hEx b e).symm)
  · simp [DijkstraState.emit, r.trace, List.filter_cons, dijkstraUnmasked]

/-- `finish_vertex(u)`. -/
theorem Rel.finish {bs : List V} {u : V} (hu : m u = false) {st st' : DijkstraState V E D} (r : Rel a g s m c0 p0 bs (some u) (g.outEdges u) st st')
    (ho : colorOf st'.color u ≠ .white ∨ u = s) :
    Rel a g s m c0 p0 (bs ++ [u]) none [] (({ st with color := st.color.set u .black }).emit (.finishVertex u))
      (({ st' with color := st'.color.set u .black }).emit (.finishVertex u)) := by
  have hEx : ∀ b e, Ex g (bs ++ [u]) none [] b e ↔ Ex g bs (some u) (g.outEdges u) b e := by
    intro b e
    simp only [Ex, List.mem_append, List.mem_singleton, Option.some.injEq]
    constructor
    · rintro (⟨h1 | rfl, h2⟩ | ⟨h1, _⟩)
      · exact .inl ⟨h1, h2⟩
      · exact .inr ⟨rfl, h2⟩
      · cases h1
    · rintro (⟨h1, h2⟩ | ⟨rfl, h2⟩)
      · exact .inl ⟨.inl h1, h2⟩
      · exact .inl ⟨.inr rfl, h2⟩
  have hcol : ∀ v, colorOf (st'.color.set u .black) v = if u = v then .black else colorOf st'.color v := fun v => colorOf_set _ _ _ _
  refine ⟨r.heap, r.dist, r.color.set hu _, ?_, ?_, ?_, fun b e hx => r.maskLe b e ((hEx b e).mp hx), ?_, ?_, ?_⟩
  · intro v hv
    refine (hcol v).trans ?_
    rw [if_neg (by rintro rfl; rw [hu] at hv; cases hv)]
    exact r.white v hv
  · intro v hv hvs _
    by_cases huv : u = v
    · subst huv
      exact r.predsEq u hv hvs (ho.resolve_right hvs)
    · rename_i hc
      refine r.predsEq v hv hvs fun hc' => hc ?_
      exact (hcol v).trans ((if_neg huv).trans hc')
  · intro v hv hvs
    refine r.predsOld v hv (hvs.imp id fun hc => ?_)
    have hc' := (hcol v).symm.trans hc
    by_cases huv : u = v
    · rw [if_pos huv] at hc'; cases hc'
    · rwa [if_neg huv] at hc'
  · intro v hv hmv
    rcases r.maskEx v hv hmv with h1 | ⟨h1, b, e, h2, h3⟩
    · exact .inl h1
    · exact .inr ⟨h1, b, e, (hEx b e).mpr h2, h3⟩
  · intro v hv hmv hlt e
    exact (r.maskPreds v hv hmv hlt e).trans (exists_congr fun b => and_congr_left' (hEx b e).symm)
  · simp [DijkstraState.emit, r.trace, List.filter_cons, dijkstraUnmasked]

/-- The initialisation. -/
theorem Rel.init (h : Hyp a g s) (hm0 : ∀ v, m v = false → v ≠ s → colorOf c0 v = .white) (hms : m s = false) (dist : Dict V D) :
    Rel a g s m c0 p0 [] none [] (dijkstraInitFrom a g s dist p0 c0) (dijkstraInit a (unmasked g m) s dist []) := by
  obtain ⟨h1, h2, h3, h4⟩ := initFold (a := a) (s := s) g.vertices ⟨dist, p0, c0.set s .white, ⟨[], 0⟩, []⟩
  obtain ⟨k1, k2, k3, k4⟩ := initFold (a := a) (s := s) (E := E) g.vertices ⟨dist, [], Dict.set [] s .white, ⟨[], 0⟩, []⟩
  unfold dijkstraInitFrom dijkstraInit
  have hv : (unmasked g m).vertices = g.vertices := rfl
  simp only [hv]
  generalize g.vertices.foldl (dijkstraInitVertex a s) ⟨dist, p0, c0.set s .white, ⟨[], 0⟩, []⟩ = st at h1 h2 h3 h4
  generalize g.vertices.foldl (dijkstraInitVertex a s) ⟨dist, [], Dict.set [] s .white, ⟨[], 0⟩, []⟩ = st' at k1 k2 k3 k4
  have hd : ∀ v, st.distOf a v = st'.distOf a v := by
    intro v; rw [h3, k3]; rfl
  have hw : ∀ v, colorOf st'.color v = .white := by
    intro v; rw [k1]; show colorOf (Dict.set [] s .white) v = _; rw [colorOf_set]; split <;> rfl
  have hdf : st.distOf a = st'.distOf a := funext hd
  refine ⟨by show Heap.make a.ord (st.distOf a) [s] = Heap.make a.ord (st'.distOf a) [s]; rw [hdf], fun v _ => hd v, ?_, fun v _ => hw v, ?_, ?_, ?_, ?_, ?_, ?_⟩
  · intro v
    show colorOf st.color v = if m v then colorOf c0 v else colorOf st'.color v
    rw [hw, h1]
    show colorOf (c0.set s .white) v = _
    rw [colorOf_set]
    by_cases hvs : s = v
    · subst hvs; simp [hms]
    · rw [if_neg hvs]
      cases hmv : m v with
      | true => rfl
      | false => exact hm0 v hmv (Ne.symm hvs)
  · intro v _ _ hc; exact absurd (hw v) hc
  · intro v _ _ e
    show e ∈ st.preds.getD v [] ↔ e ∈ st'.preds.getD v [] ∨ _
    rw [h2, k2]
    simp [Dict.getD, Dict.get?]
  · rintro b e (⟨hb, _⟩ | ⟨hb, _⟩) <;> cases hb
  · intro v hv' hmv
    refine .inl ?_
    show st.distOf a v = _
    rw [h3, if_pos hv', if_neg]
    rintro rfl; rw [hms] at hmv; cases hmv
  · intro v hv' hmv hlt
    exfalso
    have hlt' : a.compare (st.distOf a v) a.infty = true := hlt
    rw [h3, if_pos hv', if_neg (by rintro rfl; rw [hms] at hmv; cases hmv), h.alg.irrefl] at hlt'
    cases hlt'
  · show st'.trace = st.trace.filter _
    rw [h4, k4]
    simp [List.filter_map, Function.comp_def, dijkstraUnmasked]

/-- The vertices of the heap are out of the mask. -/
theorem open_unmasked (hms : m s = false) {bs : List V} {cur : Option V} {P : List E} {st st' : DijkstraState V E D} (r : Rel a g s m c0 p0 bs cur P st st') {u : V}
    (ho : Open s st' u) : m u = false := by
  cases hmu : m u with
  | false => rfl
  | true =>
    rcases ho with ho | ⟨rfl, _⟩
    · rw [r.white u hmu] at ho; cases ho
    · rw [hms] at hmu; cases hmu

/-- The search with the maps of the caller and the search with new maps of the graph without the edges towards the mask go hand in hand. -/
theorem mask_run (h : Hyp a g s) (hm : ∀ v, m v = true ↔ v ≠ s ∧ colorOf c0 v ≠ .white) (stop : V → Bool) (dist : Dict V D) :
    ∃ r st st' bs, Returns (dijkstraFrom a g s stop dist p0 c0) (.ok (r, st)) ∧ Returns (dijkstra a (unmasked g m) s stop dist []) (.ok (r, st')) ∧
      (∀ b ∈ bs, stop b = false) ∧
      ((r = false ∧ Inv a (unmasked g m) s bs none [] st' ∧ (∀ v, ¬ Open s st' v) ∧ Rel a g s m c0 p0 bs none [] st st') ∨
        (r = true ∧ ∃ u, stop u = true ∧ Inv a (unmasked g m) s bs (some u) [] st' ∧ Rel a g s m c0 p0 bs (some u) [] st st')) := by
  have hms : m s = false := by
    cases hc : m s with
    | false => rfl
    | true => exact absurd rfl ((hm s).mp hc).1
  have hm1 : ∀ v, m v = true → colorOf c0 v ≠ .white := fun v hv => ((hm v).mp hv).2
  have hm0 : ∀ v, m v = false → v ≠ s → colorOf c0 v = .white := by
    intro v hv hvs
    by_contra hc
    rw [(hm v).mpr ⟨hvs, hc⟩] at hv
    cases hv
  let R : DijkstraState V E D → DijkstraState V E D → Prop := fun st st' =>
    ∃ bs, (∀ b ∈ bs, stop b = false) ∧ Inv a (unmasked g m) s bs none [] st' ∧ Rel a g s m c0 p0 bs none [] st st'
  let Q : Bool × DijkstraState V E D → Bool × DijkstraState V E D → Prop := fun x x' => x.1 = x'.1 ∧ ∃ bs, (∀ b ∈ bs, stop b = false) ∧
      ((x.1 = false ∧ Inv a (unmasked g m) s bs none [] x'.2 ∧ (∀ v, ¬ Open s x'.2 v) ∧ Rel a g s m c0 p0 bs none [] x.2 x'.2) ∨
        (x.1 = true ∧ ∃ u, stop u = true ∧ Inv a (unmasked g m) s bs (some u) [] x'.2 ∧ Rel a g s m c0 p0 bs (some u) [] x.2 x'.2))
  have hlock := loop_lockstep (step := dijkstraStep a g stop) (step' := dijkstraStep a (unmasked g m) stop) R Q (by
    rintro t st st' ⟨bs, hb, i, r⟩
    unfold dijkstraStep
    rw [r.heap]
    by_cases hne : st'.heap.nonempty = true
    · rw [if_pos hne, if_pos hne]
      obtain ⟨u, heap, e1, i1⟩ := i.popStep (h.mask m) hne
      simp only [e1]
      have r1 := r.pop u heap
      have hu := open_unmasked hms r1 (i1.curOk u rfl)
      by_cases hs : stop u = true
      · rw [if_pos hs, if_pos hs]
        exact .inr (.inl ⟨_, _, rfl, rfl, rfl, bs, hb, .inr ⟨rfl, u, hs, i1, r1⟩⟩)
      · rw [if_neg hs, if_neg hs]
        refine .inl ⟨_, _, rfl, rfl, bs ++ [u], ?_, ?_, ?_⟩
        · intro b hb'
          rw [List.mem_append, List.mem_singleton] at hb'
          rcases hb' with hb' | rfl
          · exact hb b hb'
          · simpa using hs
        · have h3 := i1.edges (h.mask m) ((unmasked g m).outEdges u) fun e he => he
          rw [List.nil_append] at h3
          exact h3.finish
        · have h3 := i1.edges (h.mask m) ((unmasked g m).outEdges u) fun e he => he
          have r2 := r1.edges h hm1 hms (g.outEdges u) (by simpa using i1) fun e he => he
          rw [List.nil_append] at r2
          have ho := h3.curOk u rfl
          have hd : st.distOf a u = st'.distOf a u := r.dist u hu
          rw [hd]
          exact Rel.finish hu r2 (by
            rcases ho with ho | ho
            · exact .inl (by intro hc; exact absurd (ho.symm.trans hc) (by decide))
            · exact .inr ho.1)
    · rw [if_neg hne, if_neg hne]
      refine .inr (.inl ⟨_, _, rfl, rfl, rfl, bs, hb, .inl ⟨rfl, i, ?_, r⟩⟩)
      intro v hv
      have := (i.heapMem v).mpr ⟨by simp, hv⟩
      have hd : st'.heap.data = [] := by
        unfold Heap.nonempty at hne
        simpa using hne
      rw [hd] at this
      cases this) (s := dijkstraInitFrom a g s dist p0 c0) (s' := dijkstraInit a (unmasked g m) s dist [])
    ⟨[], by simp, Inv.init (h.mask m) (fun v => by simp [Dict.getD, Dict.get?]), Rel.init h hm0 hms dist⟩
  obtain ⟨r, st', _, hr, _⟩ := run (h.mask m) stop dist (preds := []) (fun v => by simp [Dict.getD, Dict.get?])
  obtain ⟨⟨r0, st⟩, k1, k2, bs, k3, k4⟩ := returns_lockstep (run := dijkstraFrom a g s stop dist p0 c0) (run' := dijkstra a (unmasked g m) s stop dist [])
    (fun fuel => hlock fuel 0) (fun n k r hnk hn => loop_mono _ hn hnk) hr
  simp only at k2 k3 k4
  subst k2
  exact ⟨r0, st, st', bs, k1, hr, k3, k4⟩

/-- The paths of the graph without the edges towards the mask. -/
theorem path_mask {u v : V} {p : List E} : IsPath (unmasked g m) u p v ↔ IsPath g u p v ∧ ∀ e ∈ p, m (g.target e) = false := by
  constructor
  · intro h
    induction h with
    | nil => exact ⟨.nil _, by simp⟩
    | @cons u w e p he _ ih =>
      obtain ⟨h1, h2⟩ := List.mem_filter.mp he
      refine ⟨.cons h1 ih.1, ?_⟩
      intro e' he'
      rcases List.mem_cons.mp he' with rfl | he'
      · simpa using h2
      · exact ih.2 e' he'
  · rintro ⟨h1, h2⟩
    induction h1 with
    | nil => exact .nil _
    | @cons u w e p he _ ih =>
      exact .cons (g := unmasked g m) (List.mem_filter.mpr ⟨he, by simpa using h2 e (by simp)⟩) (ih fun e' he' => h2 e' (by simp [he']))

/-- The best weights after a search with the maps of the caller. -/
theorem Rel.best (h : Hyp a g s) (hms : m s = false) {bs : List V} {st st' : DijkstraState V E D} (i : Inv a (unmasked g m) s bs none [] st')
    (hno : ∀ v, ¬ Open s st' v) (r : Rel a g s m c0 p0 bs none [] st st') {v : V} (hv : v ∈ g.vertices) :
    IsBest a.compare a.infty (fun d => ∃ p, IsPath g s p v ∧ (∀ e ∈ p.dropLast, m (g.target e) = false) ∧ pathWeight a.combine a.zero a.weight p = d)
      (st.distOf a v) := by
  cases hmv : m v with
  | false =>
    rw [r.dist v hmv]
    have hb := i.best (h.mask m) hno (v := v) hv
    have hiff : ∀ d, (∃ p, IsPath (unmasked g m) s p v ∧ pathWeight a.combine a.zero a.weight p = d) ↔
        ∃ p, IsPath g s p v ∧ (∀ e ∈ p.dropLast, m (g.target e) = false) ∧ pathWeight a.combine a.zero a.weight p = d := by
      intro d
      refine exists_congr fun p => ?_
      rw [path_mask, and_assoc]
      refine and_congr_right fun hp => and_congr_left' ⟨fun h1 e he => h1 e (List.dropLast_subset _ he), fun h1 => ?_⟩
      rcases List.eq_nil_or_concat p with rfl | ⟨q, e, rfl⟩
      · simp
      · rw [List.concat_eq_append] at h1 hp ⊢
        rw [List.dropLast_concat] at h1
        obtain ⟨_, _, _, h3⟩ := snoc_inv hp
        intro e' he'
        rw [List.mem_append, List.mem_singleton] at he'
        rcases he' with he' | rfl
        · exact h1 e' he'
        · rw [h3]; exact hmv
    unfold IsBest at hb ⊢
    simpa only [hiff] using hb
  | true =>
    have hsv : v ≠ s := by rintro rfl; rw [hms] at hmv; cases hmv
    have low : ∀ q b e, IsPath (unmasked g m) s q b → e ∈ g.outEdges b → g.target e = v →
        a.compare (pathWeight a.combine a.zero a.weight (q ++ [e])) a.infty = true → Le a (st.distOf a v) (pathWeight a.combine a.zero a.weight (q ++ [e])) := by
      intro q b e hq he hev hlt
      rw [pathWeight_snoc] at hlt ⊢
      have hW : ∃ u ∈ g.vertices, ∃ e' ∈ g.outEdges u, a.weight e = a.weight e' := ⟨b, h.pathV (path_mask.mp hq).1, e, he, rfl⟩
      obtain ⟨h6, h7⟩ := i.final (h.mask m) hno q b hq (h.alg.back _ _ hW hlt)
      have h8 := r.maskLe b e (.inl ⟨h6, he⟩) (by rw [hev]; exact hmv)
      rw [hev] at h8
      exact h.leTrans h8 (h.alg.mono _ _ _ hW h7 hlt)
    have split : ∀ p, IsPath g s p v → (∀ e ∈ p.dropLast, m (g.target e) = false) → ∃ q b e, p = q ++ [e] ∧ IsPath (unmasked g m) s q b ∧ e ∈ g.outEdges b ∧
        g.target e = v := by
      intro p hp h1
      rcases List.eq_nil_or_concat p with rfl | ⟨q, e, rfl⟩
      · cases hp; exact absurd rfl hsv
      · rw [List.concat_eq_append] at h1 hp ⊢
        rw [List.dropLast_concat] at h1
        obtain ⟨b, h2, h3, h4⟩ := snoc_inv hp
        exact ⟨q, b, e, rfl, path_mask.mpr ⟨h2, h1⟩, h3, h4⟩
    rcases r.maskEx v hv hmv with h1 | ⟨h1, b, e, h2, h3, h4⟩
    · refine .inr ⟨h1, ?_⟩
      rintro w ⟨p, hp, h2, rfl⟩
      obtain ⟨q, b, e, rfl, k1, k2, k3⟩ := split p hp h2
      cases hw : a.compare (pathWeight a.combine a.zero a.weight (q ++ [e])) a.infty with
      | false => rfl
      | true =>
        have := low q b e k1 k2 k3 hw
        rw [h1] at this
        exact absurd hw (by rw [show a.compare (pathWeight a.combine a.zero a.weight (q ++ [e])) a.infty = false from this]; decide)
    · rcases h2 with ⟨hb, he⟩ | ⟨hb, _⟩
      · obtain ⟨_, q, k1, k2⟩ := i.disc b (.inr hb)
        obtain ⟨k1', k1''⟩ := path_mask.mp k1
        refine .inl ⟨⟨q ++ [e], by rw [← h3]; exact k1'.snoc he, by simpa using k1'', by rw [pathWeight_snoc, k2, h4]⟩, h1, ?_⟩
        rintro w ⟨p, hp, h2, rfl⟩
        obtain ⟨q, b, e, rfl, k1, k2, k3⟩ := split p hp h2
        cases hw : a.compare (pathWeight a.combine a.zero a.weight (q ++ [e])) (st.distOf a v) with
        | false => rfl
        | true =>
          have := low q b e k1 k2 k3 (h.alg.trans _ _ _ hw h1)
          exact absurd hw (by rw [show a.compare (pathWeight a.combine a.zero a.weight (q ++ [e])) (st.distOf a v) = false from this]; decide)
      · cases hb

/-- The colours after a search with the maps of the caller. -/
theorem Rel.finalColor (h : Hyp a g s) {bs : List V} {st st' : DijkstraState V E D} (i : Inv a (unmasked g m) s bs none [] st')
    (hno : ∀ v, ¬ Open s st' v) (r : Rel a g s m c0 p0 bs none [] st st') {v : V} (hv : v ∈ g.vertices) :
    colorOf st.color v = if m v then colorOf c0 v else if a.compare (st.distOf a v) a.infty then .black else .white := by
  rw [r.color v]
  cases hmv : m v with
  | true => rfl
  | false =>
    simp only [Bool.false_eq_true, if_false]
    rw [r.dist v hmv]
    have hb := i.black_iff (h.mask m) hno (v := v) hv
    cases hc : a.compare (st'.distOf a v) a.infty with
    | true => simpa using (i.black v).mpr (hb.mpr hc)
    | false =>
      simp only [Bool.false_eq_true, if_false]
      cases hcol : colorOf st'.color v with
      | white => rfl
      | gray => exact absurd (.inl hcol) (hno v)
      | black => rw [hb.mp ((i.black v).mp hcol)] at hc; cases hc

/-- The predecessors after a search with the maps of the caller. -/
theorem Rel.optimal (h : Hyp a g s) {bs : List V} {st st' : DijkstraState V E D} (i : Inv a (unmasked g m) s bs none [] st')
    (hno : ∀ v, ¬ Open s st' v) (r : Rel a g s m c0 p0 bs none [] st st') {v : V} (hv : v ∈ g.vertices) (hvs : v ≠ s)
    (hlt : a.compare (st.distOf a v) a.infty = true) (e : E) :
    e ∈ st.predsOf v ↔ ∃ p, IsPath g s (p ++ [e]) v ∧ (∀ e' ∈ p, m (g.target e') = false) ∧ pathWeight a.combine a.zero a.weight (p ++ [e]) = st.distOf a v := by
  cases hmv : m v with
  | false =>
    rw [r.dist v hmv] at hlt ⊢
    have hb := (i.black_iff (h.mask m) hno (v := v) hv).mpr hlt
    rw [r.predsEq v hmv hvs (by rw [(i.black v).mpr hb]; decide), i.optimal (h.mask m) hno hlt e]
    refine exists_congr fun p => ?_
    rw [path_mask, and_assoc]
    refine and_congr_right fun hp => and_congr_left' ?_
    obtain ⟨_, _, _, h3⟩ := snoc_inv hp
    simp only [List.mem_append, List.mem_singleton]
    refine ⟨fun h1 e' he' => h1 e' (.inl he'), ?_⟩
    rintro h1 e' (he' | rfl)
    · exact h1 e' he'
    · rw [h3]; exact hmv
  | true =>
    rw [r.maskPreds v hv hmv hlt e]
    constructor
    · rintro ⟨b, h1, rfl, h3⟩
      rcases h1 with ⟨hb, he⟩ | ⟨hb, _⟩
      · obtain ⟨_, p, h4, h5⟩ := i.disc b (.inr hb)
        obtain ⟨h4', h4''⟩ := path_mask.mp h4
        exact ⟨p, h4'.snoc he, h4'', by rw [pathWeight_snoc, h5, h3]⟩
      · cases hb
    · rintro ⟨p, h1, h1', h2⟩
      obtain ⟨u, h3, h4, rfl⟩ := snoc_inv h1
      rw [pathWeight_snoc] at h2
      have hW : ∃ u ∈ g.vertices, ∃ e' ∈ g.outEdges u, a.weight e = a.weight e' := ⟨u, h.pathV h3, e, h4, rfl⟩
      have hlt2 := hlt
      rw [← h2] at hlt2
      have h5 := h.alg.back _ _ hW hlt2
      obtain ⟨h6, h7⟩ := i.final (h.mask m) hno p u (path_mask.mpr ⟨h3, h1'⟩) h5
      refine ⟨u, .inl ⟨h6, h4⟩, rfl, ?_⟩
      have h8 := r.maskLe u e (.inl ⟨h6, h4⟩) hmv
      have h9 : Le a _ _ := h.alg.mono _ _ _ hW h7 hlt2
      rw [h2] at h9
      exact h.antisymm h9 h8

/-- What the map of the predecessors contained is still there at `s` and at the vertices that the search does not reach. -/
theorem Rel.leftovers (h : Hyp a g s) {bs : List V} {st st' : DijkstraState V E D} (i : Inv a (unmasked g m) s bs none [] st')
    (r : Rel a g s m c0 p0 bs none [] st st') {v : V} (hmv : m v = false)
    (hvs : v = s ∨ a.compare (st.distOf a v) a.infty = false) (e : E) (he : e ∈ p0.getD v []) : e ∈ st.predsOf v := by
  refine (r.predsOld v hmv (hvs.imp id fun hc => ?_) e).mpr (.inr he)
  rw [r.dist v hmv] at hc
  cases hcol : colorOf st'.color v with
  | white => rfl
  | gray => rw [(i.disc v (.inl (.inl hcol))).1] at hc; cases hc
  | black => rw [(i.disc v (.inr ((i.black v).mp hcol))).1] at hc; cases hc

theorem unmasked_false : unmasked g (fun _ => false) = g := by
  unfold unmasked GraphI.through
  simp

/-- `make_shortest_path` does not look at what the map of the predecessors contained. -/
theorem Rel.walk {bs : List V} {t : V} {st st' : DijkstraState V E D} (i : Inv a g s bs (some t) [] st')
    (r : Rel a g s (fun _ => false) c0 p0 bs (some t) [] st st') (hsrc : ∀ u ∈ g.vertices, ∀ e ∈ g.outEdges u, g.source e = u) {ord : SetOracle E}
    (hord : ord.Valid) (fuel : Nat) : makeShortestPath ord g s t st.preds fuel = makeShortestPath ord g s t st'.preds fuel := by
  unfold makeShortestPath
  have hcol : ∀ x, x ≠ s → Open s st' x ∨ x ∈ bs → colorOf st'.color x ≠ .white := by
    intro x hx ho hc
    rcases ho with (ho | ho) | ho
    · rw [hc] at ho; cases ho
    · exact hx ho.1
    · rw [(i.black x).mpr ho] at hc; cases hc
  have := loop_lockstep (step := shortestPathStep ord g s st.preds) (step' := shortestPathStep ord g s st'.preds)
    (fun x y => x = y ∧ (Open s st' x.1 ∨ x.1 ∈ bs)) (fun x y => x = y) (by
      rintro n x y ⟨rfl, ho⟩
      by_cases hx : x.1 = s
      · exact .inr (.inl ⟨x.2, x.2, by simp [shortestPathStep, hx], by simp [shortestPathStep, hx], rfl⟩)
      · obtain ⟨e, b, h1, h2, _⟩ := walkStep i hsrc hord n x hx ho
        refine .inl ⟨_, _, ?_, h1, rfl, .inr h2⟩
        have hp : st.preds.getD x.1 [] = st'.preds.getD x.1 [] := r.predsEq x.1 rfl hx (hcol _ hx ho)
        unfold shortestPathStep at h1 ⊢
        rw [hp]; exact h1) (s := (t, [])) (s' := (t, [])) ⟨rfl, .inl (i.curOk t rfl)⟩ fuel 0
  rcases this with ⟨h1, h2⟩ | ⟨x, y, h1, h2, rfl⟩ | ⟨e, h1, h2⟩ <;> rw [h1, h2]

end
end PyBGL.Dijkstra
