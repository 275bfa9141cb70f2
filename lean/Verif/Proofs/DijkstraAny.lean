import Verif.Proofs.Dijkstra

/-!
# `dijkstra_shortest_paths` without any hypothesis on the weights
-/

namespace PyBGL.Dijkstra
open Heapq DijkstraState
variable {V E D : Type} [DecidableEq V] [DecidableEq E] [DecidableEq D]

/-! ## The elements of a heap, whatever the order of the keys -/

/-- Any order satisfies the lemmas on heaps as far as the elements are concerned. -/
theorem anyOrd {α : Type} (lt : α → α → Bool) : Ord lt (fun _ _ => True) :=
  ⟨fun _ => trivial, fun _ _ _ _ _ => trivial, fun _ _ _ => trivial, fun _ _ _ => trivial⟩

theorem anyHeap {α : Type} (l : List α) : IsHeap (fun _ _ => True) l := fun _ _ _ _ _ _ _ => trivial

/-- The elements of a heap. -/
def elems {κ : Type} (h : Heap κ V) : List V := h.data.map (·.2.2)

omit [DecidableEq V] in
theorem elems_make {κ : Type} (o : KeyOrd κ) (key : V → κ) (s : V) : elems (Heap.make o key [s]) = [s] := by
  have h := (heapify_spec (anyOrd (entryLt (α := V) o)) ([s].zipIdx.map fun p => (key p.1, p.2, p.1))).2
  have := h.map (·.2.2)
  exact List.perm_singleton.mp this

omit [DecidableEq V] in
theorem elems_push {κ : Type} (o : KeyOrd κ) (key : V → κ) (h : Heap κ V) (x : V) : (elems (h.push o key x)).Perm (x :: elems h) :=
  (heappush_spec (anyOrd (entryLt (α := V) o)) (anyHeap h.data) (key x, h.index, x)).2.map (fun y : κ × Nat × V => y.2.2)

theorem elems_decreaseKey {κ : Type} (o : KeyOrd κ) (key : V → κ) (h : Heap κ V) (x : V) : (elems (h.decreaseKey o key x)).Perm (elems h) := by
  have := (Heap.decreaseKey_spec (anyOrd (entryLt (α := V) o)) (key := key) (x := x) (anyHeap h.data)).2.2.1.map Prod.snd
  unfold Heap.ids at this
  rw [List.map_map, List.map_map] at this
  exact this

omit [DecidableEq V] in
theorem elems_pop {κ : Type} (o : KeyOrd κ) (h : Heap κ V) (hne : h.nonempty = true) :
    ∃ u h', h.pop o = .ok (u, h') ∧ (u :: elems h').Perm (elems h) := by
  have hd : h.data ≠ [] := by
    intro e; unfold Heap.nonempty at hne; rw [e] at hne; cases hne
  obtain ⟨x, l, k1, _, k3, _⟩ := heappop_spec (anyOrd (entryLt (α := V) o)) (anyHeap h.data) hd
  exact ⟨x.2.2, { h with data := l }, by unfold Heap.pop; rw [k1], k3.map (fun y : κ × Nat × V => y.2.2)⟩

/-! ## Invariant -/

section
variable (a : DijkstraArgs E D) (g : GraphI V E) (s : V) (preds₀ : Dict V (List E)) (color₀ : Dict V Color)

/-- The distance of `v` is the combined weight of a path from `s`. -/
def Walk (st : DijkstraState V E D) (v : V) : Prop := ∃ p, IsPath g s p v ∧ pathWeight a.combine a.zero a.weight p = st.distOf a v

/-- All the paths from `s` are better than `infty`. -/
def Finite : Prop := (∀ p v, IsPath g s p v → a.compare (pathWeight a.combine a.zero a.weight p) a.infty = true) ∧ a.compare a.infty a.infty = false

/-- The invariant of the loop; `P` are the edges of the current vertex examined so far. -/
structure AInv (cur : List V) (P : List E) (st : DijkstraState V E D) : Prop where
  walk : ∀ v ∈ elems st.heap, Walk a g s st v
  val : ∀ v ∈ g.vertices, st.distOf a v = a.infty ∨ Walk a g s st v
  perm : (examined st.trace ++ elems st.heap).Perm (s :: discovered st.trace)
  nd : (discovered st.trace).Nodup
  white : ∀ v ∈ discovered st.trace, colorOf st.color v ≠ .white
  fresh : ∀ v ∈ discovered st.trace, v = s ∨ colorOf color₀ v = .white
  colW : ∀ v, colorOf st.color v = .white → v = s ∨ colorOf color₀ v = .white
  col : ∀ v, colorOf st.color v ≠ .white → v ∈ discovered st.trace ∨ v = s ∨ colorOf color₀ v ≠ .white
  preds : ∀ v, ∀ e ∈ st.predsOf v, e ∈ preds₀.getD v [] ∨
    ∃ u p, IsPath g s p u ∧ e ∈ g.outEdges u ∧ g.target e = v ∧ pathWeight a.combine a.zero a.weight (p ++ [e]) = st.distOf a v
  fin : examined st.trace = finished st.trace ++ cur
  edges : examinedEdges st.trace = (finished st.trace).flatMap g.outEdges ++ P
  disc : ∀ v ∈ g.vertices, st.distOf a v ≠ a.infty → v ∈ discovered st.trace ∨ v = s ∨ colorOf color₀ v ≠ .white
  dwalk : ∀ v, v = s ∨ v ∈ discovered st.trace → Walk a g s st v
  seen : Finite a g s → ∀ e ∈ examinedEdges st.trace, st.distOf a (g.target e) ≠ a.infty

/-- The number of white vertices. -/
def whites (l : List V) (c : Dict V Color) : Nat := l.countP fun v => colorOf c v = .white

/-- The number of white vertices, twice, and of elements of the heap. -/
def measure (st : DijkstraState V E D) : Nat := 2 * whites g.vertices st.color + (elems st.heap).length

end

section
variable {a : DijkstraArgs E D} {g : GraphI V E} {s : V} {preds₀ : Dict V (List E)} {color₀ : Dict V Color}

omit [DecidableEq V] [DecidableEq E] [DecidableEq D] in
theorem path_mem (hg : g.Closed) (hs : s ∈ g.vertices) {p : List E} {v : V} (hp : IsPath g s p v) : v ∈ g.vertices := by
  have : ∀ {u p v}, IsPath g u p v → u ∈ g.vertices → v ∈ g.vertices := by
    intro u p v hp
    induction hp with
    | nil => exact id
    | cons he _ ih => intro hu; exact ih (hg _ hu _ he)
  exact this hp hs

/-- The effect of an edge on the white vertices: the colours other than those of the target are kept. -/
theorem count_white (l : List V) (c : Dict V Color) (v : V) (hv : v ∈ l) (hc : colorOf c v = .white) (x : Color) (hx : x ≠ .white) :
    whites l (c.set v x) + 1 ≤ whites l c := by
  unfold whites
  induction l with
  | nil => cases hv
  | cons w l ih =>
    have mono : ∀ l : List V, (l.countP fun w => colorOf (c.set v x) w = .white) ≤ l.countP fun w => colorOf c w = .white := by
      intro l
      refine List.countP_mono_left ?_
      intro y _ hy
      rw [colorOf_set] at hy
      split at hy
      · simp [hx] at hy
      · exact hy
    rw [List.countP_cons, List.countP_cons, colorOf_set]
    by_cases hvw : v = w
    · subst hvw
      have := mono l
      rw [if_pos rfl, if_neg (by simpa using hx), if_pos (by simpa using hc)]
      omega
    · rw [if_neg hvw]
      have := ih ((List.mem_cons.mp hv).resolve_left (fun h => hvw h))
      omega

theorem count_mono (l : List V) (c : Dict V Color) (v : V) (x : Color) (hx : x ≠ .white) :
    whites l (c.set v x) ≤ whites l c := by
  unfold whites
  refine List.countP_mono_left ?_
  intro y _ hy
  rw [colorOf_set] at hy
  split at hy
  · simp [hx] at hy
  · exact hy

/-- Relaxing an edge. -/
theorem AInv.relax {cur : List V} {P : List E} {st st' : DijkstraState V E D} (i : AInv a g s preds₀ color₀ cur P st) {u : V} {p : List E} {w : D} {e : E}
    (hp : IsPath g s p u) (hw : pathWeight a.combine a.zero a.weight p = w) (he : e ∈ g.outEdges u)
    (hd : ∀ x, st'.distOf a x = if g.target e = x then a.combine w (a.weight e) else st.distOf a x)
    (hpr : ∀ x, st'.predsOf x = if g.target e = x then [e] else st.predsOf x)
    (hcw : (colorOf st.color (g.target e) = .white ∧ (∀ x, colorOf st'.color x = if g.target e = x then .gray else colorOf st.color x) ∧
        (elems st'.heap).Perm (g.target e :: elems st.heap) ∧ discovered st'.trace = discovered st.trace ++ [g.target e]) ∨
      (colorOf st.color (g.target e) ≠ .white ∧ (∀ x, colorOf st'.color x = colorOf st.color x) ∧
        (elems st'.heap).Perm (elems st.heap) ∧ discovered st'.trace = discovered st.trace))
    (ht1 : examined st'.trace = examined st.trace) (ht2 : finished st'.trace = finished st.trace)
    (ht3 : examinedEdges st'.trace = examinedEdges st.trace ++ [e]) : AInv a g s preds₀ color₀ cur (P ++ [e]) st' := by
  have hsnoc : pathWeight a.combine a.zero a.weight (p ++ [e]) = a.combine w (a.weight e) := by rw [pathWeight_snoc, hw]
  have hwt : Walk a g s st' (g.target e) := ⟨p ++ [e], hp.snoc he, by rw [hsnoc, hd, if_pos rfl]⟩
  have hwalk : ∀ v, Walk a g s st v → Walk a g s st' v := by
    intro v hv
    by_cases hx : g.target e = v
    · exact hx ▸ hwt
    · obtain ⟨q, h1, h2⟩ := hv
      exact ⟨q, h1, by rw [hd, if_neg hx, h2]⟩
  have hpreds : ∀ v, ∀ e' ∈ st'.predsOf v, e' ∈ preds₀.getD v [] ∨
      ∃ u p, IsPath g s p u ∧ e' ∈ g.outEdges u ∧ g.target e' = v ∧ pathWeight a.combine a.zero a.weight (p ++ [e']) = st'.distOf a v := by
    intro v e' he'
    rw [hpr] at he'
    rw [hd]
    split at he'
    · rename_i hx
      rw [List.mem_singleton] at he'
      subst he'
      rw [if_pos hx]
      exact .inr ⟨u, p, hp, he, hx, hsnoc⟩
    · rename_i hx
      rw [if_neg hx]
      exact i.preds v e' he'
  have hedges : examinedEdges st'.trace = (finished st'.trace).flatMap g.outEdges ++ (P ++ [e]) := by
    rw [ht3, ht2, i.edges, List.append_assoc]
  have hval : ∀ v ∈ g.vertices, st'.distOf a v = a.infty ∨ Walk a g s st' v := by
    intro v hv
    by_cases hx : g.target e = v
    · exact .inr (hx ▸ hwt)
    · rw [hd, if_neg hx]
      exact (i.val v hv).imp id (hwalk v)
  have hfin : examined st'.trace = finished st'.trace ++ cur := by rw [ht1, ht2]; exact i.fin
  have hseen : Finite a g s → ∀ e' ∈ examinedEdges st'.trace, st'.distOf a (g.target e') ≠ a.infty := by
    intro hf e' he'
    have hne : a.combine w (a.weight e) ≠ a.infty := by
      intro h
      have h1 := hf.1 _ _ (hp.snoc he)
      rw [hsnoc, h, hf.2] at h1
      cases h1
    rw [hd]
    split
    · exact hne
    · rename_i hx
      rw [ht3, List.mem_append, List.mem_singleton] at he'
      rcases he' with he' | rfl
      · exact i.seen hf e' he'
      · exact absurd rfl hx
  have hdw : ∀ v, v = s ∨ v ∈ discovered st'.trace → Walk a g s st' v := by
    intro v hv
    by_cases hx : g.target e = v
    · exact hx ▸ hwt
    · refine hwalk v (i.dwalk v (hv.imp id fun hv => ?_))
      rcases hcw with ⟨_, _, _, c4⟩ | ⟨_, _, _, c4⟩
      · rw [c4, List.mem_append, List.mem_singleton] at hv
        exact hv.resolve_right fun h => hx h.symm
      · exact c4 ▸ hv
  rcases hcw with ⟨c1, c2, c3, c4⟩ | ⟨c1, c2, c3, c4⟩
  · have hno : g.target e ∉ discovered st.trace := fun h => i.white _ h c1
    refine ⟨?_, hval, ?_, ?_, ?_, ?_, ?_, ?_, hpreds, hfin, hedges, ?_, hdw, hseen⟩
    · intro v hv
      rcases List.mem_cons.mp (c3.mem_iff.mp hv) with rfl | hv
      · exact hwt
      · exact hwalk v (i.walk v hv)
    · rw [ht1, c4]
      refine ((c3.append_left _).trans List.perm_middle).trans ?_
      refine (i.perm.cons (g.target e)).trans ?_
      refine (List.Perm.swap _ _ _).trans ?_
      exact (List.perm_append_singleton _ _).symm.cons s
    · rw [c4, List.nodup_append]
      exact ⟨i.nd, by simp, fun x hx y hy => by rw [List.mem_singleton] at hy; subst hy; intro h; exact hno (h ▸ hx)⟩
    · intro v hv
      rw [c4, List.mem_append] at hv
      rw [c2]
      split
      · simp
      · rename_i hx
        rcases hv with hv | hv
        · exact i.white v hv
        · exact absurd (List.mem_singleton.mp hv).symm hx
    · intro v hv
      rw [c4, List.mem_append] at hv
      rcases hv with hv | hv
      · exact i.fresh v hv
      · rw [List.mem_singleton] at hv
        subst hv
        exact i.colW _ c1
    · intro v hv
      rw [c2] at hv
      split at hv
      · cases hv
      · exact i.colW v hv
    · intro v hv
      rw [c4, List.mem_append]
      rw [c2] at hv
      split at hv
      · rename_i hx; exact .inl (.inr (by simp [hx]))
      · rcases i.col v hv with h | h
        · exact .inl (.inl h)
        · exact .inr h
    · intro v hv hne
      rw [c4, List.mem_append]
      rw [hd] at hne
      split at hne
      · rename_i hx; exact .inl (.inr (by simp [hx]))
      · rcases i.disc v hv hne with h | h
        · exact .inl (.inl h)
        · exact .inr h
  · refine ⟨?_, hval, ?_, ?_, ?_, ?_, ?_, ?_, hpreds, hfin, hedges, ?_, hdw, hseen⟩
    · intro v hv
      exact hwalk v (i.walk v (c3.mem_iff.mp hv))
    · rw [ht1, c4]
      exact (c3.append_left _).trans i.perm
    · rw [c4]; exact i.nd
    · intro v hv
      rw [c2]
      exact i.white v (c4 ▸ hv)
    · intro v hv
      exact i.fresh v (c4 ▸ hv)
    · intro v hv
      exact i.colW v (c2 v ▸ hv)
    · intro v hv
      rw [c4]
      exact i.col v (c2 v ▸ hv)
    · intro v hv hne
      rw [c4]
      rw [hd] at hne
      split at hne
      · rename_i hx
        exact i.col v (hx ▸ c1)
      · exact i.disc v hv hne

omit [DecidableEq E] [DecidableEq D] in
/-- An edge that does not improve the distance of its target. -/
theorem AInv.keep {cur : List V} {P : List E} {st st' : DijkstraState V E D} (i : AInv a g s preds₀ color₀ cur P st) {e : E}
    (hd : st'.dist = st.dist) (hc : st'.color = st.color) (hh : st'.heap = st.heap)
    (hpr : ∀ x, ∀ e' ∈ st'.predsOf x, e' ∈ st.predsOf x ∨
      ∃ u p, IsPath g s p u ∧ e' ∈ g.outEdges u ∧ g.target e' = x ∧ pathWeight a.combine a.zero a.weight (p ++ [e']) = st.distOf a x)
    (ht1 : examined st'.trace = examined st.trace) (ht2 : finished st'.trace = finished st.trace)
    (hs : Finite a g s → st.distOf a (g.target e) ≠ a.infty)
    (ht3 : examinedEdges st'.trace = examinedEdges st.trace ++ [e]) (ht4 : discovered st'.trace = discovered st.trace) :
    AInv a g s preds₀ color₀ cur (P ++ [e]) st' := by
  have hdist : ∀ v, st'.distOf a v = st.distOf a v := fun v => by unfold distOf; rw [hd]
  have hw : ∀ v, Walk a g s st v → Walk a g s st' v := fun v ⟨p, h1, h2⟩ => ⟨p, h1, by rw [hdist, h2]⟩
  refine ⟨fun v hv => hw v (i.walk v (hh ▸ hv)), fun v hv => by rw [hdist]; exact (i.val v hv).imp id (hw v), by rw [ht1, hh, ht4]; exact i.perm,
    by rw [ht4]; exact i.nd, by rw [ht4, hc]; exact i.white, by rw [ht4]; exact i.fresh, by rw [hc]; exact i.colW, by rw [ht4, hc]; exact i.col, ?_,
    by rw [ht1, ht2]; exact i.fin, by rw [ht3, ht2, i.edges, List.append_assoc], fun v hv => by rw [ht4, hdist]; exact i.disc v hv,
    fun v hv => hw v (i.dwalk v (ht4 ▸ hv)), ?_⟩
  rotate_left
  · intro hf e' he'
    rw [ht3, List.mem_append, List.mem_singleton] at he'
    rw [hdist]
    rcases he' with he' | rfl
    · exact i.seen hf e' he'
    · exact hs hf
  intro v e' he'
  rw [hdist]
  rcases hpr v e' he' with h | h
  · exact i.preds v e' h
  · exact .inr h

theorem AInv.edgeStep {cur : List V} {P : List E} {st : DijkstraState V E D} (i : AInv a g s preds₀ color₀ cur P st) {u : V} {p : List E} {w : D} {e : E}
    (hp : IsPath g s p u) (hw : pathWeight a.combine a.zero a.weight p = w) (he : e ∈ g.outEdges u) :
    AInv a g s preds₀ color₀ cur (P ++ [e]) (dijkstraEdge a g w st e) := by
  have hsnoc : pathWeight a.combine a.zero a.weight (p ++ [e]) = a.combine w (a.weight e) := by rw [pathWeight_snoc, hw]
  unfold dijkstraEdge
  by_cases hlt : a.compare (a.combine w (a.weight e)) (st.distOf a (g.target e)) = true
  · rw [if_pos hlt]
    unfold dijkstraQueue
    have hcol : ∀ st0 : DijkstraState V E D, colorOf ({ st0.emit (.examineEdge e) with
      dist := st0.dist.set (g.target e) (a.combine w (a.weight e)), preds := st0.preds.set (g.target e) [e] } : DijkstraState V E D).color
        (g.target e) = colorOf st0.color (g.target e) := fun _ => rfl
    rw [hcol]
    cases hc : colorOf st.color (g.target e) with
    | black =>
      refine i.relax hp hw he (fun x => distOf_set st _ _ _) (fun x => predsOf_set st _ _ _) (.inr ⟨by rw [hc]; simp, fun _ => rfl, .refl _, ?_⟩) ?_ ?_ ?_
      · simp [DijkstraState.emit, discovered]
      · simp [DijkstraState.emit, examined]
      · simp [DijkstraState.emit, finished]
      · simp [DijkstraState.emit, examinedEdges]
    | white =>
      refine i.relax hp hw he (fun x => distOf_set st _ _ _) (fun x => predsOf_set st _ _ _)
        (.inl ⟨hc, fun x => by simp only [DijkstraState.emit, colorOf_set], elems_push _ _ _ _, ?_⟩) ?_ ?_ ?_
      · simp [DijkstraState.emit, discovered]
      · simp [DijkstraState.emit, examined]
      · simp [DijkstraState.emit, finished]
      · simp [DijkstraState.emit, examinedEdges]
    | gray =>
      refine i.relax hp hw he (fun x => distOf_set st _ _ _) (fun x => predsOf_set st _ _ _)
        (.inr ⟨by rw [hc]; simp, fun _ => rfl, elems_decreaseKey _ _ _ _, ?_⟩) ?_ ?_ ?_
      · simp [DijkstraState.emit, discovered]
      · simp [DijkstraState.emit, examined]
      · simp [DijkstraState.emit, finished]
      · simp [DijkstraState.emit, examinedEdges]
  · rw [if_neg hlt]
    have hsn : Finite a g s → st.distOf a (g.target e) ≠ a.infty := by
      intro hf h
      have h1 := hf.1 _ _ (hp.snoc he)
      rw [hsnoc] at h1
      rw [h] at hlt
      exact hlt h1
    by_cases heq : a.combine w (a.weight e) = st.distOf a (g.target e)
    · rw [if_pos heq]
      refine i.keep rfl rfl rfl ?_ ?_ ?_ hsn ?_ ?_
      · intro x e'
        have : ∀ l : List (DijkstraEvent V E), predsOf ({ st with trace := l, preds := st.preds.set (g.target e) (setAdd (st.predsOf (g.target e)) e) } :
            DijkstraState V E D) x = if g.target e = x then setAdd (st.predsOf (g.target e)) e else st.predsOf x := fun _ => predsOf_set st _ _ _
        simp only [DijkstraState.emit, this]
        split
        · rename_i hx
          subst hx
          rw [mem_setAdd]
          rintro (h1 | h1)
          · exact .inl h1
          · subst h1
            exact .inr ⟨u, p, hp, he, rfl, hsnoc.trans heq⟩
        · exact .inl
      · simp [DijkstraState.emit, examined]
      · simp [DijkstraState.emit, finished]
      · simp [DijkstraState.emit, examinedEdges]
      · simp [DijkstraState.emit, discovered]
    · rw [if_neg heq]
      refine i.keep rfl rfl rfl (fun x e' h => .inl h) ?_ ?_ hsn ?_ ?_
      · simp [DijkstraState.emit, examined]
      · simp [DijkstraState.emit, finished]
      · simp [DijkstraState.emit, examinedEdges]
      · simp [DijkstraState.emit, discovered]

theorem edge_measure {w : D} (st : DijkstraState V E D) {e : E} (ht : g.target e ∈ g.vertices) :
    measure g (dijkstraEdge a g w st e) ≤ measure g st := by
  unfold dijkstraEdge
  split
  · unfold dijkstraQueue
    have hcol : ∀ st0 : DijkstraState V E D, colorOf ({ st0.emit (.examineEdge e) with
      dist := st0.dist.set (g.target e) (a.combine w (a.weight e)), preds := st0.preds.set (g.target e) [e] } : DijkstraState V E D).color
        (g.target e) = colorOf st0.color (g.target e) := fun _ => rfl
    rw [hcol]
    cases hc : colorOf st.color (g.target e) with
    | black => exact Nat.le_refl _
    | white =>
      have h1 := count_white g.vertices st.color (g.target e) ht hc .gray (by simp)
      have h2 := fun key => (elems_push a.ord key st.heap (g.target e)).length_eq
      simp only [List.length_cons] at h2
      unfold measure
      simp only [DijkstraState.emit]
      rw [h2]
      omega
    | gray =>
      have h2 := fun key => (elems_decreaseKey a.ord key st.heap (g.target e)).length_eq
      unfold measure
      simp only [DijkstraState.emit]
      rw [h2]
  · split <;> exact Nat.le_refl _

theorem AInv.edgesStep (hg : g.Closed) (hs : s ∈ g.vertices) {cur : List V} {u : V} {p : List E} {w : D} (hp : IsPath g s p u)
    (hw : pathWeight a.combine a.zero a.weight p = w) (es : List E) :
    ∀ {P : List E} {st : DijkstraState V E D}, AInv a g s preds₀ color₀ cur P st → (∀ e ∈ es, e ∈ g.outEdges u) →
      AInv a g s preds₀ color₀ cur (P ++ es) (es.foldl (dijkstraEdge a g w) st) ∧ measure g (es.foldl (dijkstraEdge a g w) st) ≤ measure g st := by
  induction es with
  | nil => intro P st i _; exact ⟨by simpa using i, Nat.le_refl _⟩
  | cons e es ih =>
    intro P st i hes
    have he := hes e (by simp)
    obtain ⟨h1, h2⟩ := ih (i.edgeStep hp hw he) (fun e' h' => hes e' (by simp [h']))
    rw [List.foldl_cons]
    refine ⟨by simpa using h1, Nat.le_trans h2 (edge_measure st (hg _ (path_mem hg hs hp) _ he))⟩

omit [DecidableEq E] [DecidableEq D] in
theorem AInv.popStep {st : DijkstraState V E D} (i : AInv a g s preds₀ color₀ [] [] st) (hne : st.heap.nonempty = true) :
    ∃ u heap, st.heap.pop a.ord = .ok (u, heap) ∧ Walk a g s st u ∧ (u = s ∨ u ∈ discovered st.trace) ∧
      AInv a g s preds₀ color₀ [u] [] (({ st with heap := heap }).emit (.examineVertex u)) ∧
      measure g (({ st with heap := heap }).emit (.examineVertex u)) < measure g st := by
  obtain ⟨u, h', k1, k2⟩ := elems_pop a.ord st.heap hne
  have hu : u ∈ elems st.heap := k2.mem_iff.mp (by simp)
  have hud : u = s ∨ u ∈ discovered st.trace := by
    have := i.perm.mem_iff.mp (List.mem_append_right _ hu)
    exact List.mem_cons.mp this
  have e1 : examined (({ st with heap := h' }).emit (.examineVertex u)).trace = examined st.trace ++ [u] := by simp [DijkstraState.emit, examined]
  have e2 : finished (({ st with heap := h' }).emit (.examineVertex u)).trace = finished st.trace := by simp [DijkstraState.emit, finished]
  have e3 : discovered (({ st with heap := h' }).emit (.examineVertex u)).trace = discovered st.trace := by simp [DijkstraState.emit, discovered]
  have e4 : examinedEdges (({ st with heap := h' }).emit (.examineVertex u)).trace = examinedEdges st.trace := by simp [DijkstraState.emit, examinedEdges]
  refine ⟨u, h', k1, i.walk u hu, hud, ?_, ?_⟩
  · refine ⟨fun v hv => i.walk v (k2.mem_iff.mp (List.mem_cons_of_mem _ hv)), i.val, ?_, by rw [e3]; exact i.nd, by rw [e3]; exact i.white,
      by rw [e3]; exact i.fresh, i.colW, by rw [e3]; exact i.col, i.preds, ?_, by rw [e4, e2]; exact i.edges, by rw [e3]; exact i.disc, by rw [e3]; exact i.dwalk,
      by rw [e4]; exact i.seen⟩
    · rw [e1, e3, List.append_assoc]
      exact (k2.append_left _).trans i.perm
    · rw [e1, e2, i.fin]; simp
  · have := k2.length_eq
    simp only [List.length_cons] at this
    unfold measure
    simp only [DijkstraState.emit]
    omega

omit [DecidableEq E] [DecidableEq D] in
theorem AInv.finish {u : V} {st : DijkstraState V E D} (hu : u = s ∨ u ∈ discovered st.trace)
    (i : AInv a g s preds₀ color₀ [u] (g.outEdges u) st) :
    AInv a g s preds₀ color₀ [] [] (({ st with color := st.color.set u .black }).emit (.finishVertex u)) ∧
    measure g (({ st with color := st.color.set u .black }).emit (.finishVertex u)) ≤ measure g st := by
  have hcol : ∀ v, colorOf (st.color.set u .black) v = if u = v then .black else colorOf st.color v := fun v => colorOf_set _ _ _ _
  have e1 : examined (({ st with color := st.color.set u .black }).emit (.finishVertex u)).trace = examined st.trace := by simp [DijkstraState.emit, examined]
  have e2 : finished (({ st with color := st.color.set u .black }).emit (.finishVertex u)).trace = finished st.trace ++ [u] := by
    simp [DijkstraState.emit, finished]
  have e3 : discovered (({ st with color := st.color.set u .black }).emit (.finishVertex u)).trace = discovered st.trace := by
    simp [DijkstraState.emit, discovered]
  have e4 : examinedEdges (({ st with color := st.color.set u .black }).emit (.finishVertex u)).trace = examinedEdges st.trace := by
    simp [DijkstraState.emit, examinedEdges]
  refine ⟨⟨i.walk, i.val, by rw [e1, e3]; exact i.perm, by rw [e3]; exact i.nd, ?_, by rw [e3]; exact i.fresh, ?_, ?_, i.preds,
    by rw [e1, e2, i.fin]; simp, by rw [e4, e2, i.edges]; simp, by rw [e3]; exact i.disc, by rw [e3]; exact i.dwalk,
    by rw [e4]; exact i.seen⟩, ?_⟩
  · intro v hv
    rw [e3] at hv
    show colorOf (st.color.set u .black) v ≠ .white
    rw [hcol]
    split
    · simp
    · exact i.white v hv
  · intro v hv
    have hv' : colorOf (st.color.set u .black) v = .white := hv
    rw [hcol] at hv'
    split at hv'
    · cases hv'
    · exact i.colW v hv'
  · intro v hv
    rw [e3]
    have hv' : colorOf (st.color.set u .black) v ≠ .white := hv
    rw [hcol] at hv'
    split at hv'
    · rename_i hx
      subst hx
      rcases hu with h | h
      · exact .inr (.inl h)
      · exact .inl h
    · exact i.col v hv'
  · have := count_mono g.vertices st.color u .black (by simp)
    unfold measure
    simp only [DijkstraState.emit]
    omega

theorem AInv.init (hs : s ∈ g.vertices) (dist : Dict V D) (preds₀ : Dict V (List E)) (color₀ : Dict V Color) :
    AInv a g s preds₀ color₀ [] [] (dijkstraInitFrom a g s dist preds₀ color₀) := by
  obtain ⟨h1, h2, h3, h4⟩ := initFold (a := a) (s := s) g.vertices ⟨dist, preds₀, color₀.set s .white, ⟨[], 0⟩, []⟩
  unfold dijkstraInitFrom
  simp only
  generalize hst : g.vertices.foldl (dijkstraInitVertex a s) ⟨dist, preds₀, color₀.set s .white, ⟨[], 0⟩, []⟩ = st at h1 h2 h3 h4
  have hcol : ∀ v, colorOf st.color v = if s = v then .white else colorOf color₀ v := by
    intro v; rw [h1]; exact colorOf_set _ _ _ _
  have hw : Walk a g s { st with heap := Heap.make a.ord (st.distOf a) [s] } s := ⟨[], .nil s, by
    show a.zero = st.distOf a s
    rw [h3, if_pos hs, if_pos rfl]⟩
  have tr : st.trace = g.vertices.map .initializeVertex := by rw [h4]; simp
  have t0 : ∀ {B : Type} (f : DijkstraEvent V E → Option B), (∀ v, f (.initializeVertex v) = none) → st.trace.filterMap f = [] := by
    intro B f hf
    rw [tr, List.filterMap_map, List.filterMap_eq_nil_iff]
    intro v _
    exact hf v
  have t1 : examined st.trace = [] := t0 _ fun _ => rfl
  have t2 : finished st.trace = [] := t0 _ fun _ => rfl
  have t3 : discovered st.trace = [] := t0 _ fun _ => rfl
  have t4 : examinedEdges st.trace = [] := t0 _ fun _ => rfl
  refine ⟨?_, ?_, ?_, ?_, ?_, ?_, ?_, ?_, ?_, ?_, ?_, ?_, ?_, by intro _; show ∀ e ∈ examinedEdges st.trace, _; rw [t4]; simp⟩
  · intro v hv
    have hv' : v ∈ elems (Heap.make a.ord (st.distOf a) [s]) := hv
    rw [elems_make, List.mem_singleton] at hv'
    subst hv'
    exact hw
  · intro v hv
    by_cases hvs : v = s
    · subst hvs; exact .inr hw
    · refine .inl ((h3 v).trans ?_)
      rw [if_pos hv, if_neg hvs]
  · show (examined st.trace ++ elems (Heap.make a.ord (st.distOf a) [s])).Perm (s :: discovered st.trace)
    rw [t1, t3, elems_make]
    exact .refl _
  · show (discovered st.trace).Nodup
    rw [t3]; simp
  · show ∀ v ∈ discovered st.trace, _
    rw [t3]; simp
  · show ∀ v ∈ discovered st.trace, _
    rw [t3]; simp
  · intro v hv
    have hv' : colorOf st.color v = .white := hv
    rw [hcol] at hv'
    split at hv'
    · rename_i hx; exact .inl hx.symm
    · exact .inr hv'
  · intro v hv
    have hv' : colorOf st.color v ≠ .white := hv
    rw [hcol] at hv'
    split at hv'
    · exact absurd rfl hv'
    · exact .inr (.inr hv')
  · intro v e he
    refine .inl ?_
    have he' : e ∈ st.preds.getD v [] := he
    rw [h2] at he'
    exact he'
  · show examined st.trace = finished st.trace ++ []
    rw [t1, t2]; rfl
  · show examinedEdges st.trace = (finished st.trace).flatMap g.outEdges ++ []
    rw [t4, t2]; rfl
  · intro v hv hne
    refine .inr (.inl ?_)
    by_contra hvs
    refine hne ((h3 v).trans ?_)
    rw [if_pos hv, if_neg hvs]
  · intro v hv
    have hv' : v = s ∨ v ∈ discovered st.trace := hv
    rw [t3] at hv'
    rcases hv' with rfl | hv'
    · exact hw
    · cases hv'

/-- One iteration. -/
theorem AInv.step (hg : g.Closed) (hs : s ∈ g.vertices) {stop : V → Bool} {t : Nat} {st st' : DijkstraState V E D}
    (i : AInv a g s preds₀ color₀ [] [] st) (h : dijkstraStep a g stop t st = .next st') :
    AInv a g s preds₀ color₀ [] [] st' ∧ measure g st' < measure g st := by
  unfold dijkstraStep at h
  by_cases hne : st.heap.nonempty = true
  · rw [if_pos hne] at h
    obtain ⟨u, heap, k1, ⟨p, hp, hw⟩, hu, i1, m1⟩ := i.popStep hne
    rw [k1] at h
    simp only at h
    split at h
    · cases h
    · cases h
      obtain ⟨i2, m2⟩ := AInv.edgesStep hg hs hp hw (g.outEdges u) i1 (fun _ he => he)
      rw [List.nil_append] at i2
      have hu' : u = s ∨ u ∈ discovered ((g.outEdges u).foldl (dijkstraEdge a g (st.distOf a u)) (({ st with heap := heap }).emit (.examineVertex u))).trace := by
        have := i2.perm.mem_iff (a := u)
        rw [i2.fin] at this
        simpa using this
      obtain ⟨i3, m3⟩ := AInv.finish hu' i2
      exact ⟨i3, by omega⟩
  · rw [if_neg hne] at h; cases h

end

end PyBGL.Dijkstra
