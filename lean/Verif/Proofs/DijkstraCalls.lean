import Verif.Spec.DijkstraCalls
import Verif.Proofs.DijkstraAny

/-!
# The calls received by a `DijkstraVisitor`
-/

namespace PyBGL.Dijkstra
open DijkstraState Notebook
variable {V E D : Type} [DecidableEq V] [DecidableEq E] [DecidableEq D]
variable {a : DijkstraArgs E D} {g : GraphI V E} {s : V}

/-- The notebook agrees with the property maps. -/
structure Agrees (a : DijkstraArgs E D) (n : Notebook V E D) (st : DijkstraState V E D) : Prop where
  dist : ∀ v, n.dist v = st.distOf a v
  preds : ∀ v e, n.preds v e ↔ e ∈ st.predsOf v
  fresh : ∀ v, n.fresh v ↔ colorOf st.color v = .white

theorem crosses_edge {n : Notebook V E D} {st : DijkstraState V E D} (h : Agrees a n st) (d : D) (e : E) :
    ∃ evs n', Crosses a.compare a.combine a.weight g d n e evs n' ∧ Agrees a n' (dijkstraEdge a g d st e) ∧
      (dijkstraEdge a g d st e).trace = st.trace ++ evs := by
  have hset : ∀ v x, (st.dist.set (g.target e) x).getD v a.dflt = if v = g.target e then x else n.dist v := by
    intro v x
    rw [distOf_set st, h.dist]
    simp only [eq_comm]
  have hpset : ∀ v (l : List E), (st.preds.set (g.target e) l).getD v [] = if v = g.target e then l else st.predsOf v := by
    intro v l
    rw [predsOf_set st]
    simp only [eq_comm]
  have hcset : ∀ v, colorOf (st.color.set (g.target e) .gray) v = if v = g.target e then .gray else colorOf st.color v := by
    intro v
    rw [colorOf_set]
    simp only [eq_comm]
  unfold dijkstraEdge
  rw [← h.dist]
  cases hlt : a.compare (a.combine d (a.weight e)) (n.dist (g.target e)) with
  | true =>
    rw [if_pos rfl]
    have hp : ∀ (st' : DijkstraState V E D), st'.preds = st.preds.set (g.target e) [e] →
        ∀ v x, (if v = g.target e then x = e else n.preds v x) ↔ x ∈ st'.predsOf v := by
      intro st' hst v x
      unfold predsOf
      rw [hst, hpset]
      split
      · simp
      · exact h.preds v x
    unfold dijkstraQueue
    dsimp only [DijkstraState.emit]
    cases hc : colorOf st.color (g.target e) with
    | white =>
      refine ⟨_, _, .discover hlt ((h.fresh _).mpr hc), ⟨fun v => (hset v _).symm, hp _ rfl, fun v => ?_⟩, by simp⟩
      dsimp only
      rw [hcset]
      by_cases hv : v = g.target e
      · simp [hv]
      · simp [hv, h.fresh]
    | gray =>
      refine ⟨_, _, .improve hlt (by rw [h.fresh, hc]; simp), ⟨fun v => (hset v _).symm, hp _ rfl, fun v => h.fresh v⟩, by simp⟩
    | black =>
      refine ⟨_, _, .improve hlt (by rw [h.fresh, hc]; simp), ⟨fun v => (hset v _).symm, hp _ rfl, fun v => h.fresh v⟩, by simp⟩
  | false =>
    rw [if_neg (by simp)]
    by_cases heq : a.combine d (a.weight e) = n.dist (g.target e)
    · rw [if_pos heq]
      refine ⟨_, _, .equal hlt heq, ⟨fun v => h.dist v, fun v x => ?_, fun v => h.fresh v⟩, by simp [DijkstraState.emit]⟩
      dsimp only [DijkstraState.emit, predsOf]
      rw [hpset]
      by_cases hv : v = g.target e
      · subst hv; simp [mem_setAdd, h.preds, predsOf]
      · simp [hv, h.preds, predsOf]
    · rw [if_neg heq]
      exact ⟨_, _, .worse hlt heq, ⟨fun v => h.dist v, fun v x => h.preds v x, fun v => h.fresh v⟩, by simp [DijkstraState.emit]⟩

theorem crosses_edges (d : D) : ∀ (es : List E) {n : Notebook V E D} {st : DijkstraState V E D}, Agrees a n st →
    ∃ evs n', CrossesAll a.compare a.combine a.weight g d n es evs n' ∧ Agrees a n' (es.foldl (dijkstraEdge a g d) st) ∧
      (es.foldl (dijkstraEdge a g d) st).trace = st.trace ++ evs := by
  intro es
  induction es with
  | nil => intro n st h; exact ⟨[], n, .nil n, h, by simp⟩
  | cons e es ih =>
    intro n st h
    obtain ⟨evs, n', h1, h2, h3⟩ := crosses_edge (g := g) h d e
    obtain ⟨evs', n'', h4, h5, h6⟩ := ih h2
    exact ⟨_, n'', .cons h1 h4, h5, by rw [List.foldl_cons, h6, h3, List.append_assoc]⟩

omit [DecidableEq E] [DecidableEq D] in
theorem Examines.snoc {n n' n'' : Notebook V E D} {us : List V} {evs evs' : List (DijkstraEvent V E)} {u : V}
    (h : Examines a.compare a.combine a.weight g n us evs n') (h' : CrossesAll a.compare a.combine a.weight g (n'.dist u) n' (g.outEdges u) evs' n'') :
    Examines a.compare a.combine a.weight g n (us ++ [u]) (evs ++ (.examineVertex u :: evs' ++ [.finishVertex u]))
      ⟨n''.dist, n''.preds, fun v => v ≠ u ∧ n''.fresh v⟩ := by
  induction h with
  | nil n => simpa using Examines.cons h' (.nil _)
  | cons h1 _ ih =>
    have := Examines.cons h1 (ih h')
    simpa using this

/-- The notebook before the search. -/
def firstPage (a : DijkstraArgs E D) (g : GraphI V E) (s : V) (dist : Dict V D) (preds : Dict V (List E)) (color : Dict V Color) : Notebook V E D :=
  ⟨fun v => if v ∈ g.vertices then (if v = s then a.zero else a.infty) else dist.getD v a.dflt, fun v e => e ∈ preds.getD v [],
    fun v => v = s ∨ colorOf color v = .white⟩

/-- The invariant of the loop. -/
def Told (a : DijkstraArgs E D) (g : GraphI V E) (n₀ : Notebook V E D) (st : DijkstraState V E D) : Prop :=
  ∃ us evs n, Examines a.compare a.combine a.weight g n₀ us evs n ∧ Agrees a n st ∧ st.trace = g.vertices.map .initializeVertex ++ evs

theorem told_init (dist : Dict V D) (preds : Dict V (List E)) (color : Dict V Color) :
    Told a g (firstPage a g s dist preds color) (dijkstraInitFrom a g s dist preds color) := by
  obtain ⟨h1, h2, h3, h4⟩ := initFold (a := a) (s := s) g.vertices ⟨dist, preds, color.set s .white, ⟨[], 0⟩, []⟩
  refine ⟨[], [], _, .nil _, ⟨fun v => (h3 v).symm, fun v e => ?_, fun v => ?_⟩, ?_⟩
  · show _ ↔ e ∈ Dict.getD (DijkstraState.preds (List.foldl _ _ _)) v []
    rw [h2]; rfl
  · show _ ↔ colorOf (DijkstraState.color (List.foldl _ _ _)) v = .white
    rw [h1, colorOf_set]
    by_cases hv : s = v
    · simp [firstPage, hv]
    · rw [if_neg hv]
      exact ⟨fun h => h.resolve_left fun h' => hv h'.symm, .inr⟩
  · rw [List.append_nil]
    exact h4.trans (by simp)

/-- The state at the end of an iteration. -/
theorem told_step {n₀ : Notebook V E D} {st : DijkstraState V E D} (h : Told a g n₀ st) (u : V) (hp : Heap D V) :
    Told a g n₀ (({ (g.outEdges u).foldl (dijkstraEdge a g (st.distOf a u)) (({ st with heap := hp }).emit (.examineVertex u)) with
      color := ((g.outEdges u).foldl (dijkstraEdge a g (st.distOf a u)) (({ st with heap := hp }).emit (.examineVertex u))).color.set u .black }).emit
        (.finishVertex u)) := by
  obtain ⟨us, evs, n, h1, h2, h3⟩ := h
  have h4 : Agrees a n (({ st with heap := hp }).emit (.examineVertex u)) := ⟨h2.dist, h2.preds, h2.fresh⟩
  obtain ⟨evs', n', h5, h6, h7⟩ := crosses_edges (g := g) (st.distOf a u) (g.outEdges u) h4
  rw [← h2.dist] at h5
  refine ⟨us ++ [u], _, _, Examines.snoc h1 h5, ⟨h6.dist, h6.preds, fun v => ?_⟩, ?_⟩
  · dsimp only [DijkstraState.emit]
    rw [colorOf_set]
    by_cases hv : u = v
    · simp [hv]
    · rw [if_neg hv]
      exact ⟨fun h => (h6.fresh v).mp h.2, fun h => ⟨fun h' => hv h'.symm, (h6.fresh v).mpr h⟩⟩
  · show (DijkstraState.trace (List.foldl _ _ _)) ++ _ = _
    rw [h7]
    simp [DijkstraState.emit, h3]

omit [DecidableEq E] [DecidableEq D] in
/-- What is told is determined by the notebook and the vertices examined. -/
theorem crosses_det {n n₁ n₂ : Notebook V E D} {d : D} {e : E} {ev₁ ev₂ : List (DijkstraEvent V E)}
    (h₁ : Crosses a.compare a.combine a.weight g d n e ev₁ n₁) (h₂ : Crosses a.compare a.combine a.weight g d n e ev₂ n₂) : ev₁ = ev₂ ∧ n₁ = n₂ := by
  cases h₁ <;> cases h₂ <;> first | exact ⟨rfl, rfl⟩ | simp_all

omit [DecidableEq E] [DecidableEq D] in
theorem crossesAll_det {n n₁ n₂ : Notebook V E D} {d : D} {es : List E} {ev₁ ev₂ : List (DijkstraEvent V E)}
    (h₁ : CrossesAll a.compare a.combine a.weight g d n es ev₁ n₁) (h₂ : CrossesAll a.compare a.combine a.weight g d n es ev₂ n₂) : ev₁ = ev₂ ∧ n₁ = n₂ := by
  induction h₁ generalizing ev₂ n₂ with
  | nil => cases h₂; exact ⟨rfl, rfl⟩
  | cons h _ ih =>
    cases h₂ with
    | cons h' hs' =>
      obtain ⟨rfl, rfl⟩ := crosses_det h h'
      obtain ⟨rfl, rfl⟩ := ih hs'
      exact ⟨rfl, rfl⟩

omit [DecidableEq E] [DecidableEq D] in
theorem examines_det {n n₁ n₂ : Notebook V E D} {us : List V} {ev₁ ev₂ : List (DijkstraEvent V E)}
    (h₁ : Examines a.compare a.combine a.weight g n us ev₁ n₁) (h₂ : Examines a.compare a.combine a.weight g n us ev₂ n₂) : ev₁ = ev₂ ∧ n₁ = n₂ := by
  induction h₁ generalizing ev₂ n₂ with
  | nil => cases h₂; exact ⟨rfl, rfl⟩
  | cons h _ ih =>
    cases h₂ with
    | cons h' hs' =>
      obtain ⟨rfl, rfl⟩ := crossesAll_det h h'
      obtain ⟨rfl, rfl⟩ := ih hs'
      exact ⟨rfl, rfl⟩

omit [DecidableEq E] [DecidableEq D] in
theorem crosses_preds {n n' : Notebook V E D} {d : D} {e : E} {evs : List (DijkstraEvent V E)}
    (h : Crosses a.compare a.combine a.weight g d n e evs n') (v : V) (x : E) (hx : n'.preds v x) : n.preds v x ∨ .edgeRelaxed x ∈ evs := by
  cases h with
  | discover =>
    dsimp only at hx
    split at hx
    · subst hx; simp
    · exact .inl hx
  | improve =>
    dsimp only at hx
    split at hx
    · subst hx; simp
    · exact .inl hx
  | equal =>
    rcases hx with hx | ⟨_, rfl⟩
    · exact .inl hx
    · simp
  | worse => exact .inl hx

omit [DecidableEq E] [DecidableEq D] in
theorem crossesAll_preds {n n' : Notebook V E D} {d : D} {es : List E} {evs : List (DijkstraEvent V E)}
    (h : CrossesAll a.compare a.combine a.weight g d n es evs n') (v : V) (x : E) (hx : n'.preds v x) : n.preds v x ∨ .edgeRelaxed x ∈ evs := by
  induction h with
  | nil => exact .inl hx
  | cons h _ ih =>
    rcases ih hx with h1 | h1
    · exact (crosses_preds h v x h1).imp id fun h2 => by simp [h2]
    · exact .inr (by simp [h1])

omit [DecidableEq E] [DecidableEq D] in
theorem examines_preds {n n' : Notebook V E D} {us : List V} {evs : List (DijkstraEvent V E)}
    (h : Examines a.compare a.combine a.weight g n us evs n') (v : V) (x : E) (hx : n'.preds v x) : n.preds v x ∨ .edgeRelaxed x ∈ evs := by
  induction h with
  | nil => exact .inl hx
  | cons h _ ih =>
    rcases ih hx with h1 | h1
    · exact (crossesAll_preds h v x h1).imp id fun h2 => by simp [h2]
    · exact .inr (by simp [h1])

omit [DecidableEq E] [DecidableEq D] in
theorem crosses_finished {n n' : Notebook V E D} {d : D} {e : E} {evs : List (DijkstraEvent V E)}
    (h : Crosses a.compare a.combine a.weight g d n e evs n') : finished evs = [] := by
  cases h <;> simp [finished]

omit [DecidableEq E] [DecidableEq D] in
theorem crossesAll_finished {n n' : Notebook V E D} {d : D} {es : List E} {evs : List (DijkstraEvent V E)}
    (h : CrossesAll a.compare a.combine a.weight g d n es evs n') : finished evs = [] := by
  induction h with
  | nil => rfl
  | cons h _ ih =>
    have := crosses_finished h
    unfold finished at *
    rw [List.filterMap_append, this, ih]; rfl

omit [DecidableEq E] [DecidableEq D] in
theorem examines_finished {n n' : Notebook V E D} {us : List V} {evs : List (DijkstraEvent V E)}
    (h : Examines a.compare a.combine a.weight g n us evs n') : finished evs = us := by
  induction h with
  | nil => rfl
  | cons h _ ih =>
    have := crossesAll_finished h
    unfold finished at *
    simp [this, ih]

/-- What is told in a complete search, or in a search that the visitor stops. -/
theorem told_run (stop : V → Bool) {n₀ : Notebook V E D} {st₀ : DijkstraState V E D} (h₀ : Told a g n₀ st₀)
    (hs₀ : ∀ u ∈ finished st₀.trace, stop u = false) {fuel t : Nat} {r : Bool × DijkstraState V E D}
    (h : loop (dijkstraStep a g stop) fuel t st₀ = some (.ok r)) :
    ∃ us evs n, Examines a.compare a.combine a.weight g n₀ us evs n ∧ Agrees a n r.2 ∧ (∀ u ∈ us, stop u = false) ∧
      ((r.1 = false ∧ r.2.trace = g.vertices.map .initializeVertex ++ evs) ∨
        (r.1 = true ∧ ∃ u, stop u = true ∧ r.2.trace = g.vertices.map .initializeVertex ++ evs ++ [.examineVertex u])) := by
  have hfin : ∀ {us : List V} {evs : List (DijkstraEvent V E)} {n : Notebook V E D}, Examines a.compare a.combine a.weight g n₀ us evs n →
      finished (g.vertices.map .initializeVertex ++ evs) = us := by
    intro us evs n h
    have := examines_finished h
    unfold finished at *
    rw [List.filterMap_append, this]
    simp
  refine loop_partial (dijkstraStep a g stop) (fun st => Told a g n₀ st ∧ ∀ u ∈ finished st.trace, stop u = false)
    (fun r => ∀ r', r = .ok r' → ∃ us evs n, Examines a.compare a.combine a.weight g n₀ us evs n ∧ Agrees a n r'.2 ∧ (∀ u ∈ us, stop u = false) ∧
      ((r'.1 = false ∧ r'.2.trace = g.vertices.map .initializeVertex ++ evs) ∨
        (r'.1 = true ∧ ∃ u, stop u = true ∧ r'.2.trace = g.vertices.map .initializeVertex ++ evs ++ [.examineVertex u]))) ?_ ?_ ?_ ⟨h₀, hs₀⟩ h r rfl
  · rintro t st st' ⟨i, hi⟩ hs
    unfold dijkstraStep at hs
    split at hs
    · split at hs
      · cases hs
      · rename_i u heap _
        split at hs
        · cases hs
        · rename_i hstop
          cases hs
          refine ⟨told_step i u heap, ?_⟩
          have i' := told_step i u heap
          obtain ⟨us, evs, n, h1, h2, h3⟩ := i
          obtain ⟨evs', n', h5, h6, h7⟩ := crosses_edges (g := g) (st.distOf a u) (g.outEdges u)
            (show Agrees a n (({ st with heap := heap }).emit (.examineVertex u)) from ⟨h2.dist, h2.preds, h2.fresh⟩)
          intro v hv
          have h8 : finished (DijkstraState.trace (List.foldl (dijkstraEdge a g (st.distOf a u)) (({ st with heap := heap }).emit (.examineVertex u)) (g.outEdges u)) ++
              [.finishVertex u]) = finished st.trace ++ [u] := by
            rw [h7]
            have := crossesAll_finished h5
            unfold finished at *
            simp [DijkstraState.emit, this]
          have h9 : v ∈ finished st.trace ++ [u] := h8 ▸ hv
          rw [List.mem_append, List.mem_singleton] at h9
          rcases h9 with h9 | rfl
          · exact hi v h9
          · simpa using hstop
    · cases hs
  · rintro t st r ⟨⟨us, evs, n, h1, h2, h3⟩, hi⟩ hs r' hr
    cases hr
    have hus : ∀ u ∈ us, stop u = false := fun u hu => hi u (by rw [h3, hfin h1]; exact hu)
    unfold dijkstraStep at hs
    split at hs
    · split at hs
      · cases hs
      · rename_i u heap _
        split at hs
        · rename_i hstop
          cases hs
          exact ⟨us, evs, n, h1, ⟨h2.dist, h2.preds, h2.fresh⟩, hus, .inr ⟨rfl, u, hstop, by simp [DijkstraState.emit, h3]⟩⟩
        · cases hs
    · cases hs
      exact ⟨us, evs, n, h1, h2, hus, .inl ⟨rfl, h3⟩⟩
  · intro t st e _ _ r' hr
    cases hr

/-! ### The arcs that are not relaxed -/

/-- Each arc reported as not relaxed is worse than the current distance of its target. -/
def Worse (a : DijkstraArgs E D) (g : GraphI V E) (st : DijkstraState V E D) : Prop :=
  ∀ e, .edgeNotRelaxed e ∈ st.trace → ∃ b ∈ examined st.trace, e ∈ g.outEdges b ∧
    a.compare (st.distOf a (g.target e)) (a.combine (st.distOf a b) (a.weight e)) = true

theorem Worse.edge (h : Hyp a g s) {bs : List V} {u : V} {P : List E} {st : DijkstraState V E D} (i : Inv a g s bs (some u) P st) (hw : Worse a g st) {e : E}
    (he : e ∈ g.outEdges u) : Worse a g (dijkstraEdge a g (st.distOf a u) st e) := by
  obtain ⟨evs, n', h1, h2, h3⟩ := crosses_edge (g := g) (n := ⟨st.distOf a, fun v e => e ∈ st.predsOf v, fun v => colorOf st.color v = .white⟩)
    ⟨fun _ => rfl, fun _ _ => Iff.rfl, fun _ => Iff.rfl⟩ (st.distOf a u) e
  obtain ⟨_, hf⟩ := i.relax_facts h he
  have hex : ∀ b, b ∈ examined st.trace → b ∈ examined (dijkstraEdge a g (st.distOf a u) st e).trace := by
    intro b hb
    rw [h3]
    unfold examined at *
    rw [List.filterMap_append]
    exact List.mem_append_left _ hb
  have hu : u ∈ examined st.trace := by rw [i.trEx]; simp
  have hdist := h2.dist
  intro e' he'
  rw [h3] at he'
  -- the cases of an improvement
  have himp : ∀ hlt : a.compare (a.combine (st.distOf a u) (a.weight e)) (st.distOf a (g.target e)) = true,
      (∀ v, n'.dist v = if v = g.target e then a.combine (st.distOf a u) (a.weight e) else st.distOf a v) → .edgeNotRelaxed e' ∈ st.trace →
      ∃ b ∈ examined (dijkstraEdge a g (st.distOf a u) st e).trace, e' ∈ g.outEdges b ∧
        a.compare ((dijkstraEdge a g (st.distOf a u) st e).distOf a (g.target e')) (a.combine ((dijkstraEdge a g (st.distOf a u) st e).distOf a b) (a.weight e')) = true := by
    intro hlt hd hm
    obtain ⟨b, hb, k1, k2⟩ := hw e' hm
    obtain ⟨_, f2, f3, _⟩ := hf hlt
    refine ⟨b, hex b hb, k1, ?_⟩
    have hbt : b ≠ g.target e := by
      rw [i.trEx, List.mem_append] at hb
      rcases hb with hb | hb
      · rintro rfl; exact f3 hb
      · have : b = u := by simpa using hb
        rintro rfl; exact f2 this
    rw [← hdist, ← hdist, hd, hd, if_neg hbt]
    split
    · rename_i ht
      rw [ht] at k2
      exact h.alg.trans _ _ _ hlt k2
    · exact k2
  have hkeep : (∀ v, n'.dist v = st.distOf a v) → .edgeNotRelaxed e' ∈ st.trace →
      ∃ b ∈ examined (dijkstraEdge a g (st.distOf a u) st e).trace, e' ∈ g.outEdges b ∧
        a.compare ((dijkstraEdge a g (st.distOf a u) st e).distOf a (g.target e')) (a.combine ((dijkstraEdge a g (st.distOf a u) st e).distOf a b) (a.weight e')) = true := by
    intro hd hm
    obtain ⟨b, hb, k1, k2⟩ := hw e' hm
    exact ⟨b, hex b hb, k1, by rw [← hdist, ← hdist, hd, hd]; exact k2⟩
  cases h1 with
  | discover hlt _ => exact himp hlt (fun _ => rfl) (by simpa using he')
  | improve hlt _ => exact himp hlt (fun _ => rfl) (by simpa using he')
  | equal hlt _ => exact hkeep (fun _ => rfl) (by simpa using he')
  | worse hlt hne =>
    rw [List.mem_append] at he'
    rcases he' with he' | he'
    · exact hkeep (fun _ => rfl) he'
    · have : e' = e := by simpa using he'
      subst this
      refine ⟨u, hex u hu, he, ?_⟩
      rw [← hdist, ← hdist]
      rcases h.alg.total (a.combine (st.distOf a u) (a.weight e')) (st.distOf a (g.target e')) with h4 | h4 | h4
      · exact absurd h4 (by simpa using hlt)
      · exact absurd h4 hne
      · exact h4

theorem Worse.edges (h : Hyp a g s) {bs : List V} {u : V} (es : List E) (hes : ∀ e ∈ es, e ∈ g.outEdges u) :
    ∀ {P : List E} {st : DijkstraState V E D}, Inv a g s bs (some u) P st → Worse a g st → Worse a g (es.foldl (dijkstraEdge a g (st.distOf a u)) st) := by
  induction es with
  | nil => intro P st _ hw; exact hw
  | cons e es ih =>
    intro P st i hw
    have h1 := i.edgeStep h (hes e (by simp))
    have h2 := hw.edge h i (hes e (by simp))
    have h3 := ih (fun e' he' => hes e' (by simp [he'])) h1 h2
    have h4 := edge_dist_cur h i (hes e (by simp))
    rw [h4] at h3
    exact h3

theorem worse_run (h : Hyp a g s) (stop : V → Bool) (dist : Dict V D) {preds : Dict V (List E)} (hp : ∀ v, preds.getD v [] = []) {fuel : Nat}
    {r : Bool × DijkstraState V E D} (hr : dijkstra a g s stop dist preds fuel = some (.ok r)) : Worse a g r.2 := by
  refine loop_partial (dijkstraStep a g stop) (fun st => (∃ bs, Inv a g s bs none [] st) ∧ Worse a g st) (fun r => ∀ r', r = .ok r' → Worse a g r'.2)
    ?_ ?_ ?_ ⟨⟨[], Inv.init h hp⟩, ?_⟩ hr r rfl
  · rintro t st st' ⟨⟨bs, i⟩, hw⟩ hs
    unfold dijkstraStep at hs
    split at hs
    · rename_i hne
      obtain ⟨u, heap, h1, h2⟩ := i.popStep h hne
      rw [h1] at hs
      simp only at hs
      split at hs
      · cases hs
      · have h3 := (h2.edges h (g.outEdges u) fun e he => he)
        rw [List.nil_append] at h3
        have h4 := h3.finish
        cases hs
        refine ⟨⟨bs ++ [u], h4⟩, ?_⟩
        have hw' : Worse a g (({ st with heap := heap }).emit (.examineVertex u)) := by
          intro e he
          obtain ⟨b, k1, k2, k3⟩ := hw e (by simpa [DijkstraState.emit] using he)
          refine ⟨b, ?_, k2, k3⟩
          unfold examined at *
          simp only [DijkstraState.emit, List.filterMap_append]
          exact List.mem_append_left _ k1
        have h5 := Worse.edges h (g.outEdges u) (fun e he => he) h2 hw'
        intro e he
        have he' : .edgeNotRelaxed e ∈ DijkstraState.trace (List.foldl (dijkstraEdge a g (st.distOf a u)) (({ st with heap := heap }).emit (.examineVertex u))
            (g.outEdges u)) := by
          have he'' : _ ∈ DijkstraState.trace (List.foldl _ _ _) ++ [_] := he
          simpa using he''
        obtain ⟨b, k1, k2, k3⟩ := h5 e he'
        refine ⟨b, ?_, k2, k3⟩
        unfold examined at *
        simp only [DijkstraState.emit, List.filterMap_append]
        exact List.mem_append_left _ k1
    · cases hs
  · rintro t st r ⟨⟨bs, i⟩, hw⟩ hs r' hr'
    cases hr'
    unfold dijkstraStep at hs
    split at hs
    · split at hs
      · cases hs
      · split at hs
        · cases hs
          intro e he
          obtain ⟨b, k1, k2, k3⟩ := hw e (by simpa [DijkstraState.emit] using he)
          refine ⟨b, ?_, k2, k3⟩
          unfold examined at *
          simp only [DijkstraState.emit, List.filterMap_append]
          exact List.mem_append_left _ k1
        · cases hs
    · cases hs
      exact hw
  · intro t st e _ _ r' hr'
    cases hr'
  · intro e he
    obtain ⟨_, _, _, h4⟩ := initFold (a := a) (s := s) g.vertices ⟨dist, preds, Dict.set [] s .white, ⟨[], 0⟩, []⟩
    have : (dijkstraInit a g s dist preds).trace = g.vertices.map .initializeVertex := h4.trans (by simp)
    rw [this] at he
    simp at he

end PyBGL.Dijkstra
