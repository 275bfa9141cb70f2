import Verif.Proofs.DijkstraRun
import Verif.Spec.DijkstraCrash

/-!
# `dijkstra_shortest_paths` with an arbitrary visitor
-/

namespace PyBGL.Dijkstra
open Heapq DijkstraState
variable {V E D σ : Type} [DecidableEq V] [DecidableEq E] [DecidableEq D]
variable {a : DijkstraArgs E D} {g : GraphI V E} {s : V}

/-- The calls, with the state at each of them. -/
abbrev Calls (V E D : Type) := List (DijkstraEvent V E × DijkstraState V E D)

omit [DecidableEq V] [DecidableEq E] [DecidableEq D] in
theorem tell_append (vis : DijkstraReader V E D σ) (fin mid : DijkstraState V E D) : ∀ (l l' : Calls V E D) (x : σ),
    tell vis fin (l ++ l') x = (tell vis mid l x >>= fun p => tell vis fin l' p.2) := by
  intro l
  induction l with
  | nil => intro l' x; rfl
  | cons c l ih =>
    intro l' x
    obtain ⟨ev, st⟩ := c
    simp only [List.cons_append, tell]
    cases vis ev st x with
    | error err => rfl
    | ok x' => exact ih l' x'

omit [DecidableEq V] [DecidableEq E] [DecidableEq D] in
theorem tell_one (vis : DijkstraReader V E D σ) (ev : DijkstraEvent V E) (st : DijkstraState V E D) (x : σ) :
    dijkstraCall vis ev (st, x) = tell vis (st.emit ev) [(ev, st.emit ev)] x := by
  simp only [dijkstraCall, tell]
  cases vis ev (st.emit ev) x <;> rfl

/-- The state once the arc `e` has improved a distance. -/
def relaxedState (a : DijkstraArgs E D) (g : GraphI V E) (w_su : D) (st : DijkstraState V E D) (e : E) : DijkstraState V E D :=
  { st.emit (.examineEdge e) with
    dist := st.dist.set (g.target e) (a.combine w_su (a.weight e)), preds := st.preds.set (g.target e) [e] }

/-- The calls made by the update of the heap. -/
def queueCalls (a : DijkstraArgs E D) (st : DijkstraState V E D) (v : V) : Calls V E D :=
  match colorOf st.color v with
  | .white => [(.discoverVertex v, dijkstraQueue a st v)]
  | _ => []

/-- The calls made for an arc. -/
def edgeCalls (a : DijkstraArgs E D) (g : GraphI V E) (w_su : D) (st : DijkstraState V E D) (e : E) : Calls V E D :=
  (.examineEdge e, st.emit (.examineEdge e)) ::
  (if a.compare (a.combine w_su (a.weight e)) (st.distOf a (g.target e)) then
    queueCalls a (relaxedState a g w_su st e) (g.target e) ++ [(.edgeRelaxed e, dijkstraEdge a g w_su st e)]
  else if a.combine w_su (a.weight e) = st.distOf a (g.target e) then [(.edgeRelaxed e, dijkstraEdge a g w_su st e)]
  else [(.edgeNotRelaxed e, dijkstraEdge a g w_su st e)])

/-- The calls made for several arcs. -/
def edgesCalls (a : DijkstraArgs E D) (g : GraphI V E) (w_su : D) : DijkstraState V E D → List E → Calls V E D
  | _, [] => []
  | st, e :: es => edgeCalls a g w_su st e ++ edgesCalls a g w_su (dijkstraEdge a g w_su st e) es

/-- The state once `u` is processed. -/
def vertexState (a : DijkstraArgs E D) (g : GraphI V E) (u : V) (st : DijkstraState V E D) : DijkstraState V E D :=
  let st' := (g.outEdges u).foldl (dijkstraEdge a g (st.distOf a u)) (st.emit (.examineVertex u))
  ({ st' with color := st'.color.set u .black }).emit (.finishVertex u)

/-- The calls made for a vertex. -/
def vertexCalls (a : DijkstraArgs E D) (g : GraphI V E) (u : V) (st : DijkstraState V E D) : Calls V E D :=
  (.examineVertex u, st.emit (.examineVertex u)) ::
    (edgesCalls a g (st.distOf a u) (st.emit (.examineVertex u)) (g.outEdges u) ++ [(.finishVertex u, vertexState a g u st)])

/-- The calls made by the initialization. -/
def initCalls (a : DijkstraArgs E D) (s : V) : DijkstraState V E D → List V → Calls V E D
  | _, [] => []
  | st, u :: us => (.initializeVertex u, dijkstraInitVertex a s st u) :: initCalls a s (dijkstraInitVertex a s st u) us

omit [DecidableEq E] [DecidableEq D] in
theorem queueV_eq (vis : DijkstraReader V E D σ) (st : DijkstraState V E D) (x : σ) (v : V) :
    dijkstraQueueV a vis (st, x) v = tell vis (dijkstraQueue a st v) (queueCalls a st v) x := by
  unfold dijkstraQueueV queueCalls dijkstraQueue
  cases hc : colorOf st.color v with
  | white => simp only [tell_one]
  | gray => rfl
  | black => rfl

omit [DecidableEq V] [DecidableEq E] [DecidableEq D] in
theorem tell_bind {β : Type} (vis : DijkstraReader V E D σ) (mid : DijkstraState V E D)
    (F : DijkstraState V E D × σ → Except (PyErr × DijkstraState V E D) β) : ∀ (l : Calls V E D) (x : σ),
    (tell vis mid l x >>= F) = (tell vis mid l x >>= fun p => F (mid, p.2)) := by
  intro l
  induction l with
  | nil => intro x; rfl
  | cons c l ih =>
    intro x
    obtain ⟨ev, st⟩ := c
    simp only [tell]
    cases vis ev st x with
    | error err => rfl
    | ok x' => exact ih x'

theorem edgeV_eq (vis : DijkstraReader V E D σ) (w_su : D) (st : DijkstraState V E D) (x : σ) (e : E) :
    dijkstraEdgeV a g vis w_su (st, x) e = tell vis (dijkstraEdge a g w_su st e) (edgeCalls a g w_su st e) x := by
  have h0 : edgeCalls a g w_su st e = [(.examineEdge e, st.emit (.examineEdge e))] ++ (edgeCalls a g w_su st e).tail := rfl
  rw [h0, tell_append vis _ (st.emit (.examineEdge e))]
  unfold dijkstraEdgeV
  rw [tell_one, tell_bind]
  congr 1
  funext p
  obtain ⟨_, x'⟩ := p
  dsimp only
  have hd : (st.emit (.examineEdge e)).distOf a (g.target e) = st.distOf a (g.target e) := rfl
  rw [hd]
  unfold edgeCalls dijkstraEdge
  rw [List.tail_cons]
  by_cases hlt : a.compare (a.combine w_su (a.weight e)) (st.distOf a (g.target e)) = true
  · rw [if_pos hlt, if_pos hlt, if_pos hlt, tell_append vis _ (dijkstraQueue a (relaxedState a g w_su st e) (g.target e))]
    have h1 := queueV_eq (a := a) vis (relaxedState a g w_su st e) x' (g.target e)
    show (dijkstraQueueV a vis (relaxedState a g w_su st e, x') (g.target e) >>= _) = _
    rw [h1, tell_bind]
    congr 1
  · rw [if_neg hlt, if_neg hlt, if_neg hlt]
    by_cases heq : a.combine w_su (a.weight e) = st.distOf a (g.target e)
    · rw [if_pos heq, if_pos heq, if_pos heq]
      exact tell_one vis _ _ _
    · rw [if_neg heq, if_neg heq, if_neg heq]
      exact tell_one vis _ _ _

theorem edgesV_eq (vis : DijkstraReader V E D σ) (w_su : D) (es : List E) : ∀ (st : DijkstraState V E D) (x : σ),
    es.foldlM (dijkstraEdgeV a g vis w_su) (st, x) = tell vis (es.foldl (dijkstraEdge a g w_su) st) (edgesCalls a g w_su st es) x := by
  induction es with
  | nil => intro st x; rfl
  | cons e es ih =>
    intro st x
    rw [List.foldlM_cons, List.foldl_cons, edgeV_eq, edgesCalls, tell_append vis _ (dijkstraEdge a g w_su st e), tell_bind]
    congr 1
    funext p
    exact ih _ _

theorem vertexV_eq (vis : DijkstraReader V E D σ) (u : V) (st : DijkstraState V E D) (x : σ) :
    dijkstraVertexV a g vis u (st, x) = tell vis (vertexState a g u st) (vertexCalls a g u st) x := by
  unfold dijkstraVertexV vertexCalls
  rw [← List.singleton_append, tell_append vis _ (st.emit (.examineVertex u)), tell_one]
  dsimp only
  rw [tell_bind]
  congr 1
  funext p
  rw [edgesV_eq, tell_append vis _ ((g.outEdges u).foldl (dijkstraEdge a g (st.distOf a u)) (st.emit (.examineVertex u))), tell_bind]
  congr 1

omit [DecidableEq E] [DecidableEq D] in
theorem initV_eq (vis : DijkstraReader V E D σ) (us : List V) : ∀ (st : DijkstraState V E D) (x : σ),
    us.foldlM (dijkstraInitVertexV a s vis) (st, x) = tell vis (us.foldl (dijkstraInitVertex a s) st) (initCalls a s st us) x := by
  induction us with
  | nil => intro st x; rfl
  | cons u us ih =>
    intro st x
    rw [List.foldlM_cons, List.foldl_cons, initCalls, ← List.singleton_append, tell_append vis _ (dijkstraInitVertex a s st u)]
    unfold dijkstraInitVertexV
    rw [tell_one]
    show (tell vis (dijkstraInitVertex a s st u) _ x >>= _) = _
    rw [tell_bind]
    congr 1
    funext p
    exact ih _ _

/-! ## The states at the calls -/

/-- The maps of `st` are those of a state that satisfies the invariant. -/
def Seen (a : DijkstraArgs E D) (g : GraphI V E) (s : V) (st : DijkstraState V E D) : Prop :=
  ∃ bs cur P st', Inv a g s bs cur P st' ∧ (∀ u, cur = some u → ∀ e ∈ P, e ∈ g.outEdges u) ∧ st.dist = st'.dist ∧ st.preds = st'.preds ∧
    examined st.trace = bs ++ cur.toList ∧ finished st.trace = bs

omit [DecidableEq E] [DecidableEq D] in
theorem Inv.seen {bs : List V} {cur : Option V} {P : List E} {st : DijkstraState V E D} (i : Inv a g s bs cur P st)
    (hP : ∀ u, cur = some u → ∀ e ∈ P, e ∈ g.outEdges u) : Seen a g s st := ⟨bs, cur, P, st, i, hP, rfl, rfl, i.trEx, i.trFin⟩

theorem Inv.exact (h : Hyp a g s) {bs : List V} {cur : Option V} {P : List E} {st : DijkstraState V E D} (i : Inv a g s bs cur P st) {u : V}
    (hu : u ∈ bs ++ cur.toList) : u ∈ g.vertices ∧ a.compare (st.distOf a u) a.infty = true ∧
    IsBest a.compare a.infty (fun d => ∃ p, IsPath g s p u ∧ pathWeight a.combine a.zero a.weight p = d) (st.distOf a u) := by
  have hu' : u ∈ bs ∨ cur = some u := by
    rcases List.mem_append.mp hu with h1 | h1
    · exact .inl h1
    · exact .inr (by simpa using h1)
  have hd : Open s st u ∨ u ∈ bs := hu'.elim .inr fun h1 => .inl (i.curOk u h1)
  obtain ⟨h1, h2⟩ := i.disc u hd
  refine ⟨hd.elim (i.openV u) (i.sub u), h1, .inl ⟨h2, h1, ?_⟩⟩
  rintro w ⟨p, hp, rfl⟩
  cases hw : a.compare (pathWeight a.combine a.zero a.weight p) (st.distOf a u) with
  | false => rfl
  | true =>
    exfalso
    rcases i.lower h p u hp (h.alg.trans _ _ _ hw h1) with ⟨_, h3⟩ | ⟨y, h3, h4⟩
    · exact Hyp.not_lt_of_le h3 hw
    · have h5 : Le a (st.distOf a u) (st.distOf a y) := hu'.elim (fun h6 => i.mono u h6 y h3) fun h6 => i.curMono u h6 y h3
      exact Hyp.not_lt_of_le (h.leTrans h5 h4) hw

theorem Seen.trust (h : Hyp a g s) {st : DijkstraState V E D} (hs : Seen a g s st) :
    Trustworthy a.compare a.combine a.zero a.infty a.weight g s (st.distOf a) st.predsOf (examined st.trace) (finished st.trace) := by
  obtain ⟨bs, cur, P, st', i, hP, h1, h2, h3, h4⟩ := hs
  have hd : st.distOf a = st'.distOf a := by funext v; unfold distOf; rw [h1]
  have hp : st.predsOf = st'.predsOf := by funext v; unfold predsOf; rw [h2]
  rw [hd, hp, h3, h4]
  have hex : ∀ b e, Ex g bs cur P b e → b ∈ bs ++ cur.toList ∧ e ∈ g.outEdges b ∧ (Open s st' b ∨ b ∈ bs) := by
    rintro b e (⟨k1, k2⟩ | ⟨k1, k2⟩)
    · exact ⟨List.mem_append_left _ k1, k2, .inr k1⟩
    · exact ⟨List.mem_append_right _ (by simp [k1]), hP b k1 e k2, .inl (i.curOk b k1)⟩
  refine ⟨i.root, ?_, fun u hu => i.exact h hu, ?_, ?_, ?_⟩
  · intro v hv
    by_cases ho : Open s st' v ∨ v ∈ bs
    · exact .inr (i.disc v ho)
    · exact .inl (i.undisc v hv (fun h' => ho (.inl h')) fun h' => ho (.inr h'))
  · intro u hu e he
    refine ⟨i.edge u e (.inl ⟨hu, he⟩), fun heq => (i.preds _ _).mpr ⟨u, .inl ⟨hu, he⟩, rfl, heq⟩⟩
  · intro v e he
    obtain ⟨b, k1, rfl, k3⟩ := (i.preds v e).mp he
    obtain ⟨k4, k5, k6⟩ := hex b e k1
    obtain ⟨_, p, k7, k8⟩ := i.disc b k6
    exact ⟨b, k4, k5, rfl, k3, p, k7.snoc k5, by rw [pathWeight_snoc, k8, k3]⟩
  · intro v hv hne hlt
    refine i.predsNe v ?_ hne
    by_contra ho
    rw [i.undisc v hv (fun h' => ho (.inl h')) fun h' => ho (.inr h'), h.alg.irrefl] at hlt
    cases hlt

/-- The calls made for an arc. -/
theorem edgeCalls_seen (h : Hyp a g s) {bs : List V} {u : V} {P : List E} {st : DijkstraState V E D} (i : Inv a g s bs (some u) P st)
    (hP : ∀ e ∈ P, e ∈ g.outEdges u) {e : E} (he : e ∈ g.outEdges u) : ∀ c ∈ edgeCalls a g (st.distOf a u) st e, Seen a g s c.2 := by
  have i' := i.edgeStep h he
  have hP0 : ∀ u', some u = some u' → ∀ e ∈ P, e ∈ g.outEdges u' := by rintro _ ⟨⟩; exact hP
  have hP' : ∀ u', some u = some u' → ∀ e' ∈ P ++ [e], e' ∈ g.outEdges u' := by
    rintro _ ⟨⟩ e' h'
    rcases List.mem_append.mp h' with h' | h'
    · exact hP e' h'
    · rw [List.mem_singleton.mp h']; exact he
  have hlast := i'.seen hP'
  intro c hc
  unfold edgeCalls at hc
  rcases List.mem_cons.mp hc with rfl | hc
  · refine ⟨bs, some u, P, st, i, hP0, rfl, rfl, ?_, ?_⟩
    · rw [← i.trEx]; simp [DijkstraState.emit, examined]
    · rw [← i.trFin]; simp [DijkstraState.emit, finished]
  · split at hc
    · rename_i hlt
      rcases List.mem_append.mp hc with hc | hc
      · unfold queueCalls at hc
        split at hc
        · rw [List.mem_singleton] at hc
          subst hc
          have hE : dijkstraEdge a g (st.distOf a u) st e =
              (dijkstraQueue a (relaxedState a g (st.distOf a u) st e) (g.target e)).emit (.edgeRelaxed e) := by
            unfold dijkstraEdge; rw [if_pos hlt]; rfl
          rw [hE] at i'
          refine ⟨bs, some u, P ++ [e], _, i', hP', rfl, rfl, ?_, ?_⟩
          · rw [← i'.trEx]; simp [DijkstraState.emit, examined]
          · rw [← i'.trFin]; simp [DijkstraState.emit, finished]
        · cases hc
      · rw [List.mem_singleton] at hc; subst hc; exact hlast
    · split at hc <;> (rw [List.mem_singleton] at hc; subst hc; exact hlast)

theorem edgesCalls_seen (h : Hyp a g s) {bs : List V} {u : V} (es : List E) : ∀ {P : List E} {st : DijkstraState V E D}, Inv a g s bs (some u) P st →
    (∀ e ∈ P, e ∈ g.outEdges u) → (∀ e ∈ es, e ∈ g.outEdges u) → ∀ c ∈ edgesCalls a g (st.distOf a u) st es, Seen a g s c.2 := by
  induction es with
  | nil => intro P st i _ _ c hc; cases hc
  | cons e es ih =>
    intro P st i hP hes c hc
    have he := hes e (by simp)
    rw [edgesCalls] at hc
    rcases List.mem_append.mp hc with hc | hc
    · exact edgeCalls_seen h i hP he c hc
    · have h1 := i.edgeStep h he
      rw [← edge_dist_cur h i he] at hc
      rw [edge_dist_cur h i he] at hc
      have h2 := @ih (P ++ [e]) _ h1 (by
        intro e' h'
        rcases List.mem_append.mp h' with h' | h'
        · exact hP e' h'
        · rw [List.mem_singleton.mp h']; exact he) (fun e' h' => hes e' (by simp [h'])) c
      rw [edge_dist_cur h i he] at h2
      exact h2 hc

theorem vertexCalls_seen (h : Hyp a g s) {bs : List V} {u : V} {st : DijkstraState V E D} (i : Inv a g s bs (some u) [] (st.emit (.examineVertex u))) :
    Inv a g s (bs ++ [u]) none [] (vertexState a g u st) ∧ ∀ c ∈ vertexCalls a g u st, Seen a g s c.2 := by
  have h3 := (i.edges h (g.outEdges u) fun e he => he)
  rw [List.nil_append] at h3
  have h4 := h3.finish
  refine ⟨h4, ?_⟩
  intro c hc
  unfold vertexCalls at hc
  rcases List.mem_cons.mp hc with rfl | hc
  · exact i.seen (by simp)
  · rcases List.mem_append.mp hc with hc | hc
    · exact edgesCalls_seen h (g.outEdges u) i (by simp) (fun e he => he) c hc
    · rw [List.mem_singleton] at hc; subst hc; exact h4.seen (by simp)

/-! ## The calls and the traces -/

/-- The calls `l` lead from the trace `tr` to the trace `tr'`, and each state contains the calls made so far. -/
def Chronicle (tr : List (DijkstraEvent V E)) (l : Calls V E D) : Prop :=
  ∀ l1 c l2, l = l1 ++ c :: l2 → c.2.trace = tr ++ l1.map (·.1) ++ [c.1]

omit [DecidableEq V] [DecidableEq E] [DecidableEq D] in
theorem Chronicle.append {tr : List (DijkstraEvent V E)} {l l' : Calls V E D} (h : Chronicle tr l) (h' : Chronicle (tr ++ l.map (·.1)) l') :
    Chronicle tr (l ++ l') := by
  intro l1 c l2 heq
  rcases List.append_eq_append_iff.mp heq with ⟨m, h1, h2⟩ | ⟨m, h1, h2⟩
  · rw [h' m c l2 h2, h1]; simp
  · cases m with
    | nil =>
      rw [List.append_nil] at h1
      rw [List.nil_append] at h2
      rw [h' [] c l2 h2.symm, h1]; simp
    | cons d m =>
      rw [List.cons_append] at h2
      obtain ⟨rfl, h3⟩ := List.cons.inj h2
      exact h l1 c m h1

omit [DecidableEq V] [DecidableEq E] [DecidableEq D] in
theorem Chronicle.nil (tr : List (DijkstraEvent V E)) : Chronicle tr ([] : Calls V E D) := by
  intro l1 c l2 h; simp at h

omit [DecidableEq V] [DecidableEq E] [DecidableEq D] in
theorem Chronicle.one {tr : List (DijkstraEvent V E)} {ev : DijkstraEvent V E} {st : DijkstraState V E D} (h : st.trace = tr ++ [ev]) :
    Chronicle tr [(ev, st)] := by
  intro l1 c l2 heq
  cases l1 with
  | nil => obtain ⟨rfl, _⟩ := List.cons.inj heq; simpa using h
  | cons d l1 => have := (List.cons.inj heq).2; simp at this

theorem edgeCalls_chron (w_su : D) (st : DijkstraState V E D) (e : E) :
    Chronicle st.trace (edgeCalls a g w_su st e) ∧ (dijkstraEdge a g w_su st e).trace = st.trace ++ (edgeCalls a g w_su st e).map (·.1) := by
  unfold edgeCalls
  by_cases hlt : a.compare (a.combine w_su (a.weight e)) (st.distOf a (g.target e)) = true
  · have hE : dijkstraEdge a g w_su st e = (dijkstraQueue a (relaxedState a g w_su st e) (g.target e)).emit (.edgeRelaxed e) := by
      unfold dijkstraEdge; rw [if_pos hlt]; rfl
    rw [if_pos hlt, hE]
    unfold queueCalls dijkstraQueue
    cases hc : colorOf (relaxedState a g w_su st e).color (g.target e) with
    | white =>
      refine ⟨?_, by simp [DijkstraState.emit, relaxedState]⟩
      exact (Chronicle.one (tr := st.trace) (ev := .examineEdge e) rfl).append
        ((Chronicle.one (ev := .discoverVertex (g.target e)) (by simp [DijkstraState.emit, relaxedState])).append
          (Chronicle.one (by simp [DijkstraState.emit, relaxedState])))
    | gray =>
      refine ⟨?_, by simp [DijkstraState.emit, relaxedState]⟩
      exact (Chronicle.one (tr := st.trace) (ev := .examineEdge e) rfl).append (Chronicle.one (by simp [DijkstraState.emit, relaxedState]))
    | black =>
      refine ⟨?_, by simp [DijkstraState.emit, relaxedState]⟩
      exact (Chronicle.one (tr := st.trace) (ev := .examineEdge e) rfl).append (Chronicle.one (by simp [DijkstraState.emit, relaxedState]))
  · rw [if_neg hlt]
    unfold dijkstraEdge
    rw [if_neg hlt]
    split
    · refine ⟨?_, by simp [DijkstraState.emit]⟩
      exact (Chronicle.one (tr := st.trace) (ev := .examineEdge e) rfl).append (Chronicle.one (by simp [DijkstraState.emit]))
    · refine ⟨?_, by simp [DijkstraState.emit]⟩
      exact (Chronicle.one (tr := st.trace) (ev := .examineEdge e) rfl).append (Chronicle.one (by simp [DijkstraState.emit]))

theorem edgesCalls_chron (w_su : D) (es : List E) : ∀ (st : DijkstraState V E D), Chronicle st.trace (edgesCalls a g w_su st es) ∧
    (es.foldl (dijkstraEdge a g w_su) st).trace = st.trace ++ (edgesCalls a g w_su st es).map (·.1) := by
  induction es with
  | nil => intro st; exact ⟨Chronicle.nil _, by simp [edgesCalls]⟩
  | cons e es ih =>
    intro st
    obtain ⟨h1, h2⟩ := edgeCalls_chron (a := a) (g := g) w_su st e
    obtain ⟨h3, h4⟩ := ih (dijkstraEdge a g w_su st e)
    rw [edgesCalls, List.foldl_cons]
    refine ⟨h1.append (by rw [← h2]; exact h3), ?_⟩
    rw [h4, h2]; simp

theorem vertexCalls_chron (u : V) (st : DijkstraState V E D) : Chronicle st.trace (vertexCalls a g u st) ∧
    (vertexState a g u st).trace = st.trace ++ (vertexCalls a g u st).map (·.1) := by
  obtain ⟨h1, h2⟩ := edgesCalls_chron (a := a) (g := g) (st.distOf a u) (g.outEdges u) (st.emit (.examineVertex u))
  have h3 : (vertexState a g u st).trace = st.trace ++ [.examineVertex u] ++
      (edgesCalls a g (st.distOf a u) (st.emit (.examineVertex u)) (g.outEdges u)).map (·.1) ++ [.finishVertex u] := by
    show ((g.outEdges u).foldl (dijkstraEdge a g (st.distOf a u)) (st.emit (.examineVertex u))).trace ++ [_] = _
    rw [h2]; rfl
  constructor
  · refine (Chronicle.one (tr := st.trace) (ev := .examineVertex u) rfl).append ?_
    exact h1.append (Chronicle.one (by rw [h3]; simp [DijkstraState.emit]))
  · rw [h3]; simp [vertexCalls]

omit [DecidableEq E] [DecidableEq D] in
theorem initCalls_chron (us : List V) : ∀ (st : DijkstraState V E D), Chronicle st.trace (initCalls a s st us) ∧
    (us.foldl (dijkstraInitVertex a s) st).trace = st.trace ++ (initCalls a s st us).map (·.1) ∧
    (initCalls a s st us).map (·.1) = us.map .initializeVertex := by
  induction us with
  | nil => intro st; exact ⟨Chronicle.nil _, by simp [initCalls], rfl⟩
  | cons u us ih =>
    intro st
    obtain ⟨h3, h4, h5⟩ := ih (dijkstraInitVertex a s st u)
    rw [initCalls, List.foldl_cons]
    refine ⟨(Chronicle.one (tr := st.trace) (ev := .initializeVertex u) rfl).append ?_, ?_, ?_⟩
    · exact h3
    · rw [h4]; simp [dijkstraInitVertex, DijkstraState.emit]
    · simp [h5]

omit [DecidableEq E] [DecidableEq D] in
theorem initCalls_states (us : List V) : ∀ (st : DijkstraState V E D), ∀ c ∈ initCalls a s st us,
    ∃ pre post, us = pre ++ post ∧ c.2 = pre.foldl (dijkstraInitVertex a s) st := by
  induction us with
  | nil => intro st c hc; cases hc
  | cons u us ih =>
    intro st c hc
    rw [initCalls] at hc
    rcases List.mem_cons.mp hc with rfl | hc
    · exact ⟨[u], us, rfl, rfl⟩
    · obtain ⟨pre, post, h1, h2⟩ := ih _ c hc
      exact ⟨u :: pre, post, by rw [h1]; rfl, h2⟩

/-! ## The loop -/

theorem returns_step {S R : Type} {step : Nat → S → Step S R} {t : Nat} {x y : S} {r : Except PyErr R} (h : step t x = .next y)
    (hr : Returns (fun fuel => loop step fuel (t + 1) y) r) : Returns (fun fuel => loop step fuel t x) r := by
  obtain ⟨N, hN⟩ := hr
  refine ⟨N + 1, fun fuel hf => ?_⟩
  obtain ⟨k, rfl⟩ := Nat.exists_eq_add_of_le hf
  have : N + 1 + k = (N + k) + 1 := by omega
  rw [this]
  simp only [loop, h]
  exact hN _ (by omega)

theorem returns_stop {S R : Type} {step : Nat → S → Step S R} {t : Nat} {x : S} {r : R} (h : step t x = .done r) :
    Returns (fun fuel => loop step fuel t x) (.ok r) := by
  refine ⟨1, fun fuel hf => ?_⟩
  obtain ⟨k, rfl⟩ := Nat.exists_eq_add_of_le hf
  have : 1 + k = k + 1 := by omega
  rw [this]
  simp only [loop, h]

theorem run_calls (h : Hyp a g s) : ∀ (n : Nat) (bs : List V) (st : DijkstraState V E D), Inv a g s bs none [] st → g.vertices.length - bs.length ≤ n →
    ∃ (l : Calls V E D) (fin : DijkstraState V E D),
      (∀ t, Returns (fun fuel => loop (dijkstraStep a g fun _ => false) fuel t st) (.ok (false, fin))) ∧
      (∀ (σ : Type) (vis : DijkstraReader V E D σ) (x : σ) t, Returns (fun fuel => loop (dijkstraStepV a g vis) fuel t (st, x)) (.ok (tell vis fin l x))) ∧
      (∀ c ∈ l, Seen a g s c.2) ∧ Chronicle st.trace l ∧ fin.trace = st.trace ++ l.map (·.1) ∧ Seen a g s fin := by
  intro n
  induction n with
  | zero =>
    intro bs st i hn
    by_cases hne : st.heap.nonempty = true
    · exfalso
      obtain ⟨u, heap, h1, h2⟩ := i.popStep h hne
      have h4 := (vertexCalls_seen h (st := { st with heap := heap }) h2).1
      have h5 := (List.subperm_of_subset h4.nd h4.sub).length_le
      rw [List.length_append, List.length_singleton] at h5
      omega
    · refine ⟨[], st, fun t => returns_stop ?_, fun σ vis x t => returns_stop ?_, by simp, Chronicle.nil _, by simp, i.seen (by simp)⟩
      · unfold dijkstraStep; rw [if_neg hne]
      · unfold dijkstraStepV; rw [if_neg hne]; rfl
  | succ n ih =>
    intro bs st i hn
    by_cases hne : st.heap.nonempty = true
    · obtain ⟨u, heap, h1, h2⟩ := i.popStep h hne
      obtain ⟨h4, h5⟩ := vertexCalls_seen h (st := { st with heap := heap }) h2
      have h6 := (List.subperm_of_subset h4.nd h4.sub).length_le
      rw [List.length_append, List.length_singleton] at h6
      obtain ⟨l, fin, k1, k2, k3, k4, k5, k6⟩ := ih (bs ++ [u]) _ h4 (by rw [List.length_append, List.length_singleton]; omega)
      obtain ⟨j1, j2⟩ := vertexCalls_chron (a := a) (g := g) u { st with heap := heap }
      refine ⟨vertexCalls a g u { st with heap := heap } ++ l, fin, fun t => returns_step ?_ (k1 (t + 1)), fun σ vis x t => ?_, ?_, ?_, ?_, k6⟩
      · unfold dijkstraStep; rw [if_pos hne, h1]; rfl
      · rw [tell_append vis _ (vertexState a g u { st with heap := heap })]
        have hstep : dijkstraStepV a g vis t (st, x) = match tell vis (vertexState a g u { st with heap := heap })
            (vertexCalls a g u { st with heap := heap }) x with
          | .error r => .done (.error r)
          | .ok q => .next q := by
          unfold dijkstraStepV
          rw [if_pos hne]
          dsimp only
          rw [h1]
          dsimp only
          rw [vertexV_eq]
          cases tell vis (vertexState a g u { st with heap := heap }) (vertexCalls a g u { st with heap := heap }) x <;> rfl
        have htb := tell_bind vis (vertexState a g u { st with heap := heap }) (fun p => (.ok p : Except _ (DijkstraState V E D × σ)))
          (vertexCalls a g u { st with heap := heap }) x
        cases ht : tell vis (vertexState a g u { st with heap := heap }) (vertexCalls a g u { st with heap := heap }) x with
        | error r => rw [ht] at hstep; exact returns_stop hstep
        | ok q =>
          rw [ht] at hstep htb
          have hq : q = (vertexState a g u { st with heap := heap }, q.2) := Except.ok.inj htb
          refine returns_step hstep ?_
          rw [hq]
          exact k2 σ vis q.2 (t + 1)
      · intro c hc
        rcases List.mem_append.mp hc with hc | hc
        · exact h5 c hc
        · exact k3 c hc
      · refine j1.append ?_
        rw [j2] at k4; exact k4
      · rw [k5, j2]; simp
    · refine ⟨[], st, fun t => returns_stop ?_, fun σ vis x t => returns_stop ?_, by simp, Chronicle.nil _, by simp, i.seen (by simp)⟩
      · unfold dijkstraStep; rw [if_neg hne]
      · unfold dijkstraStepV; rw [if_neg hne]; rfl

/-- The whole run. -/
theorem crash (h : Hyp a g s) (dist : Dict V D) {preds : Dict V (List E)} (hp : ∀ v, preds.getD v [] = []) :
    ∃ (l1 l2 : Calls V E D) (fin : DijkstraState V E D),
      Returns (dijkstra a g s (fun _ => false) dist preds) (.ok (false, fin)) ∧
      (∀ (σ : Type) (vis : DijkstraReader V E D σ) (x : σ), Returns (dijkstraV a g s vis x dist preds) (.ok (tell vis fin (l1 ++ l2) x))) ∧
      l1.map (·.1) = g.vertices.map .initializeVertex ∧ (l1 ++ l2).map (·.1) = fin.trace ∧ Chronicle [] (l1 ++ l2) ∧
      (∀ c ∈ l1, c.2.preds = preds ∧ ∀ v, c.2.distOf a v = if .initializeVertex v ∈ c.2.trace then (if v = s then a.zero else a.infty) else dist.getD v a.dflt) ∧
      (∀ c ∈ l2, Seen a g s c.2) ∧ Seen a g s fin := by
  let st0 : DijkstraState V E D := ⟨dist, preds, Dict.set [] s .white, ⟨[], 0⟩, []⟩
  obtain ⟨i1, i2, i3⟩ := initCalls_chron (a := a) (s := s) g.vertices st0
  obtain ⟨l, fin, k1, k2, k3, k4, k5, k6⟩ := run_calls h _ [] _ (Inv.init h (dist := dist) hp) (Nat.le_refl _)
  have htr : (dijkstraInit a g s dist preds).trace = (initCalls a s st0 g.vertices).map (·.1) := by
    show (g.vertices.foldl (dijkstraInitVertex a s) st0).trace = _
    rw [i2]; rfl
  refine ⟨initCalls a s st0 g.vertices, l, fin, k1 0, fun σ vis x => ?_, i3, ?_, ?_, ?_, k3, k6⟩
  · rw [tell_append vis _ (g.vertices.foldl (dijkstraInitVertex a s) st0)]
    have htb := tell_bind vis (g.vertices.foldl (dijkstraInitVertex a s) st0) (fun p => (.ok p : Except _ (DijkstraState V E D × σ)))
      (initCalls a s st0 g.vertices) x
    unfold dijkstraV
    have h0 := initV_eq (a := a) (s := s) vis g.vertices st0 x
    simp only [st0] at h0 htb ⊢
    rw [h0]
    generalize tell vis _ (initCalls a s _ g.vertices) x = r at htb ⊢
    cases r with
    | error r => exact ⟨0, fun _ _ => rfl⟩
    | ok q =>
      have hq : q = (_, q.2) := Except.ok.inj htb
      rw [hq]
      exact k2 σ vis q.2 0
  · rw [k5, htr, List.map_append]
  · exact i1.append (by rw [htr] at k4; exact k4)
  · intro c hc
    obtain ⟨pre, post, h1, h2⟩ := initCalls_states (a := a) (s := s) g.vertices st0 c hc
    obtain ⟨_, f2, f3, f4⟩ := initFold (a := a) (s := s) pre st0
    rw [h2]
    refine ⟨f2, fun v => ?_⟩
    rw [f3, f4]
    have : DijkstraEvent.initializeVertex v ∈ st0.trace ++ pre.map .initializeVertex ↔ v ∈ pre := by simp [st0]
    simp only [this]
    rfl

end PyBGL.Dijkstra
