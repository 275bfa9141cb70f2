import Verif.Proofs.DijkstraRun

/-!
# `make_shortest_paths_dag`
-/

namespace PyBGL.Dijkstra
open DijkstraState
variable {V E D : Type} [DecidableEq V] [DecidableEq E] [DecidableEq D]
variable {g : GraphI V E} {preds : Dict V (List E)} {t : V}

theorem predPath_append {preds : V → List E} {t u v : V} {p q : List E} (h1 : PredPath g preds u v p) (h2 : PredPath g preds t u q) :
    PredPath g preds t v (p ++ q) := by
  induction h1 with
  | nil => exact h2
  | cons _ he ih => exact .cons ih he

/-- The vertices that may be processed. -/
def dagVertices (g : GraphI V E) (preds : Dict V (List E)) (t : V) : List V := t :: (preds.flatMap (·.2)).map g.source

theorem source_mem_dagVertices {u : V} {e : E} (he : e ∈ preds.getD u []) : g.source e ∈ dagVertices g preds t := by
  unfold dagVertices
  refine List.mem_cons_of_mem _ (List.mem_map.mpr ⟨e, ?_, rfl⟩)
  unfold Dict.getD at he
  cases hg : Dict.get? preds u with
  | none => rw [hg] at he; cases he
  | some l =>
    rw [hg] at he
    exact List.mem_flatMap.mpr ⟨(u, l), Dict.mem_of_get? hg, he⟩

structure DagInv (g : GraphI V E) (preds : Dict V (List E)) (t : V) (st : List E × List V × List V) : Prop where
  todoPath : ∀ u ∈ st.2.1, ∃ p, PredPath g (preds.getD · []) t u p
  donePath : ∀ u ∈ st.2.2, ∃ p, PredPath g (preds.getD · []) t u p
  kept : ∀ e, e ∈ st.1 ↔ ∃ u ∈ st.2.2, e ∈ preds.getD u []
  next : ∀ u ∈ st.2.2, ∀ e ∈ preds.getD u [], g.source e ∈ st.2.1 ∨ g.source e ∈ st.2.2
  start : t ∈ st.2.1 ∨ t ∈ st.2.2
  disj : ∀ u ∈ st.2.1, u ∉ st.2.2
  nd : st.2.2.Nodup
  sub : ∀ u, u ∈ st.2.1 ∨ u ∈ st.2.2 → u ∈ dagVertices g preds t
  ndk : st.1.Nodup

theorem DagInv.nextStep {ord : SetOracle E} {n : Nat} {st : List E × List V × List V} (i : DagInv g preds t st) (hne : st.2.1 ≠ []) {st' : List E × List V × List V}
    (hs : dagStep ord g preds false n st = .next st') :
    DagInv g preds t st' ∧ (dagVertices g preds t).length - st'.2.2.length < (dagVertices g preds t).length - st.2.2.length := by
  unfold dagStep at hs
  rw [if_neg hne] at hs
  simp only [dagEdges] at hs
  cases hs
  have hes : ∀ e, e ∈ mkSet (st.2.1.flatMap fun u => preds.getD u []) ↔ ∃ u ∈ st.2.1, e ∈ preds.getD u [] := by
    intro e; rw [mem_mkSet, List.mem_flatMap]
  have hnd : (setUnion st.2.2 st.2.1).Nodup := nodup_setUnion i.nd _
  have htodo : ∀ u, u ∈ (mkSet ((mkSet (st.2.1.flatMap fun u => preds.getD u [])).map g.source)).filter (· ∉ setUnion st.2.2 st.2.1) ↔
      (∃ v ∈ st.2.1, ∃ e ∈ preds.getD v [], g.source e = u) ∧ u ∉ st.2.2 ∧ u ∉ st.2.1 := by
    intro u
    rw [List.mem_filter, mem_mkSet, List.mem_map]
    simp only [hes, decide_eq_true_eq, mem_setUnion]
    constructor
    · rintro ⟨⟨e, ⟨v, h1, h2⟩, h3⟩, h4⟩
      exact ⟨⟨v, h1, e, h2, h3⟩, fun h => h4 (.inl h), fun h => h4 (.inr h)⟩
    · rintro ⟨⟨v, h1, e, h2, h3⟩, h4, h5⟩
      exact ⟨⟨e, ⟨v, h1, h2⟩, h3⟩, fun h => h.elim h4 h5⟩
  have hsub : ∀ u ∈ setUnion st.2.2 st.2.1, u ∈ dagVertices g preds t := by
    intro u hu
    rw [mem_setUnion] at hu
    exact i.sub u hu.symm
  refine ⟨⟨?_, ?_, ?_, ?_, ?_, ?_, hnd, ?_, nodup_setUnion i.ndk _⟩, ?_⟩
  · intro u hu
    obtain ⟨⟨v, h1, e, h2, rfl⟩, _⟩ := (htodo u).mp hu
    obtain ⟨p, hp⟩ := i.todoPath v h1
    exact ⟨e :: p, .cons hp h2⟩
  · intro u hu
    rcases (mem_setUnion _ _ _).mp hu with hu | hu
    · exact i.donePath u hu
    · exact i.todoPath u hu
  · intro e
    simp only [mem_setUnion, i.kept]
    rw [if_neg (by decide), hes]
    constructor
    · rintro (⟨u, h1, h2⟩ | ⟨u, h1, h2⟩)
      · exact ⟨u, .inl h1, h2⟩
      · exact ⟨u, .inr h1, h2⟩
    · rintro ⟨u, h1 | h1, h2⟩
      · exact .inl ⟨u, h1, h2⟩
      · exact .inr ⟨u, h1, h2⟩
  · intro u hu e he
    by_cases hd : g.source e ∈ st.2.2 ∨ g.source e ∈ st.2.1
    · exact .inr ((mem_setUnion _ _ _).mpr hd)
    · left
      rcases (mem_setUnion _ _ _).mp hu with hu | hu
      · exact absurd (i.next u hu e he).symm hd
      · exact (htodo _).mpr ⟨⟨u, hu, e, he, rfl⟩, fun h => hd (.inl h), fun h => hd (.inr h)⟩
  · exact .inr ((mem_setUnion _ _ _).mpr i.start.symm)
  · intro u hu hu'
    have h1 := (htodo u).mp hu
    rcases (mem_setUnion _ _ _).mp hu' with h2 | h2
    · exact h1.2.1 h2
    · exact h1.2.2 h2
  · rintro u (hu | hu)
    · obtain ⟨⟨v, h1, e, h2, rfl⟩, _⟩ := (htodo u).mp hu
      exact source_mem_dagVertices h2
    · exact hsub u hu
  · obtain ⟨u, us, hu⟩ := List.exists_cons_of_ne_nil hne
    have hu1 : u ∈ st.2.1 := by rw [hu]; simp
    have h1 : (u :: st.2.2).Nodup := List.nodup_cons.mpr ⟨i.disj u hu1, i.nd⟩
    have h2 : ∀ v ∈ u :: st.2.2, v ∈ setUnion st.2.2 st.2.1 := by
      intro v hv
      rw [mem_setUnion]
      rcases List.mem_cons.mp hv with rfl | hv
      · exact .inr hu1
      · exact .inl hv
    have h3 := (List.subperm_of_subset h1 h2).length_le
    have h4 := (List.subperm_of_subset hnd hsub).length_le
    rw [List.length_cons] at h3
    show _ - (setUnion st.2.2 st.2.1).length < _
    omega

theorem dag_all (ord : SetOracle E) (g : GraphI V E) (t : V) (preds : Dict V (List E)) :
    ∃ kept, Returns (makeShortestPathsDag ord g t preds false) (.ok kept) ∧ kept.Nodup ∧
      ∀ e, e ∈ kept ↔ ∃ u p, PredPath g (preds.getD · []) t u p ∧ e ∈ p := by
  obtain ⟨r, h1, h2⟩ := loop_total (dagStep ord g preds false) (DagInv g preds t) (fun st => (dagVertices g preds t).length - st.2.2.length)
    (fun r => ∃ kept, r = .ok kept ∧ kept.Nodup ∧ ∀ e, e ∈ kept ↔ ∃ u p, PredPath g (preds.getD · []) t u p ∧ e ∈ p)
    (by
      intro n st st' i hs
      refine i.nextStep ?_ hs
      intro hne
      unfold dagStep at hs; rw [if_pos hne] at hs; cases hs)
    (by
      intro n st kept i hs
      unfold dagStep at hs
      split at hs
      · rename_i hnil
        cases hs
        refine ⟨_, rfl, i.ndk, ?_⟩
        have hall : ∀ u p, PredPath g (preds.getD · []) t u p → u ∈ st.2.2 ∧ ∀ e ∈ p, e ∈ st.1 := by
          intro u p hp
          induction hp with
          | nil =>
            refine ⟨?_, by simp⟩
            rcases i.start with h | h
            · rw [hnil] at h; cases h
            · exact h
          | @cons u p e hp he ih =>
            constructor
            · rcases i.next u ih.1 e he with h | h
              · rw [hnil] at h; cases h
              · exact h
            · intro e' he'
              rcases List.mem_cons.mp he' with rfl | he'
              · exact (i.kept _).mpr ⟨u, ih.1, he⟩
              · exact ih.2 e' he'
        intro e
        constructor
        · intro he
          obtain ⟨u, h1, h2⟩ := (i.kept e).mp he
          obtain ⟨p, hp⟩ := i.donePath u h1
          exact ⟨_, _, .cons hp h2, by simp⟩
        · rintro ⟨u, p, hp, he⟩
          exact (hall u p hp).2 e he
      · cases hs)
    (by
      intro n st e i hs
      unfold dagStep at hs
      split at hs <;> cases hs)
    (s := ([], [t], [])) (by
      refine ⟨?_, by simp, by simp, by simp, by simp, by simp, by simp, ?_, by simp⟩
      · intro u hu; simp at hu; subst hu; exact ⟨[], .nil⟩
      · rintro u (hu | hu)
        · simp at hu; subst hu; unfold dagVertices; simp
        · cases hu) 0
  obtain ⟨kept, rfl, h3⟩ := h2
  exact ⟨kept, h1, h3⟩

/-! ## `single_path=True` -/

/-- The vertices of a chain ending in `t`, except its first one. -/
def chainTail (g : GraphI V E) (t : V) : List E → List V
  | [] => []
  | _ :: p => t :: p.map g.source

theorem chainTail_cons (g : GraphI V E) (t : V) (e : E) (p : List E) : chainTail g t (e :: p) = t :: p.map g.source := rfl

structure SingleInv (g : GraphI V E) (preds : Dict V (List E)) (t : V) (st : List E × List V × List V) : Prop where
  chain : ∃ u p, PredPath g (preds.getD · []) t u p ∧ (∀ e, e ∈ st.1 ↔ e ∈ p) ∧
    ((st.2.1 = [u] ∧ u ∉ st.2.2 ∧ (∀ x, x ∈ st.2.2 ∨ x = u ↔ x = t ∨ x ∈ p.map g.source)) ∨
     (st.2.1 = [] ∧ (preds.getD u [] = [] ∨ u ∈ chainTail g t p)))
  nd : st.2.2.Nodup
  sub : ∀ u, u ∈ st.2.1 ∨ u ∈ st.2.2 → u ∈ dagVertices g preds t
  ndk : st.1.Nodup

theorem dag_single {ord : SetOracle E} (hord : ord.Valid) (g : GraphI V E) (t : V) (preds : Dict V (List E)) :
    ∃ kept u p, Returns (makeShortestPathsDag ord g t preds true) (.ok kept) ∧ kept.Nodup ∧ PredPath g (preds.getD · []) t u p ∧
      (∀ e, e ∈ kept ↔ e ∈ p) ∧ (preds.getD u [] = [] ∨ u ∈ chainTail g t p) := by
  obtain ⟨r, h1, h2⟩ := loop_total (dagStep ord g preds true) (SingleInv g preds t) (fun st => (dagVertices g preds t).length - st.2.2.length)
    (fun r => ∃ kept u p, r = .ok kept ∧ kept.Nodup ∧ PredPath g (preds.getD · []) t u p ∧ (∀ e, e ∈ kept ↔ e ∈ p) ∧
      (preds.getD u [] = [] ∨ u ∈ chainTail g t p))
    (by
      intro n st st' i hs
      obtain ⟨u, p, hp, hk, hc⟩ := i.chain
      rcases hc with ⟨c1, c2, c3⟩ | ⟨c1, _⟩
      · unfold dagStep at hs
        rw [c1, if_neg (by simp)] at hs
        simp only at hs
        have hu : u ∈ dagVertices g preds t := i.sub u (.inl (by rw [c1]; simp))
        have hnd : (setUnion st.2.2 [u]).Nodup := nodup_setUnion i.nd _
        have hsub : ∀ x ∈ setUnion st.2.2 [u], x ∈ dagVertices g preds t := by
          intro x hx
          rw [mem_setUnion, List.mem_singleton] at hx
          rcases hx with hx | rfl
          · exact i.sub x (.inr hx)
          · exact hu
        have hmeas : (dagVertices g preds t).length - (setUnion st.2.2 [u]).length < (dagVertices g preds t).length - st.2.2.length := by
          have h1 : (u :: st.2.2).Nodup := List.nodup_cons.mpr ⟨c2, i.nd⟩
          have h2 : ∀ v ∈ u :: st.2.2, v ∈ setUnion st.2.2 [u] := by
            intro v hv
            rw [mem_setUnion, List.mem_singleton]
            exact (List.mem_cons.mp hv).symm
          have h3 := (List.subperm_of_subset h1 h2).length_le
          have h4 := (List.subperm_of_subset hnd hsub).length_le
          rw [List.length_cons] at h3
          omega
        have hes : dagEdges ord preds true n [u] = [] ∧ preds.getD u [] = [] ∨ ∃ e ∈ preds.getD u [], dagEdges ord preds true n [u] = [e] := by
          unfold dagEdges
          simp only [if_true, List.flatMap_cons, List.flatMap_nil, List.append_nil]
          have hperm := hord n (mkSet (preds.getD u []))
          cases ho : ord n (mkSet (preds.getD u [])) with
          | nil =>
            left
            refine ⟨rfl, ?_⟩
            rw [ho] at hperm
            rw [List.eq_nil_iff_forall_not_mem]
            intro e he
            have := hperm.mem_iff.mpr ((mem_mkSet _ _).mpr he)
            cases this
          | cons e es =>
            right
            refine ⟨e, ?_, by simp⟩
            rw [ho] at hperm
            exact (mem_mkSet _ _).mp (hperm.mem_iff.mp (by simp))
        rcases hes with ⟨he, hn⟩ | ⟨e, hen, he⟩
        · rw [he] at hs
          cases hs
          refine ⟨⟨⟨u, p, hp, ?_, .inr ⟨rfl, .inl hn⟩⟩, hnd, ?_, nodup_setUnion i.ndk _⟩, hmeas⟩
          · intro e
            rw [mem_setUnion, hk]
            simp
          · rintro x (hx | hx)
            · cases hx
            · exact hsub x hx
        · rw [he] at hs
          cases hs
          refine ⟨⟨⟨g.source e, e :: p, .cons hp hen, ?_, ?_⟩, hnd, ?_, nodup_setUnion i.ndk _⟩, hmeas⟩
          · intro e'
            rw [mem_setUnion, hk, List.mem_singleton, List.mem_cons]
            tauto
          · have hmk : mkSet ([e].map g.source) = [g.source e] := rfl
            simp only [hmk]
            by_cases hd : g.source e ∈ setUnion st.2.2 [u]
            · right
              refine ⟨List.filter_cons_of_neg (by simp only [decide_eq_true_eq, not_not]; exact hd), .inr ?_⟩
              rw [mem_setUnion, List.mem_singleton] at hd
              rw [chainTail_cons, List.mem_cons]
              exact (c3 _).mp hd
            · left
              refine ⟨List.filter_cons_of_pos (by simpa using hd), hd, ?_⟩
              intro x
              rw [mem_setUnion, List.mem_singleton, c3, List.map_cons, List.mem_cons]
              tauto
          · rintro x (hx | hx)
            · have := (List.mem_filter.mp hx).1
              rw [mem_mkSet] at this
              simp at this
              subst this
              exact source_mem_dagVertices hen
            · exact hsub x hx
      · unfold dagStep at hs; rw [if_pos c1] at hs; cases hs)
    (by
      intro n st kept i hs
      unfold dagStep at hs
      split at hs
      · rename_i hnil
        cases hs
        obtain ⟨u, p, hp, hk, hc⟩ := i.chain
        rcases hc with ⟨c1, _⟩ | ⟨_, c⟩
        · rw [hnil] at c1; cases c1
        · exact ⟨_, u, p, rfl, i.ndk, hp, hk, c⟩
      · cases hs)
    (by
      intro n st e i hs
      unfold dagStep at hs
      split at hs <;> cases hs)
    (s := ([], [t], [])) (by
      refine ⟨⟨t, [], .nil, by simp, .inl ⟨rfl, by simp, by simp⟩⟩, by simp, ?_, by simp⟩
      rintro u (hu | hu)
      · simp at hu; subst hu; unfold dagVertices; simp
      · cases hu) 0
  obtain ⟨kept, u, p, rfl, h3⟩ := h2
  exact ⟨kept, u, p, h1, h3⟩

/-! ## After Dijkstra -/

variable {a : DijkstraArgs E D} {s : V}

/-- A chain of predecessors is a part of a best path. -/
theorem predPath_spec (hsrc : ∀ u ∈ g.vertices, ∀ e ∈ g.outEdges u, g.source e = u) {bs : List V} {st : DijkstraState V E D}
    (i : Inv a g s bs none [] st) (ht : t ∈ bs) {u : V} {p : List E} (hp : PredPath g (st.preds.getD · []) t u p) :
    u ∈ bs ∧ IsPath g u p t ∧ p.foldl (fun d e => a.combine d (a.weight e)) (st.distOf a u) = st.distOf a t := by
  induction hp with
  | nil => exact ⟨ht, .nil _, rfl⟩
  | @cons u p e hp he ih =>
    obtain ⟨b, h1, h2, h3⟩ := (i.preds u e).mp he
    rcases h1 with ⟨hb, he'⟩ | ⟨_, h1⟩
    · rw [hsrc b (i.sub b hb) e he']
      refine ⟨hb, .cons he' (h2 ▸ ih.2.1), ?_⟩
      rw [List.foldl_cons, h3]; exact ih.2.2
    · cases h1

theorem predPath_pos (h : Hyp a g s) (hsrc : ∀ u ∈ g.vertices, ∀ e ∈ g.outEdges u, g.source e = u) {bs : List V} {st : DijkstraState V E D}
    (i : Inv a g s bs none [] st)
    (hpos : ∀ x w, (∃ u ∈ g.vertices, ∃ e ∈ g.outEdges u, w = a.weight e) → a.compare x a.infty = true → a.compare x (a.combine x w) = true)
    (ht : t ∈ bs) {u : V} {p : List E} (hp : PredPath g (st.preds.getD · []) t u p) :
    ∀ x ∈ chainTail g t p, a.compare (st.distOf a u) (st.distOf a x) = true := by
  have key : ∀ {u p}, PredPath g (st.preds.getD · []) t u p → ∀ x, x = t ∨ x ∈ p.map g.source → Le a (st.distOf a u) (st.distOf a x) := by
    intro u p hp
    induction hp with
    | nil => intro x hx; simp at hx; subst hx; exact h.leRefl _
    | @cons u p e hp he ih =>
      obtain ⟨b, h1, h2, h3⟩ := (i.preds u e).mp he
      rcases h1 with ⟨hb, he'⟩ | ⟨_, h1⟩
      · have hs := hsrc b (i.sub b hb) e he'
        intro x hx
        rw [List.map_cons, List.mem_cons] at hx
        have h4 : Le a (st.distOf a (g.source e)) (st.distOf a u) := by
          rw [hs, ← h3]
          exact h.lt_le (hpos _ _ ⟨b, i.sub b hb, e, he', rfl⟩ (i.disc b (.inr hb)).1)
        rcases hx with hx | hx | hx
        · exact h.leTrans h4 (ih x (.inl hx))
        · rw [hx]; exact h.leRefl _
        · exact h.leTrans h4 (ih x (.inr hx))
      · cases h1
  cases hp with
  | nil => intro x hx; cases hx
  | @cons u p e hp he =>
    obtain ⟨b, h1, h2, h3⟩ := (i.preds u e).mp he
    rcases h1 with ⟨hb, he'⟩ | ⟨_, h1⟩
    · intro x hx
      rw [chainTail_cons, List.mem_cons] at hx
      rw [hsrc b (i.sub b hb) e he']
      refine h.lt_le_trans ?_ (key hp x hx)
      rw [← h3]
      exact hpos _ _ ⟨b, i.sub b hb, e, he', rfl⟩ (i.disc b (.inr hb)).1
    · cases h1

/-- Every arc of a best path lies on a chain of predecessors, when combining with a weight is strictly monotone. -/
theorem path_predPath (h : Hyp a g s) (hsrc : ∀ u ∈ g.vertices, ∀ e ∈ g.outEdges u, g.source e = u) {bs : List V} {st : DijkstraState V E D}
    (i : Inv a g s bs none [] st) (hno : ∀ v, ¬ Open s st v)
    (hstrict : ∀ x y w, (∃ u ∈ g.vertices, ∃ e ∈ g.outEdges u, w = a.weight e) → a.compare x y = true → a.compare (a.combine y w) a.infty = true →
      a.compare (a.combine x w) (a.combine y w) = true) :
    ∀ (p : List E) (t : V), IsPath g s p t → pathWeight a.combine a.zero a.weight p = st.distOf a t → a.compare (st.distOf a t) a.infty = true →
      ∀ e ∈ p, ∃ u q, PredPath g (st.preds.getD · []) t u q ∧ e ∈ q := by
  intro p
  induction p using List.reverseRecOn with
  | nil => intro t _ _ _ e he; cases he
  | append_singleton p f ih =>
    intro t hp hw hlt e he
    have hf := (i.optimal h hno hlt f).mpr ⟨p, hp, hw⟩
    obtain ⟨u, h3, h4, rfl⟩ := snoc_inv hp
    have hW : ∃ u ∈ g.vertices, ∃ e' ∈ g.outEdges u, a.weight f = a.weight e' := ⟨u, h.pathV h3, f, h4, rfl⟩
    have hone : PredPath g (st.preds.getD · []) (g.target f) u [f] := by
      have := PredPath.cons (PredPath.nil (g := g) (preds := (st.preds.getD · [])) (t := g.target f)) hf
      rw [hsrc u (h.pathV h3) f h4] at this
      exact this
    rw [List.mem_append, List.mem_singleton] at he
    rcases he with he | rfl
    · rw [pathWeight_snoc] at hw
      have hlt2 := hlt
      rw [← hw] at hlt2
      have h5 := h.alg.back _ _ hW hlt2
      obtain ⟨h6, h7⟩ := i.final h hno p u h3 h5
      have heq : pathWeight a.combine a.zero a.weight p = st.distOf a u := by
        rcases h.alg.total (st.distOf a u) (pathWeight a.combine a.zero a.weight p) with h8 | h8 | h8
        · exfalso
          have h9 := hstrict _ _ _ hW h8 hlt2
          rw [hw] at h9
          exact Hyp.not_lt_of_le (i.edge u f (.inl ⟨h6, h4⟩)) h9
        · exact h8.symm
        · exact absurd h8 (Hyp.not_lt_of_le h7)
      obtain ⟨v, q, h8, h9⟩ := ih u h3 heq (i.disc u (.inr h6)).1 e he
      exact ⟨v, q ++ [f], predPath_append h8 hone, by simp [h9]⟩
    · exact ⟨u, [e], hone, by simp⟩

end PyBGL.Dijkstra
